#!/bin/bash
# build helper: errors first, linter noise removed
cd /verif/lean; lake build "$@" 2>&1 | grep -v "^⚠\|^trace\|linter\|Replayed\|^Hint: The binding\|apply\] _\|^$\|not explicitly referenced" | head -${N:-90}
