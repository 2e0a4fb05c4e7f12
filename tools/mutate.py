"""Mutation testing of the theorems.

usage: python3 tools/mutate.py [name ...]

For every mutant of tools/mutants.py (or the named ones) without a conclusive row in seeded/LOG.jsonl the edit is
applied to a scratch copy of lean/ and the modules with the theorems of the claims it falsifies are rebuilt.  A theorem
or lemma whose proof fails gets the proof `sorry`, a failing example is dropped, and the build is repeated until it
succeeds.  Then `#print axioms` tells for every theorem of the claims whether its proof is lost: it failed itself, or it
rests on a lemma that failed.  A claim none of whose theorems is lost survives the mutant.  Nothing in lean/ is changed.
"""
import json, os, re, shutil, subprocess, sys, time
sys.path.insert(0, os.path.dirname(__file__))
from mutants import MUTANTS

ROOT = "/verif"
BASE, WORK = "/tmp/mut/base", "/tmp/mut/work"
LOG = os.path.join(ROOT, "seeded", "LOG.jsonl")
PRE = "nice -n 10 taskset -c 2,3 "
DECL = re.compile(r"^(?:@\[[^\]]*\]\s*)?(?:private |protected |noncomputable |local |nonrec )*(theorem|lemma|def|abbrev|structure|instance|example|inductive|class)\b\s*([^\s:({\[]*)")
CLAIM = re.compile(r"^(C\d\d+)_")


def sh(cmd, **kw):
    return subprocess.run(cmd, shell=True, capture_output=True, text=True, **kw)


def restore():
    sh(f"rm -rf {WORK}; cp -a {BASE} {WORK}")


def sources(top):
    for d, _, fs in os.walk(os.path.join(top, "Verif")):
        for f in fs:
            if f.endswith(".lean"):
                yield os.path.relpath(os.path.join(d, f), top)


def claim_theorems(top):
    """Module -> theorems named after a claim."""
    out = {}
    for f in sources(top):
        names = re.findall(r"^(?:@\[[^\]]*\]\s*)?(?:theorem|lemma) (C\d\d+_\w+)", open(os.path.join(top, f)).read(), re.M)
        if names:
            out[f[:-5].replace("/", ".")] = names
    return out


def extent(lines, line):
    """First and last line (0-based, exclusive) of the declaration containing the 1-based line."""
    i = line - 1
    while i >= 0 and not DECL.match(lines[i]):
        i -= 1
    if i < 0:
        return None
    j = i + 1
    while j < len(lines) and (lines[j] == "" or lines[j][0] in " \t)|}⟩"):
        j += 1
    return i, j


def sig_end(text):
    """Index where the statement ends: the `:=` at depth zero not belonging to a `let`, or a line starting with `|`."""
    depth, lets, k = 0, 0, 0
    while k < len(text):
        c = text[k]
        if c in "([{⟨⟦":
            depth += 1
        elif c in ")]}⟩⟧":
            depth -= 1
        elif depth == 0 and text.startswith(":=", k):
            if lets == 0:
                return k
            lets -= 1
        elif depth == 0 and re.match(r"\b(let|have)\s", text[k:k + 6]) and (k == 0 or not text[k - 1].isalnum()):
            lets += 1
        elif depth == 0 and re.match(r"\n\s+\| ", text[k:k + 12]):
            return k
        k += 1
    return None


def patch(path, lns):
    """Replaces the proofs of the declarations around the given error lines; returns their names and kinds."""
    lines = open(path).read().split("\n")
    done = []
    exts = sorted({extent(lines, l) for l in lns} - {None}, reverse=True)
    for i, j in exts:
        kind, name = DECL.match(lines[i]).groups()
        text = "\n".join(lines[i:j])
        done.append((kind, name or f"{kind} (line {i + 1})"))
        tail = [""] * (j - i)
        if kind == "example":
            new = tail
        elif kind in ("theorem", "lemma"):
            e = sig_end(text)
            if e is None or text[e:].strip() == ":= sorry":
                new = tail                      # the statement itself is rejected
            else:
                new = (text[:e].rstrip() + " := sorry").split("\n")
                new += [""] * (j - i - len(new))
        else:
            raise RuntimeError(f"definition {name} in {path} fails")
        # an attribute, docstring or `... in` line directly before a dropped declaration would dangle
        if new == tail:
            h = i - 1
            while h >= 0 and (lines[h].startswith(("@[", "set_option", "open ", "omit ")) and
                              (lines[h].startswith("@[") or lines[h].rstrip().endswith(" in"))):
                lines[h] = ""
                h -= 1
            if h >= 0 and lines[h].rstrip().endswith("-/"):
                g = h
                while g >= 0 and not lines[g].lstrip().startswith("/-"):
                    g -= 1
                if lines[g].lstrip().startswith("/--"):
                    for q in range(g, h + 1):
                        lines[q] = ""
        lines[i:j] = new
    open(path, "w").write("\n".join(lines))
    return done


def run(mut):
    restore()
    path = os.path.join(WORK, "Verif", mut["file"])
    txt = open(path).read()
    assert txt.count(mut["old"]) == 1, (mut["name"], txt.count(mut["old"]))
    thms = claim_theorems(WORK)
    targets = [m for m, ns in thms.items() if any(CLAIM.match(n).group(1) in mut["claims"] for n in ns)]
    assert targets, (mut["name"], "no theorems")
    open(path, "w").write(txt.replace(mut["old"], mut["new"]))
    t = time.time()
    direct, lemmas, examples = set(), set(), set()
    for _ in range(40):
        r = sh(PRE + "lake build " + " ".join(targets), cwd=WORK)
        if r.returncode == 0:
            break
        errs = {}
        for f, line in re.findall(r"error: (?:\./)?(Verif/[\w/]+\.lean):(\d+):\d+", r.stdout + r.stderr):
            errs.setdefault(f, set()).add(int(line))
        if not errs:
            raise RuntimeError("build fails without positions: " + (r.stdout + r.stderr)[-400:])
        for f, ls in errs.items():
            for kind, name in patch(os.path.join(WORK, f), ls):
                if kind == "example":
                    examples.add(f"{os.path.basename(f)[:-5]}: {name}")
                elif CLAIM.match(name):
                    direct.add(name)
                else:
                    lemmas.add(f"{os.path.basename(f)[:-5]}.{name}")
    else:
        raise RuntimeError("too many rounds")
    names = [n for m in targets for n in thms[m]]
    q = os.path.join(WORK, "Q.lean")
    open(q, "w").write("\n".join(f"import {m}" for m in targets) + "\n" + "\n".join(f"#print axioms CasSph.{n}" for n in names) + "\n")
    out = sh(PRE + "lake env lean Q.lean", cwd=WORK)
    out = out.stdout + out.stderr
    alive = set(re.findall(r"'CasSph\.(\w+)' (?:does not depend|depends)", out))
    lost = {n for n in names if n not in alive}
    for n, ax in re.findall(r"'CasSph\.(\w+)' depends on axioms: \[([^\]]*)\]", out):
        if "sorryAx" in ax:
            lost.add(n)
    status = {}
    for c in mut["claims"]:
        d = sorted(n for n in direct if n.startswith(c + "_"))
        l = sorted(n for n in lost if n.startswith(c + "_"))
        if d:
            status[c] = "theorem fails"
        elif l:
            status[c] = "proof lost: a lemma it is built on fails"
        else:
            status[c] = "SURVIVES"
    return dict(mutant=mut["name"], definition=mut["defn"], file="lean/Verif/" + mut["file"],
                edit={"old": mut["old"], "new": mut["new"]}, bug=mut["bug"], claims_broken=mut["claims"],
                outcome=status, theorems_failed=sorted(direct), theorems_resting_on_failed_lemmas=sorted(lost - direct),
                lemmas_failed=sorted(lemmas), examples_failed=len(examples),
                theorems_tightened=mut.get("tightened", []), seconds=round(time.time() - t))


def load():
    rows = {}
    if os.path.exists(LOG):
        for l in open(LOG):
            if l.strip():
                e = json.loads(l)
                rows[e["mutant"]] = e
    return rows


def save(e):
    rows = load()
    old = rows.get(e["mutant"])
    if old and old.get("theorems_tightened") and not e["theorems_tightened"]:
        e["theorems_tightened"] = old["theorems_tightened"]
    if old and old.get("note"):
        e["note"] = old["note"]
    rows[e["mutant"]] = e
    order = [m["name"] for m in MUTANTS]
    with open(LOG + ".tmp", "w") as f:
        for n in sorted(rows, key=lambda n: order.index(n) if n in order else -1):
            f.write(json.dumps(rows[n]) + "\n")
    os.replace(LOG + ".tmp", LOG)


def conclusive(e, mut):
    """A row to be kept: made by this procedure, or every claim lost a theorem directly."""
    if e["claims_broken"] != mut["claims"] or e["edit"] != {"old": mut["old"], "new": mut["new"]}:
        return False
    return "theorems_resting_on_failed_lemmas" in e or all(v == "theorem fails" for v in e["outcome"].values())


def main():
    names = sys.argv[1:]
    rows = load()
    for mut in MUTANTS:
        if (names and mut["name"] not in names) or (not names and mut["name"] in rows and conclusive(rows[mut["name"]], mut)):
            continue
        try:
            e = run(mut)
        except (AssertionError, RuntimeError) as ex:
            print("BAD MUTANT", mut["name"], ex, flush=True)
            continue
        save(e)
        print(e["mutant"], e["outcome"], "failed:", e["theorems_failed"][:6], "lost:", len(e["theorems_resting_on_failed_lemmas"]),
              "lemmas:", e["lemmas_failed"][:4], e["seconds"], "s", flush=True)


if __name__ == "__main__":
    main()
