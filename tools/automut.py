"""Random mutants of the model.

usage: python3 tools/automut.py seed [count]

Every mutant is a small edit (operator, constant, sign, argument, exception, ...) in the body of one definition of
lean/Verif/Model, applied to a scratch copy of lean/.  The whole project is rebuilt until the first proof fails.  A mutant
without any failure survives and is to be examined: either it does not change the meaning, or no theorem constrains that part
of the model.  One row per mutant in seeded/LOG.jsonl; edits that Lean rejects in the model itself are not counted.
"""
import json, os, random, re, signal, subprocess, sys, time
sys.path.insert(0, os.path.dirname(__file__))
from mutate import BASE, DECL, LOG, extent, sh

WORK = "/tmp/mut/auto"
OPS = [(r" \+ ", " - ", "plus for minus"), (r" - ", " + ", "minus for plus"), (r" \* ", " + ", "sum instead of product"), (r" / ", " * ", "product instead of quotient"),
       (r" < ", " ≤ ", "boundary included"), (r" ≤ ", " < ", "boundary excluded"), (r" > ", " ≥ ", "boundary included"), (r" ≥ ", " > ", "boundary excluded"),
       (r" < ", " > ", "comparison reversed"), (r" ≤ ", " ≥ ", "comparison reversed"), (r" ∧ ", " ∨ ", "or for and"), (r" ∨ ", " ∧ ", "and for or"),
       (r"\btrue\b", "false", "false for true"), (r"\bfalse\b", "true", "true for false"), (r"\.TE\b", ".TM", "TM for TE"), (r"\.TM\b", ".TE", "TE for TM"),
       (r"\bmin\b", "max", "max for min"), (r"\bmax\b", "min", "min for max"), (r"\br1\b", "r2", "r2 for r1"), (r"\br2\b", "r1", "r1 for r2"),
       (r"\bl1\b", "l2", "l2 for l1"), (r"\bl2\b", "l1", "l1 for l2"), (r"\.(valueError|indexError|keyError|attributeError|notImplementedError)", ".typeError", "another exception"),
       (r"\.typeError", ".valueError", "another exception"), (r"\(-1\)", "1", "sign lost"), (r"(?<![\w.^])1(?![\w.])", "2", "constant 2 for 1"), (r"(?<![\w.^])2(?![\w.])", "1", "constant 1 for 2"),
       (r"(?<![\w.^])0(?![\w.])", "1", "constant 1 for 0"), (r"(?<![\w.])0\.5(?!\w)", "0.25", "half the constant"), (r"\.take\b", ".drop", "rest instead of beginning"),
       (r"\.drop\b", ".take", "beginning instead of rest"), (r"\.1\b(?!\.)", ".2", "second component for first"), (r"\.2\b(?!\.)", ".1", "first component for second"), (r"¬ ?", "", "negation lost"),
       (r"\bmat1\b", "mat2", "material 2 for 1"), (r"\bmat2\b", "mat1", "material 1 for 2"), (r"\bmat3\b", "mat1", "sphere for medium"), (r"\.eps\b", ".mu", "permeability for permittivity"),
       (r"\.mu\b", ".eps", "permittivity for permeability"), (r"\.i1\b", ".i0", "neighbouring order"), (r"\.i0\b", ".i1", "neighbouring order"), (r"\.k1\b", ".k0", "neighbouring order"),
       (r"\.k0\b", ".k1", "neighbouring order"), (r"\blssmax\b", "lmax", "other cut-off"), (r"\blmax\b", "lssmax", "other cut-off"), (r"Real\.exp \(", "Real.exp (-", "sign of an exponent"),
       (r"\bTE\b", "TM", "TM for TE"), (r"\bTM\b", "TE", "TE for TM"), (r"\^ 2\b", "^ 3", "wrong power"), (r"\bhead", "tail", "tail for head"), (r"Finset\.range \(", "Finset.range (1 + ", "one term more"),
       (r"List\.range \(", "List.range (1 + ", "one element more"), (r"\.reverse\b", "", "order"), (r"\btranspose\b", "", "not transposed"), (r"ᵀ", "", "not transposed"), (r"\bsome\b", "none", "nothing"),
       (r" \+\+ ", " ++ [] ++ ", ""), (r"\bc0\b", "c1", "argument"), (r"\bm\b", "(-m)", "sign of m"), (r"\bl\b", "(l + 1)", "wrong l"), (r"\bk\b", "(2 * k)", "wrong wavenumber"), (r"\bL\b", "(2 * L)", "wrong distance")]
OPS = [o for o in OPS if o[2]]


def candidates():
    out = {}
    d = os.path.join(BASE, "Verif", "Model")
    for f in sorted(os.listdir(d)):
        text = open(os.path.join(d, f)).read()
        code = re.sub(r"/-.*?-/|--[^\n]*", lambda m: re.sub(r"[^\n]", "\0", m.group()), text, flags=re.S)
        lines = text.split("\n")
        pos = [0]
        for l in lines:
            pos.append(pos[-1] + len(l) + 1)
        i = 0
        while i < len(lines):
            m = DECL.match(lines[i])
            if not m or m.group(1) not in ("def", "abbrev"):
                i += 1
                continue
            _, j = extent(lines, i + 1)
            a, b = pos[i], pos[j]
            k = code.find(":=", a, b)
            k2 = code.find("\n  | ", a, b)
            k3 = code.find(" where", a, b)
            s = min([x for x in (k, k2, k3) if x >= 0], default=None)
            if s is not None:
                for r, new, bug in OPS:
                    for h in re.finditer(r, code[s:b]):
                        out.setdefault((f, m.group(2)), []).append((s + h.start(), s + h.end(), new, bug))
            i = j
    return out


def build():
    p = subprocess.Popen("nice -n 10 taskset -c 2,3 lake build Verif", shell=True, cwd=WORK, stdout=subprocess.PIPE, stderr=subprocess.STDOUT, text=True, start_new_session=True)
    hit, t = None, time.time()
    for line in p.stdout:
        m = re.match(r"error: (?:\./)?(Verif/[\w/]+\.lean):(\d+):\d+: (.*)", line)
        if m:
            hit = m.groups()
            break
        if time.time() - t > 3600:
            hit = ("timeout", "0", "")
            break
    if hit:
        try:
            os.killpg(p.pid, signal.SIGKILL)
        except ProcessLookupError:
            pass
    p.wait()
    return hit


def main():
    seed = int(sys.argv[1])
    count = int(sys.argv[2]) if len(sys.argv) > 2 else 10 ** 9
    rnd = random.Random(seed)
    cand = candidates()
    keys = sorted(cand)
    rnd.shuffle(keys)
    have = {json.loads(l)["mutant"] for l in open(LOG)}
    for n, key in enumerate(keys[:count]):
        name = f"a{seed}_{n}"
        cs = list(cand[key])
        rnd.shuffle(cs)
        if name in have:
            continue
        for a, b, new, bug in cs[:4]:
            sh(f"rm -rf {WORK}; cp -a {BASE} {WORK}")
            path = os.path.join(WORK, "Verif", "Model", key[0])
            text = open(path).read()
            open(path, "w").write(text[:a] + new + text[b:])
            t = time.time()
            hit = build()
            if hit and "/Model/" in hit[0]:
                continue
            s, e = text.rfind("\n", 0, a) + 1, text.find("\n", b)
            row = dict(mutant=name, definition=key[1], file="lean/Verif/Model/" + key[0], edit={"old": text[s:e], "new": text[s:a] + new + text[b:e]}, bug=bug,
                       outcome="SURVIVES", seconds=round(time.time() - t))
            if hit:
                lines = open(os.path.join(WORK, hit[0])).read().split("\n") if hit[0] != "timeout" else []
                x = extent(lines, int(hit[1])) if lines else None
                row["outcome"] = "proof fails"
                row["first_failure"] = hit[0] + (": " + DECL.match(lines[x[0]]).group(2) if x else "")
            with open(LOG, "a") as f:
                f.write(json.dumps(row) + "\n")
            print(name, key, row["edit"], row["outcome"], row.get("first_failure", ""), row["seconds"], "s", flush=True)
            break


main()
