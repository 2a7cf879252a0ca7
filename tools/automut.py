"""Makes small edits of the model by rule and looks for those no theorem notices.

Every rule (a comparison with its boundary moved, an off-by-one number, swapped
`&&`/`||`, a negated test, start for stop, ...) is applied at every place it fits
in the definitions of lean/Verif/Model.  The scratch copy has no `example`s, so
that only theorems can fail.  The build stops at the first theorem that fails;
one JSON line per edit goes to seeded/AUTO.jsonl.

usage: automut.py list | automut.py run [FILE...] | automut.py again   (those not noticed so far)
"""
import json, os, re, subprocess, sys, glob, random

ROOT = os.path.join(os.path.dirname(os.path.abspath(__file__)), "..")
BASE, SCRATCH = "/tmp/auto/base", "/tmp/auto/lean"
LOG = os.path.join(ROOT, "seeded", "AUTO.jsonl")
DECL = re.compile(r"^(@\[[^\]]*\]\s*)?(private |protected |noncomputable )?(theorem|example|def|instance|structure|inductive|abbrev|lemma|macro|notation|class)\b\s*(\S+)?")
STOP = re.compile(r"^(/--|/-!|end\b|namespace\b|section\b|variable\b|open\b|set_option\b|@\[|--|deriving\b|mutual\b|private |protected |theorem\b|example\b|def\b|instance\b|structure\b|inductive\b|abbrev\b)")

RULES = [
    (r" < ", [" ≤ "]), (r" ≤ ", [" < "]), (r" > ", [" ≥ "]), (r" ≥ ", [" > "]),
    (r" == ", [" != "]), (r" != ", [" == "]), (r" ≠ ", [" = "]),
    (r" && ", [" || "]), (r" \|\| ", [" && "]), (r" ∧ ", [" ∨ "]), (r" ∨ ", [" ∧ "]),
    (r"\btrue\b", ["false"]), (r"\bfalse\b", ["true"]),
    (r" \+ 1\b", ["", " + 2"]), (r" - 1\b", ["", " - 2"]),
    (r"(?<![\w.:+-] )(?<![\w.])\b\d+\b", ["SUCC"]),
    (r" \+ (?!1\b)", [" - "]), (r" - (?!1\b)", [" + "]),
    (r"\.start\b", [".stop"]), (r"\.stop\b", [".start"]),
    (r"\bnot ", [""]), (r"(?<=[ (])!(?=[a-zA-Z(])", [""]),
    (r"\.head\?", [".getLast?"]), (r"\.getLast\?", [".head?"]),
    (r"\.reverse\b", [""]),
    (r"\.normalized\b", [".original"]), (r"\.original\b", [".normalized"]),
    (r"\.drop\b", [".take"]), (r"\.take\b", [".drop"]),
    (r"\bmin\b", ["max"]), (r"\bmax\b", ["min"]),
    (r"::= ", []), (r"\.fst\b", [".snd"]), (r"\.snd\b", [".fst"]),
    (r"\.left\b", [".right"]), (r"\.right\b", [".left"]),
    (r"\.prev\b", [".next"]), (r"\.next\b", [".prev"]),
    (r"if (?=[a-zA-Z(¬])(?!let)", ["if ¬"]),
    (r"\.continue\b", [".break"]),
]

def defs(path):
    """(line number, definition name) of the lines that belong to a definition."""
    name, doc, out, ns = None, False, [], []
    for n, line in enumerate(open(path), 1):
        t = line.rstrip("\n")
        if doc:
            if "-/" in t: doc = False
            continue
        if t.lstrip().startswith("/-"):
            name = None if t.startswith("/-") else name
            doc = "-/" not in t
            continue
        m = DECL.match(t)
        if m:
            name = m.group(4) if m.group(3) in ("def", "abbrev") else None
        elif STOP.match(t) or (t and not t[0].isspace() and t[0] not in "|"):
            name = None
        if name and t.strip():
            out.append((n, name, t))
    return out

def mutants():
    res = []
    for path in sorted(glob.glob(os.path.join(ROOT, "lean/Verif/Model/*.lean"))):
        rel = "Verif/Model/" + os.path.basename(path)
        if os.path.basename(path) in ("Notation.lean", "UnicodeTables.lean"): continue
        for n, name, t in defs(path):
            code = t.split("--")[0]
            start = code.index(":=") + 2 if DECL.match(t) and ":=" in code else (len(code) if DECL.match(t) else 0)
            for pat, subs in RULES:
                for m in re.finditer(pat, code):
                    if m.start() < start: continue
                    for s in subs:
                        new = str(int(m.group(0)) + 1) if s == "SUCC" else s
                        line = code[:m.start()] + new + code[m.end():]
                        if s == "if ¬":
                            # negate up to `then`
                            k = code.find(" then", m.end())
                            if k < 0: continue
                            cond = code[m.end():k]
                            if ":" in cond: continue
                            line = code[:m.start()] + "if ¬(" + cond + ")" + code[k:]
                        if line != code:
                            res.append((rel, n, name, t, line))
    seen, out = set(), []
    for x in res:
        k = (x[0], x[1], x[4])
        if k not in seen:
            seen.add(k); out.append(x)
    return out

def strip_examples(d):
    for p in glob.glob(d + "/Verif/**/*.lean", recursive=True):
        lines = open(p).read().split("\n")
        out, i = [], 0
        while i < len(lines):
            if lines[i].startswith("example"):
                # drop its doc comment and `open … in`
                while out and not out[-1].strip(): out.pop()
                if out and re.match(r"open .* in$", out[-1]): out.pop()
                if out and out[-1].rstrip().endswith("-/"):
                    while not out[-1].lstrip().startswith("/-"): out.pop()
                    if out[-1].lstrip().startswith("/-!"): pass
                    else: out.pop()
                if out and re.match(r"open .* in$", out[-1]): out.pop()
                i += 1
                while i < len(lines) and not STOP.match(lines[i]): i += 1
            else:
                out.append(lines[i]); i += 1
        open(p, "w").write("\n".join(out))

def decl_at(path, line):
    name = "?"
    for n, t in enumerate(open(path), 1):
        if n > line: break
        m = DECL.match(t)
        if m: name = m.group(4)
    return name

def build(d):
    """None if everything builds, else (file, line) of the first error."""
    p = subprocess.Popen(["lake", "build"], cwd=d, stdout=subprocess.PIPE, stderr=subprocess.STDOUT, text=True, start_new_session=True)
    first = None
    for l in p.stdout:
        m = re.match(r"error: (Verif\S*?\.lean):(\d+):", l)
        if m:
            first = (m.group(1), int(m.group(2)))
            if "/Model/" not in m.group(1): break
            break
        if l.startswith("error:") and first is None and "build failed" in l:
            first = ("?", 0); break
    if first is not None:
        import signal
        try: os.killpg(p.pid, signal.SIGKILL)
        except ProcessLookupError: pass
    p.wait()
    return first

def main():
    ms = mutants()
    if sys.argv[1] == "list":
        for x in ms: print(*x[:3], "|", x[3].strip(), "=>", x[4].strip())
        print(len(ms)); return
    if sys.argv[2:]:
        ms = [m for m in ms if any(f in m[0] for f in sys.argv[2:])]
    last = {}
    if os.path.exists(LOG):
        for l in open(LOG):
            j = json.loads(l); last[(j["definition"], j["edit"])] = j["status"]
    done = {k for k, v in last.items() if sys.argv[1] == "run" or v != "survived"}
    if sys.argv[1] == "again":
        ms = [m for m in ms if (f"{m[0]} {m[2]}", f"{m[3].strip()} ==> {m[4].strip()}") in last]
    subprocess.check_call(f"mkdir -p /tmp/auto && rm -rf {BASE} {SCRATCH} && cp -a {ROOT}/lean {BASE}", shell=True)
    strip_examples(BASE)
    r = build(BASE)
    if r is not None: raise SystemExit(f"the copy without examples does not build: {r}")
    random.Random(1).shuffle(ms)
    # definitions with the fewest edits so far come first
    count, turn = {}, []
    for k in last: count[k[0]] = count.get(k[0], 0) + 1
    for m in ms:
        d = f"{m[0]} {m[2]}"
        if (d, f"{m[3].strip()} ==> {m[4].strip()}") not in last: count[d] = count.get(d, 0) + 1
        turn.append(count.get(d, 0))
    ms = [m for _, m in sorted(zip(turn, ms), key=lambda x: x[0])]
    for rel, n, name, old, new in ms:
        key = (f"{rel} {name}", f"{old.strip()} ==> {new.strip()}")
        if key in done: continue
        subprocess.check_call(f"rsync -a --delete {BASE}/ {SCRATCH}/ 2>/dev/null || (rm -rf {SCRATCH}; cp -a {BASE} {SCRATCH})", shell=True)
        p = os.path.join(SCRATCH, rel)
        lines = open(p).read().split("\n")
        assert lines[n - 1] == old, (rel, n)
        lines[n - 1] = new
        open(p, "w").write("\n".join(lines))
        e = build(SCRATCH)
        if e is None: status, thm = "survived", ""
        elif "/Model/" in e[0]: status, thm = "no program", ""
        else: status, thm = "noticed", decl_at(os.path.join(SCRATCH, e[0]), e[1]) if e[0] != "?" else "?"
        print(status, key, thm, flush=True)
        if status == "no program": continue
        with open(LOG, "a") as f:
            f.write(json.dumps({"definition": key[0], "edit": key[1], "status": status, "first_theorem": thm}, ensure_ascii=False) + "\n")

if __name__ == "__main__": main()
