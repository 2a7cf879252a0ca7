"""Tries wrong programs against the theorems.

For every mutant in mutants.py: copy /verif/lean to a scratch directory, make the
edit, build.  A theorem that fails gets its proof replaced by `sorry` (in the
scratch copy only) and the build goes on, so that every theorem whose own proof
fails is found; at the end `#print axioms` tells which claimed theorems of
MANIFEST.json rest on a failed one (all of them are checked on the unedited model first).  One JSON line per mutant is appended to
seeded/LOG.jsonl.

usage: seed.py NAME...   (or `all`: every mutant not yet in the log)
"""
import json, os, re, subprocess, sys
from mutants import MUTANTS

ROOT = os.path.join(os.path.dirname(os.path.abspath(__file__)), "..")
SCRATCH = "/tmp/seed/lean"
BASE = "/tmp/seed/base"  # snapshot of lean/ taken at the start
LOG = os.path.join(ROOT, "seeded", "LOG.jsonl")
DECL = re.compile(r"^(@\[[^\]]*\]\s*)?(private |protected |noncomputable )?(theorem|example|def|instance|structure|inductive|abbrev|lemma)\b\s*(\S+)?")
STOP = re.compile(r"^(/--|/-!|end\b|namespace\b|section\b|variable\b|open\b|set_option\b|@\[|--|deriving\b|mutual\b|private |protected |theorem\b|example\b|def\b|instance\b|structure\b|inductive\b|abbrev\b)")

def sh(cmd, **kw):
    return subprocess.run(cmd, shell=True, capture_output=True, text=True, **kw)

def restore():
    os.makedirs(SCRATCH, exist_ok=True)
    subprocess.check_call(f"cp -a {BASE}/. {SCRATCH}.new && rm -rf {SCRATCH} && mv {SCRATCH}.new {SCRATCH}", shell=True)

def axioms(cwd, names):
    """For each theorem: its axioms, or None if the theorem is not there."""
    with open(os.path.join(cwd, "Ax.lean"), "w") as f:
        f.write("import Verif\n" + "".join(f"#print axioms {t}\n" for t in names))
    r = sh("lake env lean Ax.lean", cwd=cwd)
    out = r.stdout + r.stderr
    res = {}
    for t in names:
        m = re.search(r"'" + re.escape(t) + r"' (depends on axioms: \[([^\]]*)\]|does not depend)", out)
        res[t] = None if m is None else (m.group(2) or "")
    return res

def snapshot():
    """Takes the snapshot and returns the claimed theorems.  They must all be in the
    unedited snapshot, without sorry: otherwise one that is missing anyway would be
    counted as lost to every edit."""
    os.makedirs("/tmp/seed", exist_ok=True)
    subprocess.check_call(f"rm -rf {BASE} && cp -a {ROOT}/lean {BASE}", shell=True)
    with open(os.path.join(ROOT, "MANIFEST.json")) as f:
        names = [t for c in json.load(f)["claims"] for t in c["theorems"]]
    names = list(dict.fromkeys(names))
    r = sh("lake build", cwd=BASE)
    if r.returncode != 0:
        raise SystemExit("the unedited snapshot does not build\n" + (r.stdout + r.stderr)[-3000:])
    ax = axioms(BASE, names)
    os.remove(os.path.join(BASE, "Ax.lean"))
    bad = [t for t in names if ax[t] is None or "sorryAx" in ax[t]]
    if bad:
        raise SystemExit("not proved in the unedited snapshot: " + ", ".join(bad))
    return names

def of_property(ids):
    with open(os.path.join(ROOT, "MANIFEST.json")) as f:
        return {t.removeprefix("Verif.") for c in json.load(f)["claims"] if c["property"] in ids for t in c["theorems"]}

def cut(text):
    """The declaration `text` with its proof replaced by sorry."""
    m = re.search(r":= by\n", text)
    m1 = re.search(r":= by ", text)
    if m is None or (m1 is not None and m1.start() < m.start()):
        m = m1 or m
    depth = 0
    pos = None
    i = 0
    while i < len(text):
        ch = text[i]
        if ch in "([{⟨": depth += 1
        elif ch in ")]}⟩": depth -= 1
        elif depth == 0 and text.startswith(":=", i):
            pos = i; break
        elif depth == 0 and text.startswith("\n  | ", i):
            pos = i; break
        i += 1
    if m is not None and pos is not None and text.startswith(":=", pos) and m.start() > pos:
        # `let x := ..` inside the statement?
        head = text[:pos]
        if re.search(r"\blet\b[^\n]*$", head):
            pos = m.start()
    if pos is None:
        return None
    return text[:pos] + " := sorry\n\n"

def fix(path, lines_err, failed):
    with open(path) as f:
        lines = f.readlines()
    decls = []  # (start, end, kind, name)
    for i, l in enumerate(lines):
        m = DECL.match(l)
        if m:
            j = i + 1
            while j < len(lines) and not STOP.match(lines[j]):
                j += 1
            decls.append((i, j, m.group(3), m.group(4)))
    todo = {}
    for e in lines_err:
        d = [x for x in decls if x[0] <= e - 1 < x[1]]
        if not d:  # left over from a declaration cut before
            d = [x for x in decls if x[0] <= e - 1][-1:]
        if not d:
            raise SystemExit(f"no declaration at {path}:{e}")
        todo[d[0][0]] = d[0]
    for s in sorted(todo, reverse=True):
        s, e, kind, name = todo[s]
        text = "".join(lines[s:e])
        rel = os.path.relpath(path, SCRATCH)
        label = name if kind in ("theorem", "lemma") else f"{kind} at {rel}:{s+1}"
        if kind in ("theorem", "lemma"):
            if "sorry" in text:
                lines[s:e] = ["\n"] * (e - s)
                # a doc comment may be left over: turn it into a plain one
                k = s - 1
                while k >= 0 and not lines[k].startswith("/--"):
                    k -= 1
                if k >= 0 and "-/" in "".join(lines[k:s]) :
                    lines[k] = lines[k].replace("/--", "/-", 1)
                failed.append(label + " (statement no longer typechecks)")
            else:
                new = cut(text)
                if new is None:
                    raise SystemExit("cannot cut " + text)
                lines[s:e] = [new] + ["\n"] * max(0, (e - s) - new.count("\n"))
                failed.append(label)
        elif kind == "example":
            k = s - 1
            while k >= 0 and lines[k].strip() != "" and not lines[k].startswith("/--"):
                k -= 1
            if k >= 0 and lines[k].startswith("/--"):
                lines[k] = lines[k].replace("/--", "/-", 1)
            lines[s:e] = ["\n"] * (e - s)
            failed.append(label)
        else:
            raise SystemExit("definition fails: " + label)
    with open(path, "w") as f:
        f.writelines(lines)

def killed(out):
    """The files whose compilation was killed (exit status 137)."""
    return [m.group(1).replace(".", "/") + ".lean"
            for m in re.finditer(r"^✖ \[\d+/\d+\] Building (\S+)(?:(?!^[✔✖ℹ⚠]).)*?exited with code 137", out, re.M | re.S)]

def drop_examples(rel, failed):
    path = os.path.join(SCRATCH, rel)
    with open(path) as f:
        lines = f.readlines()
    n = len(failed)
    starts = [i + 1 for i, l in enumerate(lines) if l.startswith("example")]
    if starts:
        for s in starts:
            fix(path, {s}, failed)
        del failed[n:]
        failed.append(f"examples of {rel} not evaluated, out of memory")
        return
    # then the theorems about concrete cases
    for i, l in enumerate(lines):
        if l.startswith("theorem"):
            j = i + 1
            while j < len(lines) and not STOP.match(lines[j]):
                j += 1
            if "decide +kernel" in "".join(lines[i:j]):
                starts.append(i + 1)
    if not starts:
        raise SystemExit(f"out of memory in {rel}, which has no concrete cases")
    for s in reversed(starts):
        fix(path, {s}, failed)
    failed[n:] = [f + " (not evaluated, out of memory)" for f in failed[n:]]

def run(mut, names):
    restore()
    path = os.path.join(SCRATCH, "Verif", mut["file"])
    with open(path) as f:
        t = f.read()
    ctx = mut.get("context", "")  # text in front, to tell occurrences apart
    if t.count(ctx + mut["old"]) != 1:
        raise SystemExit(f"{mut['name']}: {t.count(ctx + mut['old'])} occurrences of the text to replace")
    with open(path, "w") as f:
        f.write(t.replace(ctx + mut["old"], ctx + mut["new"]))
    failed = []
    for _ in range(80):
        r = sh("lake build", cwd=SCRATCH)
        out = r.stdout + r.stderr
        errs = {}
        dead = killed(out)
        if dead:
            # out of memory: once more, one file at a time; then without the examples
            r = sh("LEAN_NUM_THREADS=1 lake build", cwd=SCRATCH)
            out = r.stdout + r.stderr
            for mod in killed(out):
                drop_examples(mod, failed)
                errs[mod] = set()
        for m in re.finditer(r"^error: (Verif[^:\s]*\.lean):(\d+):\d+", out, re.M):
            errs.setdefault(m.group(1), set()).add(int(m.group(2)))
        if not errs:
            if r.returncode != 0:
                raise SystemExit(out[-3000:])
            break
        for p, ls in errs.items():
            if "/Model/" in p:
                i = out.find("error: " + p)
                raise SystemExit(f"{mut['name']}: the edited model does not typecheck\n" + out[i:i+1500])
            if ls:
                fix(os.path.join(SCRATCH, p), ls, failed)
    else:
        raise SystemExit("too many rounds")
    ax = axioms(SCRATCH, names)
    skipped = {f.split(" ")[0] for f in failed if f.endswith("(not evaluated, out of memory)")}
    lost = [t.replace("Verif.", "") for t in names if ax[t] is None or "sorryAx" in ax[t]]
    lost = [t for t in lost if t.split(".")[-1] not in skipped and t not in skipped]
    return failed, lost

def main():
    done = set()
    if os.path.exists(LOG):
        with open(LOG) as f:
            done = {json.loads(l).get("name") for l in f if l.strip()}
    want = sys.argv[1:]
    names = snapshot()
    for mut in MUTANTS:
        if not (mut["name"] in want or (want == ["all"] and mut["name"] not in done)):
            continue
        try:
            failed, lost = run(mut, names)
        except SystemExit as e:
            print("!!", mut["name"], e, flush=True)
            continue
        hit = [t for t in lost if t in of_property(mut["breaks"])]
        print(("killed  " if hit else "SURVIVED"), mut["name"], "direct:", failed, "claimed:", lost, flush=True)
        rec = {"name": mut["name"], "definition": mut["def"], "file": "Verif/" + mut["file"],
               "edit": mut["edit"], "claim": mut["claim"], "properties": mut["breaks"],
               "failed": failed, "claimed_theorems_lost": lost,
               "caught": bool(hit), "tightened": mut.get("tightened", [])}
        with open(LOG, "a") as f:
            f.write(json.dumps(rec, ensure_ascii=False) + "\n")

main()
