"""Writes lean/Verif/Model/UnicodeTables.lean from Python's unicodedata."""
import os, unicodedata

def ranges(test):
    out = []
    for c in range(0x110000):
        if test(c):
            if out and out[-1][1] == c - 1: out[-1][1] = c
            else: out.append([c, c])
    return out

def cat(c): return unicodedata.category(chr(c))
def lower(c):
    s = chr(c).lower()
    return ord(s) if len(s) == 1 else 0x69 # U+0130 is the only one

def case_ranges():
    """(first, last, step, image of the first): runes `step` apart that move by the same distance"""
    todo = [c for c in range(0x110000) if not 0xD800 <= c < 0xE000 and lower(c) != c]
    assert [c for c in todo if len(chr(c).lower()) != 1] == [0x130]
    out = []
    for c in todo:
        d = lower(c) - c
        if out:
            o = out[-1]
            if d == o[3] - o[0] and (o[0] == o[1] and c - o[1] in (1, 2) or o[0] != o[1] and c - o[1] == o[2]):
                o[2] = c - o[1]
                o[1] = c
                continue
        out.append([c, c, 1, c + d])
    return out

def table(name, doc, rows):
    lines, line = [], "  ["
    for i, r in enumerate(rows):
        t = "(" + ", ".join(map(str, r)) + ")" + (", " if i + 1 < len(rows) else "]")
        if len(line) + len(t) > 130:
            lines.append(line.rstrip()); line = "   "
        line += t
    lines.append(line)
    ty = " × ".join(["Nat"] * len(rows[0]))
    return f"/-- {doc} -/\ndef {name} : List ({ty}) :=\n" + "\n".join(lines) + "\n\n"

V = unicodedata.unidata_version
T = [
  ("tableL", "Category L, letters: first and last code point of each range.", ranges(lambda c: cat(c)[0] == "L")),
  ("tableN", "Category N, numbers.", ranges(lambda c: cat(c)[0] == "N")),
  ("tableNd", "Category Nd, decimal digits.", ranges(lambda c: cat(c) == "Nd")),
  ("tableMn", "Category Mn, non-spacing marks.", ranges(lambda c: cat(c) == "Mn")),
  ("tableP", "Category P, punctuation.", ranges(lambda c: cat(c)[0] == "P")),
  ("tablePc", "Category Pc, connectors.", ranges(lambda c: cat(c) == "Pc")),
  ("tableC", "`unicode.Other`: categories Cc, Cf, Co and Cs.", ranges(lambda c: cat(c) in ("Cc", "Cf", "Co", "Cs"))),
  ("tableLower", "`unicode.ToLower`: first, last, step, and the image of the first.", case_ranges()),
]
out = os.path.join(os.path.dirname(os.path.abspath(__file__)), "..", "lean/Verif/Model/UnicodeTables.lean")
with open(out, "w") as f:
    f.write(f"""/-! The character tables of Unicode {V} that the code uses.  Written by tools/gen_unicode.py. -/

set_option autoImplicit false

namespace Verif.Unicode

""")
    for t in T: f.write(table(*t))
    f.write("end Verif.Unicode\n")
print(V, {n: len(r) for n, _, r in T})
# checks of properties proved in Lean
low = {c: lower(c) for c in range(0x110000) if not 0xD800 <= c < 0xE000}
print("not idempotent:", [hex(c) for c in low if low[low[c]] != low[c]])
print("letter -> non letter:", [hex(c) for c in low if cat(c)[0] == "L" and cat(low[c])[0] != "L"])
print("non letter -> letter:", [hex(c) for c in low if cat(c)[0] != "L" and cat(low[c])[0] == "L"])
