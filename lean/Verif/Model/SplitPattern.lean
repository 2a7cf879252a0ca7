import Verif.Model.StrUtils

namespace Verif

/-- `splitpattern.Capture` (splitpattern/splitpattern.go:19-25). -/
structure Capture where
  offsets : ByteOffsets
  isMatch : Bool
deriving DecidableEq, Repr

/-- The interface `splitpattern.SplitPattern` (splitpattern/splitpattern.go:9-17):
any function from strings to captures or an error (user implementations may
also panic). -/
abbrev SplitPattern := Str → GoM (Except Err (List Capture))

/-- The capture list every pattern returns on the empty string
(func.go:20-25, regexp.go:23-28, regexp2.go:23-28). -/
def emptyCaptures : List Capture := [⟨⟨0, 0⟩, false⟩]

/-- Loop state of `FuncSplitPattern.FindMatches`. -/
structure FuncState where
  lastOffset : Nat
  lastSeen : Nat
  splits : List Capture
deriving DecidableEq, Repr

/-- Loop body of `FuncSplitPattern.FindMatches` (splitpattern/func.go:32-52). -/
def funcStep (f : Rune → Bool) (st : FuncState) (ir : Nat × Rune) : FuncState :=
  let i := ir.1
  let r := ir.2
  let lastSeen := i + (encodeRune r).length
  if !f r then { st with lastSeen := lastSeen }
  else
    let splits :=
      if st.lastOffset < i then st.splits ++ [⟨⟨st.lastOffset, i⟩, false⟩] else st.splits
    { lastOffset := lastSeen, lastSeen := lastSeen,
      splits := splits ++ [⟨⟨i, lastSeen⟩, true⟩] }

/-- `FuncSplitPattern.FindMatches` (splitpattern/func.go:19-63), without the
error result, which is always nil. -/
def funcFindMatches (f : Rune → Bool) (s : Str) : List Capture :=
  if s.length = 0 then emptyCaptures
  else
    let st := (rangeStr s).foldl (funcStep f) ⟨0, 0, []⟩
    if st.lastSeen > st.lastOffset then
      st.splits ++ [⟨⟨st.lastOffset, st.lastSeen⟩, false⟩]
    else st.splits

/-- `splitpattern.FromFunc` (splitpattern/func.go:15-17). -/
def fromFunc (f : Rune → Bool) : SplitPattern := fun s => .ok (.ok (funcFindMatches f s))

/-- `splitpattern.FromRune` (splitpattern/rune.go:14-25). -/
def fromRune (r : Rune) : SplitPattern := fromFunc (fun other => other == r)

/-- Loop body shared by `RegexpSplitPattern.FindMatches` (splitpattern/regexp.go:34-49)
and `Regexp2SplitPattern.FindMatches` (splitpattern/regexp2.go:39-53): `st` is
`(prev, splits)`, `m` the (start, end) byte positions of the next match. -/
def regexpStep (st : Int × List Capture) (m : Int × Int) : Int × List Capture :=
  let splits := if st.1 ≠ m.1 then st.2 ++ [⟨⟨st.1, m.1⟩, false⟩] else st.2
  (m.2, splits ++ [⟨⟨m.1, m.2⟩, true⟩])

/-- The part of the two `FindMatches` that turns byte matches into captures
(regexp.go:30-58, regexp2.go:31-68). -/
def capturesOfMatches (s : Str) (ms : List (Int × Int)) : List Capture :=
  let st := ms.foldl regexpStep (0, [])
  if st.1 ≠ (s.length : Int) then st.2 ++ [⟨⟨st.1, s.length⟩, false⟩] else st.2

/-- `RegexpSplitPattern` (splitpattern/regexp.go:12-59).  The engine
`(*regexp.Regexp).FindAllStringIndex(s, -1)` is the parameter `findAll`. -/
def fromRegexp (findAll : Str → List (Int × Int)) : SplitPattern := fun s =>
  if s.length = 0 then .ok (.ok emptyCaptures)
  else .ok (.ok (capturesOfMatches s (findAll s)))

/-- Byte positions of a `regexp2` match (splitpattern/regexp2.go:40-41).  A match is
its rune index and its rune length: `match.Index`, and `match.String()` is
`string(runes[Index:Index+Length])`.  `runes[:match.Index]` cannot panic for
an in-bounds index; the model truncates, see DESIGN.md. -/
def regexp2Bytes (runes : List Rune) (m : Nat × Nat) : Int × Int :=
  let startByte := (encodeRunes (runes.take m.1)).length
  (startByte, (startByte + (encodeRunes ((runes.drop m.1).take m.2)).length : Nat))

/-- `Regexp2SplitPattern` (splitpattern/regexp2.go:12-69).  The engine
(`FindStringMatch` then `FindNextMatch` until nil) is the parameter
`findAll2` on the decoded runes: all matches, or an error. -/
def fromRegexp2 (findAll2 : List Rune → Except Err (List (Nat × Nat))) : SplitPattern := fun s =>
  if s.length = 0 then .ok (.ok emptyCaptures)
  else
    match findAll2 (runesOf s) with
    | .error e => .ok (.error e)
    | .ok ms => .ok (.ok (capturesOfMatches s (ms.map (regexp2Bytes (runesOf s)))))

/-- Leftmost non-overlapping occurrences of a non-empty literal: what
`regexp.MustCompile(regexp.QuoteMeta(pat)).FindAllStringIndex(s, -1)` returns
for valid UTF-8.  `i` is the byte index of the head, `skip` the bytes of the
current occurrence still to pass over. -/
def litAux (pat : Str) : Str → Nat → Nat → List (Int × Int)
  | [], _, _ => []
  | b :: bs, i, 0 =>
    if pat.isPrefixOf (b :: bs) then
      ((i : Int), ((i + pat.length : Nat) : Int)) :: litAux pat bs (i + 1) (pat.length - 1)
    else litAux pat bs (i + 1) 0
  | _ :: bs, i, k + 1 => litAux pat bs (i + 1) k

def litFindAll (pat s : Str) : List (Int × Int) := litAux pat s 0 0

/-- `splitpattern.FromString(p).FindMatches` (splitpattern/string.go:19-37) for a
valid UTF-8 pattern string `p` (`regexp.MustCompile` panics at construction
for other patterns). -/
def fromStringPattern (pat : Str) : SplitPattern := fun s =>
  if pat.length = 0 then
    .ok (.ok [⟨⟨0, ((runesOf s).length : Nat)⟩, false⟩])
  else fromRegexp (litFindAll pat) s

/-- `InvertedPattern.FindMatches` (splitpattern/invertedpattern.go:17-26). -/
def invert (sp : SplitPattern) : SplitPattern := fun s =>
  match sp s with
  | .panic => .panic
  | .ok (.error e) => .ok (.error e)
  | .ok (.ok cs) => .ok (.ok (cs.map fun c => { c with isMatch := !c.isMatch }))

end Verif
