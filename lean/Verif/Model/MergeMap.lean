import Verif.Model.Vocabulary

namespace Verif

/-- `bpemodel.MergeValue` (models/bpemodel/mergemap.go:19-26). -/
structure MergeValue where
  rank : Int
  id : Int
deriving DecidableEq, Repr

/-- `bpemodel.MergeMap` (models/bpemodel/mergemap.go:16, 28): keyed by the pair of ids. -/
abbrev MergeMap := GoMap (Int × Int) MergeValue

namespace MergeMap

/-- `Get` (mergemap.go:93-96). -/
def get (m : MergeMap) (a b : Int) : Option MergeValue := GoMap.get? m (a, b)

/-- `Set` (mergemap.go:98-100). -/
def set (m : MergeMap) (a b : Int) (v : MergeValue) : MergeMap := GoMap.set m (a, b) v

end MergeMap

/-- `bufio.MaxScanTokenSize`: the scanner's buffer does not grow beyond this. -/
def maxScanTokenSize : Nat := 65536

/-- `bufio.ScanLines` as used by `bufio.NewScanner` (mergemap.go:54-56): lines
end in `\n`, one trailing `\r` is dropped, a last unterminated line counts if
it is not empty.  `cur` is the current line, reversed.  A line that fills the
buffer before its end is seen stops the scan with `ErrTooLong` (the flag). -/
def scanLinesAux : Str → Str → List Str × Bool
  | [], [] => ([], false)
  | [], cur => if cur.length ≥ maxScanTokenSize then ([], true) else ([dropCR cur], false)
  | b :: bs, cur =>
    if b = 10 then
      if cur.length ≥ maxScanTokenSize then ([], true)
      else
        let r := scanLinesAux bs []
        (dropCR cur :: r.1, r.2)
    else scanLinesAux bs (b :: cur)
where
  /-- `cur` is reversed: drop one `\r` at its head and restore the order. -/
  dropCR (cur : Str) : Str :=
    match cur with
    | 13 :: t => t.reverse
    | t => t.reverse

/-- The lines for which `scanner.Scan()` returns true (mergemap.go:55-56). -/
def scanLines (s : Str) : List Str := (scanLinesAux s []).1

/-- `scanner.Err() != nil` after the last line (mergemap.go:84). -/
def scanTooLong (s : Str) : Bool := (scanLinesAux s []).2

/-- `strings.Split(line, " ")` (mergemap.go:61). -/
def splitSpace : Str → List Str
  | [] => [[]]
  | b :: bs =>
    if b = 32 then [] :: splitSpace bs
    else
      match splitSpace bs with
      | [] => [[b]]
      | t :: ts => (b :: t) :: ts

/-- The bytes of `"#version"`. -/
def versionPrefix : Str := [35, 118, 101, 114, 115, 105, 111, 110]

/-- Outcome of handling one merge line (mergemap.go:61-81) with the current
rank: the pair and its value, or an error.  `terms[1][prefixLength:]` panics
when `prefixLength` is negative or larger than the term. -/
def parseMergeLine (vocab : Vocab) (prefixLength : Int) (lineCount : Nat) (rank : Int) (line : Str) :
    GoM (Except Err ((Int × Int) × MergeValue)) :=
  match splitSpace line with
  | [t0, t1] =>
    match vocab.getID t0 with
    | none => .ok (.error (.leftOutOfVocab lineCount))
    | some leftID =>
      match vocab.getID t1 with
      | none => .ok (.error (.rightOutOfVocab lineCount))
      | some rightID =>
        match goSlice t1 prefixLength t1.length with
        | .panic => .panic
        | .ok rest =>
          match vocab.getID (t0 ++ rest) with
          | none => .ok (.error (.mergedOutOfVocab lineCount))
          | some mergedID => .ok (.ok ((leftID, rightID), ⟨rank, mergedID⟩))
  | _ => .ok (.error (.malformedMerges lineCount))

/-- The loop of `MergeMapFromFile` (mergemap.go:55-83). -/
def mergeMapLoop (vocab : Vocab) (prefixLength : Int) :
    List Str → Nat → Int → MergeMap → GoM (Except Err MergeMap)
  | [], _, _, m => .ok (.ok m)
  | line :: rest, lineCount, rank, m =>
    if versionPrefix.isPrefixOf line then mergeMapLoop vocab prefixLength rest (lineCount + 1) rank m
    else
      match parseMergeLine vocab prefixLength lineCount rank line with
      | .panic => .panic
      | .ok (.error e) => .ok (.error e)
      | .ok (.ok (k, v)) =>
        mergeMapLoop vocab prefixLength rest (lineCount + 1) (rank + 1) (MergeMap.set m k.1 k.2 v)

/-- `MergeMapFromFile` (mergemap.go:37-89) on the file's content; reading it
is in `Model/FileIO.lean`. -/
def mergeMapFromFile (content : Str) (vocab : Vocab) (prefixLength : Int) :
    GoM (Except Err MergeMap) :=
  match mergeMapLoop vocab prefixLength (scanLines content) 1 0 [] with
  | .ok (.ok m) => if scanTooLong content then .ok (.error .tokenTooLong) else .ok (.ok m)
  | r => r

end Verif
