import Verif.Model.MergeMap
import Verif.Model.Json

/-! Reading files piece by piece, with errors: `os.File`, `ioutil.ReadFile`, `bufio.Scanner` and the two functions that use
them. -/

set_option autoImplicit false

namespace Verif

/-- The errors of reading: the end of the file, an error of the system, and the two errors of `bufio.Scanner`. -/
inductive ReadErr where
  | eof
  | io (n : Nat)
  | tooLong
  | noProgress
deriving DecidableEq, Repr

/-- A file as a program meets it.  After the bytes of `data` comes the end of the file, or the error `readErr`; one call of
`Read` gives some of the bytes that fit, `sizes` decides how many. -/
structure FileIO where
  openErr : Option Nat
  data : Str
  readErr : Option Nat
  closeErr : Option Nat
  sizes : Nat → Nat

namespace FileIO

/-- The error after the last byte. -/
def last (f : FileIO) : ReadErr :=
  match f.readErr with
  | none => .eof
  | some n => .io n

/-- `(*os.File).Read` into a buffer of `size` bytes, the `k`-th call, when the bytes of `rest` are left: the bytes read and the
error. -/
def read (f : FileIO) (k : Nat) (rest : Str) (size : Nat) : Str × Option ReadErr :=
  if size = 0 then ([], none)
  else if rest = [] then ([], some f.last)
  else (rest.take (min size (f.sizes k + 1)), none)

/-- The loop of `ioutil.ReadFile`: `spare k + 1` bytes of the buffer are free at the `k`-th call of `Read`.  The first
argument is a bound on the number of calls. -/
def readLoop (f : FileIO) (spare : Nat → Nat) : Nat → Nat → Str → Str → GoM (Str × Option ReadErr)
  | 0, _, _, _ => .panic
  | fuel + 1, k, rest, acc =>
    let (bs, err) := f.read k rest (spare k + 1)
    match err with
    | some .eof => .ok (acc ++ bs, none)
    | some e => .ok (acc ++ bs, some e)
    | none => f.readLoop spare fuel (k + 1) (rest.drop bs.length) (acc ++ bs)

/-- `ioutil.ReadFile`. -/
def readFile (f : FileIO) (spare : Nat → Nat) : GoM (Str × Option ReadErr) :=
  match f.openErr with
  | some e => .ok ([], some (.io e))
  | none => f.readLoop spare (f.data.length + 1) 0 f.data []

end FileIO

/-- The errors of `FromJSONFile`. -/
inductive VocabErr where
  | read (e : ReadErr)
  | json (e : Json.Error)
deriving DecidableEq

/-- `FromJSONFile` (vocabulary/vocabulary.go:27-45) of a file: the vocabulary or the error. -/
def Vocab.fromJSONFileIO (m : Machine) (f : FileIO) (spare : Nat → Nat) (order : GoMap Str Int → List (Str × Int)) :
    GoM (Except VocabErr Vocab) := do
  let (rawData, err) ← f.readFile spare
  match err with
  | some e => pure (.error (.read e))
  | none =>
    match Vocab.fromJSONFile m rawData order with
    | .error e => pure (.error (.json e))
    | .ok v => pure (.ok v)

/-! ## `bufio.Scanner` -/

/-- `dropCR`. -/
def scanDropCR (data : Str) : Str :=
  if data.getLast? = some 13 then data.take (data.length - 1) else data

/-- `bufio.ScanLines`: how far to advance, and the line, if any. -/
def splitLine (data : Str) (atEOF : Bool) : Nat × Option Str :=
  if atEOF ∧ data = [] then (0, none)
  else
    match data.idxOf? 10 with
    | some i => (i + 1, some (scanDropCR (data.take i)))
    | none => if atEOF then (data.length, some (scanDropCR data)) else (0, none)

/-- A `bufio.Scanner` on a file.  `window` are the bytes `buf[start:end]`, `size` is `len(buf)`; `rest` and `reads` are the state
of the file: the bytes not yet read, and the calls made. -/
structure Scanner where
  start : Nat
  window : Str
  size : Nat
  err : Option ReadErr
  rest : Str
  reads : Nat
deriving DecidableEq

namespace Scanner

def new (f : FileIO) : Scanner := ⟨0, [], 0, none, f.data, 0⟩

/-- The field `end`. -/
def stop (s : Scanner) : Nat := s.start + s.window.length

/-- `startBufSize`. -/
def startSize : Nat := 4096

/-- The loop that reads until there is an error or there are bytes; the first argument are the empty reads still allowed. -/
def fill (f : FileIO) : Nat → Scanner → Scanner
  | 0, s => { s with err := some .noProgress }
  | left + 1, s =>
    let (bs, err) := f.read s.reads s.rest (s.size - s.stop)
    let s := { s with window := s.window ++ bs, rest := s.rest.drop bs.length, reads := s.reads + 1 }
    match err with
    | some e => { s with err := some e }
    | none => if bs ≠ [] then s else fill f left s

/-- The next token from the bytes at hand: `Split` is called and what it took is passed over. -/
def take (s : Scanner) : Option Str × Scanner :=
  if s.window ≠ [] ∨ s.err.isSome then
    let (advance, token) := splitLine s.window s.err.isSome
    (token, { s with start := s.start + advance, window := s.window.drop advance })
  else (none, s)

/-- The bytes are moved to the front if there is much free space before them or space is needed. -/
def shift (s : Scanner) : Scanner :=
  if 0 < s.start ∧ (s.stop = s.size ∨ s.size / 2 < s.start) then { s with start := 0 } else s

/-- The size of the buffer after a full one. -/
def nextSize (size : Nat) : Nat :=
  min (if size * 2 = 0 then startSize else size * 2) maxScanTokenSize

/-- `Scan`: the line, if there is one.  The first argument is a bound on the turns of its loop.  (With `ScanLines` a line is
never returned without advancing, so the check for too many empty tokens is left out.) -/
def scan (f : FileIO) : Nat → Scanner → GoM (Option Str × Scanner)
  | 0, _ => .panic
  | fuel + 1, s =>
    let (token, s) := s.take
    match token with
    | some line => .ok (some line, s)
    | none =>
      if s.err.isSome then .ok (none, { s with start := 0, window := [] })
      else
        let s := s.shift
        if s.stop = s.size then
          if maxScanTokenSize ≤ s.size then .ok (none, { s with err := some .tooLong })
          else scan f fuel (fill f 101 { s with start := 0, size := nextSize s.size })
        else scan f fuel (fill f 101 s)

end Scanner

/-- The errors of `MergeMapFromFile`. -/
inductive MergeErr where
  | read (e : ReadErr)
  | line (e : Err)
deriving DecidableEq

/-- The loop of `MergeMapFromFile` (mergemap.go:55-83) and the check after it (mergemap.go:84-86).  The first argument is a
bound on the number of lines. -/
def mergeScanLoop (f : FileIO) (vocab : Vocab) (prefixLength : Int) :
    Nat → Scanner → Nat → Int → MergeMap → GoM (Except MergeErr MergeMap)
  | 0, _, _, _, _ => .panic
  | fuel + 1, s, lineCount, rank, m => do
    let (token, s) ← s.scan f (s.rest.length + 3)
    match token with
    | none =>
      match s.err with
      | none | some .eof => pure (.ok m)
      | some e => pure (.error (.read e))
    | some line =>
      if versionPrefix.isPrefixOf line then mergeScanLoop f vocab prefixLength fuel s (lineCount + 1) rank m
      else
        match ← parseMergeLine vocab prefixLength lineCount rank line with
        | .error e => pure (.error (.line e))
        | .ok (k, v) => mergeScanLoop f vocab prefixLength fuel s (lineCount + 1) (rank + 1) (MergeMap.set m k.1 k.2 v)

/-- `MergeMapFromFile` (models/bpemodel/mergemap.go:37-89) of a file: the two results.  The deferred function
(mergemap.go:48-52) gives the error of `Close` if there is no other. -/
def mergeMapFromFileIO (f : FileIO) (vocab : Vocab) (prefixLength : Int) : GoM (Option MergeMap × Option MergeErr) :=
  match f.openErr with
  | some e => .ok (none, some (.read (.io e)))
  | none => do
    match ← mergeScanLoop f vocab prefixLength (f.data.length + 2) (.new f) 1 0 [] with
    | .error e => pure (none, some e)
    | .ok m =>
      match f.closeErr with
      | none => pure (some m, none)
      | some e => pure (some m, some (.read (.io e)))

end Verif
