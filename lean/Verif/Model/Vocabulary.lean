import Verif.Model.Utf8

namespace Verif

/-- A Go map as an association list.  `set` keeps keys unique. -/
abbrev GoMap (κ ν : Type) := List (κ × ν)

namespace GoMap
variable {κ ν : Type} [DecidableEq κ]

/-- `v, ok := m[k]`. -/
def get? (m : GoMap κ ν) (k : κ) : Option ν :=
  match m with
  | [] => none
  | (k', v) :: rest => if k' = k then some v else get? rest k

/-- `m[k] = v`: overwrites in place or adds a new entry. -/
def set (m : GoMap κ ν) (k : κ) (v : ν) : GoMap κ ν :=
  match m with
  | [] => [(k, v)]
  | (k', v') :: rest => if k' = k then (k, v) :: rest else (k', v') :: set rest k v

end GoMap

/-- `vocabulary.Vocabulary` (vocabulary/vocabulary.go:13-16).  `termToID = none` is the
nil map (reading it behaves like the empty map, writing panics). -/
structure Vocab where
  termToID : Option (GoMap Str Int)
  idToTerm : GoMap Int Str
deriving DecidableEq, Repr

namespace Vocab

/-- `NewVocabulary` (vocabulary/vocabulary.go:19-24). -/
def new : Vocab := ⟨some [], []⟩

/-- The loop of `FromJSONFile` (vocabulary/vocabulary.go:39-42); `entries` are the
entries of the decoded map in the order in which Go happens to iterate. -/
def buildIdToTerm (entries : List (Str × Int)) : GoMap Int Str :=
  entries.foldl (fun m e => m.set e.2 e.1) []

/-- `FromJSONFile` (vocabulary/vocabulary.go:27-45) after reading the file and
decoding the JSON: `decoded = none` is JSON `null` (a nil map); `order` is
the entries in iteration order (a permutation of the decoded map). -/
def fromJSON (decoded : Option (GoMap Str Int)) (order : List (Str × Int)) : Vocab :=
  ⟨decoded, buildIdToTerm order⟩

/-- `Size` (vocabulary/vocabulary.go:61-63). -/
def size (v : Vocab) : Int := (v.termToID.getD []).length

/-- `GetID` (vocabulary/vocabulary.go:67-70). -/
def getID (v : Vocab) (term : Str) : Option Int := GoMap.get? (v.termToID.getD []) term

/-- `GetString` (vocabulary/vocabulary.go:74-77). -/
def getString (v : Vocab) (id : Int) : Option Str := GoMap.get? v.idToTerm id

/-- `AddTerm` (vocabulary/vocabulary.go:51-58); writing to the nil map panics. -/
def addTerm (v : Vocab) (term : Str) : GoM Vocab :=
  match v.getID term with
  | some _ => .ok v
  | none =>
    match v.termToID with
    | none => .panic
    | some m => .ok ⟨some (m.set term v.size), v.idToTerm.set v.size term⟩

end Vocab
end Verif
