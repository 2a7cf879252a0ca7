import Verif.Model.Closures

/-!
# Functions with a memory of their own, given to a `PreTokenizedString`

`Split`, `Normalize` and `Tokenize` with functions that may remember what they were asked (as a model with a cache or a source of random
numbers does), change other things or panic.  `σ` is all that the function can see and change besides the string it is given.
-/

set_option autoImplicit false

namespace Verif.PTS

variable {σ : Type}

/-- Loop of `Split` (pretokenizedstring.go:67-84): the splits and the memory as the calls left them, and the outcome. -/
def splitLoopC (f : Nat → Left (NS × σ) (Except Err (List Piece))) : Nat → List Piece → σ → (List Piece × σ) × GoM (Except Err (List Piece))
  | _, [], s => (([], s), .ok (.ok []))
  | index, p :: ps, s =>
    match p.tokens with
    | some _ =>
      match splitLoopC f (index + 1) ps s with
      | ((old, s), .ok (.ok new)) => ((p :: old, s), .ok (.ok (p :: new)))
      | ((old, s), x) => ((p :: old, s), x)
    | none =>
      match f index (p.ns, s) with
      | ((ns', s), .panic) => (({ p with ns := ns' } :: ps, s), .panic)
      | ((ns', s), .ok (.error e)) => (({ p with ns := ns' } :: ps, s), .ok (.error e))
      | ((ns', s), .ok (.ok items)) =>
        match splitLoopC f (index + 1) ps s with
        | ((old, s), .ok (.ok new)) =>
          (({ p with ns := ns' } :: old, s), .ok (.ok (items.filter (fun it => !it.ns.isEmpty) ++ new)))
        | ((old, s), x) => (({ p with ns := ns' } :: old, s), x)

/-- `Split` (pretokenizedstring.go:63-88). -/
def splitC (f : Nat → Left (NS × σ) (Except Err (List Piece))) : Left (PTS × σ) (Option Err) := fun w =>
  match splitLoopC f 0 w.1.splits w.2 with
  | ((old, s), .panic) => (({ w.1 with splits := old }, s), .panic)
  | ((old, s), .ok (.error e)) => (({ w.1 with splits := old }, s), .ok (some e))
  | ((_, s), .ok (.ok new)) => (({ w.1 with splits := new }, s), .ok none)

/-- Loop of `Normalize` (pretokenizedstring.go:95-103). -/
def normalizeLoopC (f : Left (NS × σ) (Option Err)) : List Piece → σ → (List Piece × σ) × GoM (Option Err)
  | [], s => (([], s), .ok none)
  | p :: ps, s =>
    match p.tokens with
    | some _ =>
      match normalizeLoopC f ps s with
      | ((ps', s), x) => ((p :: ps', s), x)
    | none =>
      match f (p.ns, s) with
      | ((ns', s), .panic) => (({ p with ns := ns' } :: ps, s), .panic)
      | ((ns', s), .ok (some e)) => (({ p with ns := ns' } :: ps, s), .ok (some e))
      | ((ns', s), .ok none) =>
        match normalizeLoopC f ps s with
        | ((ps', s), x) => (({ p with ns := ns' } :: ps', s), x)

/-- `Normalize` (pretokenizedstring.go:92-105). -/
def normalizeC (f : Left (NS × σ) (Option Err)) : Left (PTS × σ) (Option Err) := fun w =>
  match normalizeLoopC f w.1.splits w.2 with
  | ((ps, s), x) => (({ w.1 with splits := ps }, s), x)

/-- Loop of `Tokenize` (pretokenizedstring.go:112-121). -/
def tokenizeLoopC (f : Left (NS × σ) (Except Err (List Token))) : List Piece → σ → (List Piece × σ) × GoM (Option Err)
  | [], s => (([], s), .ok none)
  | p :: ps, s =>
    match p.tokens with
    | some _ =>
      match tokenizeLoopC f ps s with
      | ((ps', s), x) => ((p :: ps', s), x)
    | none =>
      match f (p.ns, s) with
      | ((ns', s), .panic) => (({ p with ns := ns' } :: ps, s), .panic)
      | ((ns', s), .ok (.error e)) => (({ p with ns := ns' } :: ps, s), .ok (some e))
      | ((ns', s), .ok (.ok ts)) =>
        match tokenizeLoopC f ps s with
        | ((ps', s), x) => ((⟨ns', some ts⟩ :: ps', s), x)

/-- `Tokenize` (pretokenizedstring.go:109-123). -/
def tokenizeC (f : Left (NS × σ) (Except Err (List Token))) : Left (PTS × σ) (Option Err) := fun w =>
  match tokenizeLoopC f w.1.splits w.2 with
  | ((ps, s), x) => (({ w.1 with splits := ps }, s), x)

end Verif.PTS
