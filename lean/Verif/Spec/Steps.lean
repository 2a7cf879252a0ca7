import Verif.Props.WhiteSpace

/-! Sequences of pre-tokenizers. -/

set_option autoImplicit false

namespace Verif

/-- Pre-tokenizers one after the other, up to the first error. -/
def preSequence : List PreTokenizer → PreTokenizer
  | [], pts => .ok (pts, none)
  | p :: ps, pts => do
    let (pts, e) ← p pts
    match e with
    | some e => pure (pts, some e)
    | none => preSequence ps pts

/-- The pre-tokenizers that only cut. -/
inductive PreStep where
  | whiteSpaceSplit
  | runeDelimiter (d : Rune)
  | bert (u : Uni)
  | whiteSpace (u : RxUni)

namespace PreStep

def run : PreStep → PreTokenizer
  | .whiteSpaceSplit => Verif.whiteSpaceSplit
  | .runeDelimiter d => Verif.runeDelimiter d
  | .bert u => bertPreTokenize u
  | .whiteSpace u => whiteSpaceDefault u

/-- The runes that stay. -/
def keep : PreStep → Rune → Bool
  | .whiteSpaceSplit, r => !isWhiteSpace r
  | .runeDelimiter d, r => r != d
  | .bert _, r => !isWhiteSpace r
  | .whiteSpace u, r => (wordKind u r).isSome

/-- Neighbours that are separated: punctuation from everything (BERT), words from symbols. -/
def cut : PreStep → Rune → Rune → Prop
  | .whiteSpaceSplit, _, _ => False
  | .runeDelimiter _, _, _ => False
  | .bert u, a, b => u.isPunct a = true ∨ u.isPunct b = true
  | .whiteSpace u, a, b => wordKind u a ≠ wordKind u b

end PreStep

end Verif
