import Verif.Model.Machine
import Verif.Spec.History
import Verif.Spec.Tiling
import Verif.Spec.Chars

/-! Histories of calls on a machine, and the sizes and arguments for which its integers suffice. -/

set_option autoImplicit false

namespace Verif
namespace Machine
variable (m : Machine)

/-- A call on a machine, as `Op.run`. -/
def run (ns : NS) : Op → GoM NS
  | .transform dest io => m.transform ns dest io
  | .filter keep => m.filter ns keep
  | .map f => m.map ns f
  | .trim l r => m.trimLeftRight ns l r
  | .prepend s => m.prepend ns s
  | .append s => m.append ns s
  | .replace p content => do
    match ← m.replace ns p content with
    | .ok ns' => pure ns'
    | .error _ => pure ns
  | .slice r => do
    match ← m.slice ns r with
    | some ns' => pure ns'
    | none => pure ns

/-- A history of calls on a machine. -/
def runOps (ns : NS) (ops : List Op) : GoM NS := goFor ops ns m.run

/-- A value of type `int`. -/
def InInt (x : Int) : Prop := -(m.half : Int) ≤ x ∧ x < (m.half : Int)

/-- A length well below the largest `int`: one eighth of it. -/
def Sized (n : Nat) : Prop := 8 * (n + 1) ≤ m.half

/-- `WriteRune` writes the encoding of the rune. -/
def Writes (r : Rune) : Prop := m.writeRune r = encodeRune r

/-- `WriteRune` writes the encoding of every rune that is not negative (all versions of Go). -/
def WritesRunes : Prop := ∀ r : Rune, 0 ≤ r → m.Writes r

/-- The arguments of a call on `ns`: integers are of type `int` but otherwise arbitrary, texts are not
too long, and the captures of a replacement tile the text. -/
def OpFits (ns : NS) : Op → Prop
  | .transform dest io => m.InInt io ∧ m.Sized dest.length ∧ ∀ rc ∈ dest, m.InInt rc.change ∧ m.Writes rc.rune
  | .filter _ => True
  | .map f => ∀ r, m.Writes (f r)
  | .trim _ _ => True
  | .prepend s => m.Sized s.length
  | .append s => m.Sized s.length
  | .replace p content => m.Sized content.length ∧ ∀ caps, p ns.normalized = .ok (.ok caps) →
      Tiles caps 0 ns.normalized.length ∧ m.Sized (ns.normalized.length + 4 * (caps.length * content.length))
  | .slice r => m.InInt r.start ∧ m.InInt r.stop

/-- In every state on the way the text is not too long and the next call fits. -/
def HistoryFits (ns : NS) : List Op → Prop
  | [] => True
  | op :: ops => m.Sized ns.normalized.length ∧ m.OpFits ns op ∧ ∀ ns', op.run ns = .ok ns' → HistoryFits ns' ops

end Machine
end Verif
