import Verif.Spec.Chars

set_option autoImplicit false

namespace Verif

/-- One call on a `NormalizedString` (`ToLower`/`ToUpper` are `map`, `Trim*` is `trim`).
The arguments are arbitrary. -/
inductive Op where
  | transform (dest : List RuneChange) (initialOffset : Int)
  | filter (keep : Rune → Bool)
  | map (f : Rune → Rune)
  | trim (left right : Bool)
  | prepend (s : Str)
  | append (s : Str)
  | replace (pattern : SplitPattern) (content : Str)
  | slice (r : Rng)

/-- The state after a call: a call that reports failure leaves the string as it was; a
successful `slice` continues with the slice. -/
def Op.run (ns : NS) : Op → GoM NS
  | .transform dest io => ns.transform dest io
  | .filter keep => ns.filter keep
  | .map f => ns.map f
  | .trim l r => ns.trimLeftRight l r
  | .prepend s => ns.prepend s
  | .append s => ns.append s
  | .replace p content => do
    match ← ns.replace p content with
    | .ok ns' => pure ns'
    | .error _ => pure ns
  | .slice r => do
    match ← ns.slice r with
    | some ns' => pure ns'
    | none => pure ns

/-- Running a history of calls. -/
def runOps (ns : NS) (ops : List Op) : GoM NS := goFor ops ns Op.run

/-- Number of runes a list of changes consumes. -/
def consumed : List RuneChange → Nat
  | [] => 0
  | rc :: rest => (if 1 ≤ rc.change then 0 else 1 + (-rc.change).toNat) + consumed rest

/-- The runes that the changes replace and drop, written out, end within the range (`runesOf` reads a byte
that belongs to no rune as U+FFFD, three bytes long). -/
def StaysInside (ns : NS) (r : Rng) (dest : List RuneChange) (io : Int) : Prop :=
  ∀ a b tail, ns.coerceRangeToNormalized r = some (a, b) → goSlice ns.normalized (a + io) b = .ok tail →
    (encodeRunes ((runesOf tail).take (consumed dest))).length ≤ tail.length

/-- A history of calls, direct ones of `TransformRange` among them. -/
inductive RangeHistory : NS → NS → Prop
  | none {ns : NS} : RangeHistory ns ns
  | call {ns₀ ns ns' : NS} {op : Op} : RangeHistory ns₀ ns → op.run ns = .ok ns' → RangeHistory ns₀ ns'
  | range {ns₀ ns ns' : NS} {r : Rng} {dest : List RuneChange} {io : Int} : RangeHistory ns₀ ns → StaysInside ns r dest io →
      ns.transformRange r dest io = .ok ns' → RangeHistory ns₀ ns'

/-- The states the library can produce: some history from `FromString` of valid UTF-8. -/
def Reachable (ns : NS) : Prop :=
  ∃ s : Str, ValidUtf8 s ∧ RangeHistory (NS.fromString s) ns

end Verif
