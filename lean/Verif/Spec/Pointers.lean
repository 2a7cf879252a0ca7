import Verif.Model.Pointers
import Verif.Spec.Tiling

/-! Specification for programs on pointers: which values a state with pointers stands for, and
when a call on pointers does what a call on values does. -/

set_option autoImplicit false

namespace Verif

/-- The pointer of the split leads to the string of the piece. -/
def PointsTo (σ : Store) (r : Ref) (q : Piece) : Prop := σ[r.addr]? = some q.ns ∧ r.tokens = q.tokens

/-- The values that a state with pointers stands for. -/
structure View (σ : Store) (P : RefPTS) (p : PTS) : Prop where
  original : P.original = p.original
  splits : All2 (PointsTo σ) P.splits p.splits

/-- The pointers of the splits. -/
def RefPTS.addrs (P : RefPTS) : List Nat := P.splits.map fun r => r.addr

/-- No two splits share a string. -/
def RefPTS.Distinct (P : RefPTS) : Prop := P.addrs.Nodup

/-- Strings are added, and only those at `as` change. -/
structure StoreKeeps (σ σ' : Store) (as : List Nat) : Prop where
  grows : σ.length ≤ σ'.length
  same : ∀ b, b < σ.length → b ∉ as → σ'[b]? = σ[b]?

/-- The call on pointers does what the call on values does: it panics on the same states, returns
the same error, and leaves a state that stands for the same values.  Splits still do not share
strings; strings other than those of the splits do not change; the strings of the new splits are
old ones of this state or new in memory. -/
def Faithful (c : RefCall) (v : PTS → GoM (PTS × Option Err)) : Prop :=
  ∀ σ P p, View σ P p → P.Distinct →
    match v p with
    | .panic => c σ P = .panic
    | .ok (p', e) => ∃ σ' P', c σ P = .ok (σ', P', e) ∧ View σ' P' p' ∧ P'.Distinct
        ∧ StoreKeeps σ σ' P.addrs ∧ ∀ a ∈ P'.addrs, a ∈ P.addrs ∨ (σ.length ≤ a ∧ a < σ'.length)

/-- A callback of `Split` on pointers that computes `f`, changes no string but the one it is
given, and returns that one or new ones, none of them twice. -/
def Implements (F : RefSplitFunc) (f : SplitFunc) : Prop :=
  ∀ i a σ ns, σ[a]? = some ns →
    match f i ns with
    | .panic => F i a σ = .panic
    | .ok (ns', .error e) => ∃ σ', F i a σ = .ok (σ', .error e) ∧ StoreKeeps σ σ' [a] ∧ σ'[a]? = some ns'
    | .ok (ns', .ok qs) => ∃ σ' rs, F i a σ = .ok (σ', .ok rs) ∧ StoreKeeps σ σ' [a] ∧ σ'[a]? = some ns'
        ∧ All2 (PointsTo σ') rs qs ∧ (rs.map fun r => r.addr).Nodup
        ∧ ∀ r ∈ rs, r.addr = a ∨ σ.length ≤ r.addr

/-- A callback of `Normalize` on pointers that computes `f` and changes no other string. -/
def ImplementsN (N : RefNormalizeFunc) (f : NormalizeFunc) : Prop :=
  ∀ a σ ns, σ[a]? = some ns →
    match f ns with
    | .panic => N a σ = .panic
    | .ok (ns', e) => ∃ σ', N a σ = .ok (σ', e) ∧ StoreKeeps σ σ' [a] ∧ σ'[a]? = some ns'

end Verif
