import Verif.Model.MachinePipeline
import Verif.Props.MachineRest
import Verif.Props.WhiteSpace
import Verif.Props.Whole
import Verif.Props.Bytes
import Verif.Props.ByteLevel
import Verif.Props.GptFiles
import Verif.Props.BertFiles

/-! # Machine integers in the normalizers and pre-tokenizers (C90) -/

set_option autoImplicit false

namespace Verif
namespace Machine

variable {m : Machine}

/-- A split of a text `root` with a normalized text of at most `n` bytes. -/
structure Small (root : Str) (n : Nat) (ns : NS) : Prop where
  wf : WF ns
  part : PartOf root ns
  size : ns.normalized.length ≤ n

theorem Small.mono {root : Str} {n k : Nat} {ns : NS} (h : Small root n ns) (hk : n ≤ k) : Small root k ns :=
  ⟨h.wf, h.part, Nat.le_trans h.size hk⟩

theorem Sized.mono {n k : Nat} (h : m.Sized k) (hk : n ≤ k) : m.Sized n := by unfold Sized at *; omega

theorem Small.sized {root : Str} {n : Nat} {ns : NS} (h : Small root n ns) (hs : m.Sized n) :
    m.Sized ns.normalized.length ∧ m.Sized ns.alignments.length :=
  ⟨hs.mono h.size, by rw [h.wf.len]; exact hs.mono h.size⟩

/-! ## Loops over splits -/

theorem splitLoop_congr {f f' : SplitFunc} {P : NS → Prop} (hf : ∀ i ns, P ns → f' i ns = f i ns) (ps : List Piece) :
    ∀ i, (∀ sp ∈ ps, P sp.ns) → PTS.splitLoop f' i ps = PTS.splitLoop f i ps := by
  induction ps with
  | nil => intros; rfl
  | cons p ps ih =>
    intro i h
    unfold PTS.splitLoop
    rw [ih (i + 1) fun sp hsp => h sp (by simp [hsp]), hf i p.ns (h p (by simp))]

/-- `Split` with functions that agree on the strings of the splits. -/
theorem split_congr {f f' : SplitFunc} {P : NS → Prop} {p : PTS} (hf : ∀ i ns, P ns → f' i ns = f i ns)
    (h : ∀ sp ∈ p.splits, P sp.ns) : p.split f' = p.split f := by
  unfold PTS.split
  rw [splitLoop_congr hf _ _ h]

theorem splitLoop_keeps {f : SplitFunc} {P Q : NS → Prop} (hpq : ∀ ns, P ns → Q ns)
    (hf : ∀ i ns ns' items, P ns → f i ns = .ok (ns', .ok items) → ∀ it ∈ items, Q it.ns) (ps : List Piece) :
    ∀ i old new, (∀ sp ∈ ps, P sp.ns) → PTS.splitLoop f i ps = .ok (old, .ok new) → ∀ sp ∈ new, Q sp.ns := by
  induction ps with
  | nil => intro i old new _ h; simp [PTS.splitLoop] at h; obtain ⟨-, rfl⟩ := h; simp
  | cons p ps ih =>
    intro i old new hp h
    unfold PTS.splitLoop at h
    have ih' := ih (i + 1)
    cases htok : p.tokens with
    | some ts =>
      simp only [htok, GoM.bind_eq_ok] at h
      obtain ⟨⟨old', new'⟩, h1, h2⟩ := h
      cases new' with
      | error e => simp at h2
      | ok new' =>
        simp only [GoM.pure_eq, GoM.ok.injEq, Prod.mk.injEq, Except.ok.injEq] at h2
        obtain ⟨-, rfl⟩ := h2
        intro sp hsp
        rcases List.mem_cons.1 hsp with rfl | hsp
        · exact hpq _ (hp _ (by simp))
        · exact ih' _ _ (fun sp hsp => hp sp (by simp [hsp])) h1 sp hsp
    | none =>
      simp only [htok, GoM.bind_eq_ok] at h
      obtain ⟨⟨ns', r⟩, h1, h2⟩ := h
      cases r with
      | error e => simp at h2
      | ok items =>
        simp only [GoM.bind_eq_ok] at h2
        obtain ⟨⟨old', new'⟩, h3, h4⟩ := h2
        cases new' with
        | error e => simp at h4
        | ok new' =>
          simp only [GoM.pure_eq, GoM.ok.injEq, Prod.mk.injEq, Except.ok.injEq] at h4
          obtain ⟨-, rfl⟩ := h4
          intro sp hsp
          rcases List.mem_append.1 hsp with hsp | hsp
          · exact hf _ _ _ _ (hp p (by simp)) h1 sp (List.mem_filter.1 hsp).1
          · exact ih' _ _ (fun sp hsp => hp sp (by simp [hsp])) h3 sp hsp

/-- What `Split` makes of splits with `P`, if the function makes strings with `Q` of them. -/
theorem split_keeps {f : SplitFunc} {P Q : NS → Prop} {p p' : PTS} (hpq : ∀ ns, P ns → Q ns)
    (hf : ∀ i ns ns' items, P ns → f i ns = .ok (ns', .ok items) → ∀ it ∈ items, Q it.ns)
    (h : ∀ sp ∈ p.splits, P sp.ns) (hs : p.split f = .ok (p', none)) : ∀ sp ∈ p'.splits, Q sp.ns := by
  unfold PTS.split at hs
  rw [GoM.bind_eq_ok] at hs
  obtain ⟨⟨old, new⟩, h1, h2⟩ := hs
  cases new with
  | error e => simp at h2
  | ok new =>
    simp only [GoM.pure_eq, GoM.ok.injEq, Prod.mk.injEq, and_true] at h2
    subst h2
    exact splitLoop_keeps hpq hf _ _ _ _ h h1

theorem normalize_congr {f f' : NormalizeFunc} {P : NS → Prop} {p : PTS} (hf : ∀ ns, P ns → f' ns = f ns)
    (h : ∀ sp ∈ p.splits, P sp.ns) : p.normalize f' = p.normalize f := by
  have key : ∀ ps : List Piece, (∀ sp ∈ ps, P sp.ns) → PTS.normalizeLoop f' ps = PTS.normalizeLoop f ps := by
    intro ps
    induction ps with
    | nil => intros; rfl
    | cons p ps ih =>
      intro h
      unfold PTS.normalizeLoop
      rw [ih fun sp hsp => h sp (by simp [hsp]), hf p.ns (h p (by simp))]
  unfold PTS.normalize
  rw [key _ h]

theorem normalize_keeps {f : NormalizeFunc} {P Q : NS → Prop} {p p' : PTS} {e : Option Err} (hpq : ∀ ns, P ns → Q ns)
    (hf : ∀ ns ns' e, P ns → f ns = .ok (ns', e) → Q ns') (h : ∀ sp ∈ p.splits, P sp.ns)
    (hs : p.normalize f = .ok (p', e)) : (∀ sp ∈ p'.splits, Q sp.ns) ∧ p'.splits.length = p.splits.length := by
  have key : ∀ (ps : List Piece) ps' e, (∀ sp ∈ ps, P sp.ns) → PTS.normalizeLoop f ps = .ok (ps', e) →
      (∀ sp ∈ ps', Q sp.ns) ∧ ps'.length = ps.length := by
    intro ps
    induction ps with
    | nil => intro ps' e _ h; simp [PTS.normalizeLoop] at h; obtain ⟨rfl, -⟩ := h; simp
    | cons p ps ih =>
      intro ps' e h h1
      unfold PTS.normalizeLoop at h1
      have hrest : ∀ sp ∈ ps, P sp.ns := fun sp hsp => h sp (by simp [hsp])
      cases htok : p.tokens with
      | some ts =>
        simp only [htok, GoM.bind_eq_ok] at h1
        obtain ⟨⟨ps1, e1⟩, h2, h3⟩ := h1
        simp only [GoM.pure_eq, GoM.ok.injEq, Prod.mk.injEq] at h3
        obtain ⟨rfl, rfl⟩ := h3
        obtain ⟨k1, k2⟩ := ih _ _ hrest h2
        refine ⟨?_, by simp [k2]⟩
        intro sp hsp
        rcases List.mem_cons.1 hsp with rfl | hsp
        · exact hpq _ (h _ (by simp))
        · exact k1 sp hsp
      | none =>
        simp only [htok, GoM.bind_eq_ok] at h1
        obtain ⟨⟨ns', e1⟩, h2, h3⟩ := h1
        have hq := hf _ _ _ (h p (by simp)) h2
        cases e1 with
        | some e1 =>
          simp only [GoM.pure_eq, GoM.ok.injEq, Prod.mk.injEq] at h3
          obtain ⟨rfl, rfl⟩ := h3
          refine ⟨?_, by simp⟩
          intro sp hsp
          rcases List.mem_cons.1 hsp with rfl | hsp
          · exact hq
          · exact hpq _ (hrest sp hsp)
        | none =>
          simp only [GoM.bind_eq_ok] at h3
          obtain ⟨⟨ps1, e2⟩, h4, h5⟩ := h3
          simp only [GoM.pure_eq, GoM.ok.injEq, Prod.mk.injEq] at h5
          obtain ⟨rfl, rfl⟩ := h5
          obtain ⟨k1, k2⟩ := ih _ _ hrest h4
          refine ⟨?_, by simp [k2]⟩
          intro sp hsp
          rcases List.mem_cons.1 hsp with rfl | hsp
          · exact hq
          · exact k1 sp hsp
  unfold PTS.normalize at hs
  rw [GoM.bind_eq_ok] at hs
  obtain ⟨⟨ps, e'⟩, h1, h2⟩ := hs
  simp only [GoM.pure_eq, GoM.ok.injEq, Prod.mk.injEq] at h2
  obtain ⟨rfl, rfl⟩ := h2
  exact key _ _ _ h h1

theorem tokenize_congr {f f' : NS → GoM (Except Err (List Token))} {P : NS → Prop} {p : PTS} (hf : ∀ ns, P ns → f' ns = f ns)
    (h : ∀ sp ∈ p.splits, P sp.ns) : p.tokenize f' = p.tokenize f := by
  have key : ∀ ps : List Piece, (∀ sp ∈ ps, P sp.ns) → PTS.tokenizeLoop f' ps = PTS.tokenizeLoop f ps := by
    intro ps
    induction ps with
    | nil => intros; rfl
    | cons p ps ih =>
      intro h
      unfold PTS.tokenizeLoop
      rw [ih fun sp hsp => h sp (by simp [hsp]), hf p.ns (h p (by simp))]
  unfold PTS.tokenize
  rw [key _ h]

/-- After `Tokenize` the strings are as before, and the new tokens are those of the function. -/
theorem tokenize_keeps {f : NS → GoM (Except Err (List Token))} {P : NS → Prop} {p p' : PTS} {e : Option Err}
    {T : Piece → Prop} (hT : ∀ sp ∈ p.splits, T sp) (hf : ∀ ns ts, P ns → f ns = .ok (.ok ts) → T ⟨ns, some ts⟩)
    (h : ∀ sp ∈ p.splits, P sp.ns) (hs : p.tokenize f = .ok (p', e)) :
    (∀ sp ∈ p'.splits, P sp.ns ∧ T sp) ∧ p'.splits.length = p.splits.length := by
  have key : ∀ (ps : List Piece) ps' e, (∀ sp ∈ ps, P sp.ns ∧ T sp) → PTS.tokenizeLoop f ps = .ok (ps', e) →
      (∀ sp ∈ ps', P sp.ns ∧ T sp) ∧ ps'.length = ps.length := by
    intro ps
    induction ps with
    | nil => intro ps' e _ h; simp [PTS.tokenizeLoop] at h; obtain ⟨rfl, -⟩ := h; simp
    | cons p ps ih =>
      intro ps' e h h1
      unfold PTS.tokenizeLoop at h1
      have hrest : ∀ sp ∈ ps, P sp.ns ∧ T sp := fun sp hsp => h sp (by simp [hsp])
      cases htok : p.tokens with
      | some ts =>
        simp only [htok, GoM.bind_eq_ok] at h1
        obtain ⟨⟨ps1, e1⟩, h2, h3⟩ := h1
        simp only [GoM.pure_eq, GoM.ok.injEq, Prod.mk.injEq] at h3
        obtain ⟨rfl, rfl⟩ := h3
        obtain ⟨k1, k2⟩ := ih _ _ hrest h2
        refine ⟨?_, by simp [k2]⟩
        intro sp hsp
        rcases List.mem_cons.1 hsp with rfl | hsp
        · exact h _ (by simp)
        · exact k1 sp hsp
      | none =>
        simp only [htok, GoM.bind_eq_ok] at h1
        obtain ⟨r, h2, h3⟩ := h1
        cases r with
        | error e1 =>
          simp only [GoM.pure_eq, GoM.ok.injEq, Prod.mk.injEq] at h3
          obtain ⟨rfl, rfl⟩ := h3
          exact ⟨h, rfl⟩
        | ok ts =>
          simp only [GoM.bind_eq_ok] at h3
          obtain ⟨⟨ps1, e2⟩, h4, h5⟩ := h3
          simp only [GoM.pure_eq, GoM.ok.injEq, Prod.mk.injEq] at h5
          obtain ⟨rfl, rfl⟩ := h5
          obtain ⟨k1, k2⟩ := ih _ _ hrest h4
          refine ⟨?_, by simp [k2]⟩
          intro sp hsp
          rcases List.mem_cons.1 hsp with rfl | hsp
          · exact ⟨(h p (by simp)).1, hf _ _ (h p (by simp)).1 h2⟩
          · exact k1 sp hsp
  unfold PTS.tokenize at hs
  rw [GoM.bind_eq_ok] at hs
  obtain ⟨⟨ps, e'⟩, h1, h2⟩ := hs
  simp only [GoM.pure_eq, GoM.ok.injEq, Prod.mk.injEq] at h2
  obtain ⟨rfl, rfl⟩ := h2
  exact key _ _ _ (fun sp hsp => ⟨h sp hsp, hT sp hsp⟩) h1

/-! ## Captures of the patterns -/

/-- Captures that are not too many and not too far out. -/
def CapturesFit (m : Machine) (cs : List Capture) : Prop :=
  (cs.length : Int) < m.half ∧ ∀ c ∈ cs, m.InInt c.offsets.start ∧ m.InInt c.offsets.stop

theorem rangeAux_length (s : Str) : ∀ i k : Nat, (rangeAux s i k).length ≤ s.length := by
  induction s with
  | nil => intro i k; simp [rangeAux]
  | cons b bs ih =>
    intro i k
    cases k with
    | zero => simp only [rangeAux, List.length_cons]; have := ih (i + 1); grind
    | succ k => simp only [rangeAux, List.length_cons]; have := ih (i + 1) k; omega

theorem funcCaptures_fit (f : Rune → Bool) {s : Str} (hs : m.Sized s.length) : CapturesFit m (funcFindMatches f s) := by
  unfold Sized at hs
  have hlt := rangeAux_lt s 0 0
  have hlen := rangeAux_length s 0 0
  have key : ∀ (xs : List (Nat × Rune)) (st : FuncState), (∀ p ∈ xs, p.1 < s.length) →
      st.lastOffset ≤ s.length + 4 → st.lastSeen ≤ s.length + 4 →
      (∀ c ∈ st.splits, 0 ≤ c.offsets.start ∧ c.offsets.start ≤ s.length + 4 ∧ 0 ≤ c.offsets.stop ∧ c.offsets.stop ≤ s.length + 4) →
      (xs.foldl (Verif.funcStep f) st).lastOffset ≤ s.length + 4 ∧ (xs.foldl (Verif.funcStep f) st).lastSeen ≤ s.length + 4
      ∧ (xs.foldl (Verif.funcStep f) st).splits.length ≤ st.splits.length + 2 * xs.length
      ∧ ∀ c ∈ (xs.foldl (Verif.funcStep f) st).splits,
          0 ≤ c.offsets.start ∧ c.offsets.start ≤ s.length + 4 ∧ 0 ≤ c.offsets.stop ∧ c.offsets.stop ≤ s.length + 4 := by
    intro xs
    induction xs with
    | nil => intro st _ h1 h2 h3; exact ⟨h1, h2, by simp, h3⟩
    | cons x xs ih =>
      intro st hx h1 h2 h3
      have hx0 := hx x (by simp)
      have h4 := encodeRune_le_four x.2
      have hstep : (Verif.funcStep f st x).lastOffset ≤ s.length + 4 ∧ (Verif.funcStep f st x).lastSeen ≤ s.length + 4
          ∧ (Verif.funcStep f st x).splits.length ≤ st.splits.length + 2
          ∧ ∀ c ∈ (Verif.funcStep f st x).splits,
              0 ≤ c.offsets.start ∧ c.offsets.start ≤ s.length + 4 ∧ 0 ≤ c.offsets.stop ∧ c.offsets.stop ≤ s.length + 4 := by
        unfold Verif.funcStep
        cases hfx : f x.2 with
        | false =>
          simp only [hfx, Bool.not_false, if_true]
          exact ⟨h1, by omega, by omega, h3⟩
        | true =>
          simp only [hfx, Bool.not_true, Bool.false_eq_true, if_false]
          by_cases hlt : st.lastOffset < x.1
          · rw [if_pos hlt]
            refine ⟨by omega, by omega, by simp, ?_⟩
            intro c hc
            simp only [List.mem_append, List.mem_singleton] at hc
            rcases hc with (hc | rfl) | rfl
            · exact h3 c hc
            · simp only; omega
            · simp only; omega
          · rw [if_neg hlt]
            refine ⟨by omega, by omega, by simp, ?_⟩
            intro c hc
            simp only [List.mem_append, List.mem_singleton] at hc
            rcases hc with hc | rfl
            · exact h3 c hc
            · simp only; omega
      obtain ⟨k1, k2, k3, k4⟩ := ih _ (fun p hp => hx p (by simp [hp])) hstep.1 hstep.2.1 hstep.2.2.2
      rw [List.foldl_cons]
      refine ⟨k1, k2, ?_, k4⟩
      have := hstep.2.2.1
      simp only [List.length_cons]
      omega
  unfold funcFindMatches
  by_cases h0 : s.length = 0
  · rw [if_pos h0]
    refine ⟨by simp [emptyCaptures]; omega, ?_⟩
    intro c hc
    simp only [emptyCaptures, List.mem_singleton] at hc
    subst hc
    exact ⟨⟨by simp, by simp; omega⟩, ⟨by simp, by simp; omega⟩⟩
  · rw [if_neg h0]
    obtain ⟨k1, k2, k3, k4⟩ := key (rangeStr s) ⟨0, 0, []⟩ (fun p hp => by have := hlt p hp; omega) (by simp) (by simp) (by simp)
    have hle : (rangeStr s).length ≤ s.length := hlen
    simp only [List.length_nil, Nat.zero_add] at k3
    have hin : ∀ c : Capture, 0 ≤ c.offsets.start ∧ c.offsets.start ≤ s.length + 4 ∧ 0 ≤ c.offsets.stop ∧ c.offsets.stop ≤ s.length + 4 →
        m.InInt c.offsets.start ∧ m.InInt c.offsets.stop := by
      intro c hc
      exact ⟨⟨by omega, by omega⟩, ⟨by omega, by omega⟩⟩
    simp only
    split
    · refine ⟨by simp; omega, ?_⟩
      intro c hc
      rcases List.mem_append.1 hc with hc | hc
      · exact hin c (k4 c hc)
      · rw [List.mem_singleton] at hc
        subst hc
        exact hin _ ⟨by simp, by simp; omega, by simp, by simp; omega⟩
    · exact ⟨by omega, fun c hc => hin c (k4 c hc)⟩

/-- A regular expression engine reports matches from left to right, within the text, and at most one per position. -/
def SaneEngine (findAll2 : List Rune → Except Err (List (Nat × Nat))) : Prop :=
  ∀ rs ms, findAll2 rs = .ok ms → Ordered2 ms 0 rs.length ∧ ms.length ≤ rs.length + 1

theorem scan_length (re : Re) (rs : List Rune) : ∀ i skip, (re.scan rs i skip).length ≤ rs.length + 1 := by
  induction rs with
  | nil =>
    intro i skip
    cases skip with
    | zero => simp only [Re.scan]; split <;> simp
    | succ skip => simp [Re.scan]
  | cons r rs ih =>
    intro i skip
    cases skip with
    | zero =>
      simp only [Re.scan]
      split
      · have := ih (i + 1); simp only [List.length_cons]; grind
      · have := ih (i + 1) 0; simp only [List.length_cons]; omega
    | succ skip => simp only [Re.scan]; have := ih (i + 1) skip; simp only [List.length_cons]; omega

/-- The engine of the model is one. -/
theorem saneEngine_re (re : Re) : SaneEngine re.findAll := by
  intro rs ms h
  simp only [Re.findAll, Except.ok.injEq] at h
  subst h
  exact ⟨re.findAll_ordered rs, scan_length re rs 0 0⟩

theorem ordered2_within : ∀ (ms : List (Nat × Nat)) (i n : Nat), Ordered2 ms i n → i ≤ n ∧ ∀ mt ∈ ms, mt.1 + mt.2 ≤ n := by
  intro ms
  induction ms with
  | nil => intro i n h; exact ⟨h, by simp⟩
  | cons mt ms ih =>
    intro i n h
    obtain ⟨h1, h2⟩ := ih _ _ h.2
    have := h.1
    refine ⟨by omega, ?_⟩
    intro x hx
    rcases List.mem_cons.1 hx with rfl | hx
    · exact h1
    · exact h2 x hx

theorem capturesOfMatches_length (s : Str) (ms : List (Int × Int)) : (capturesOfMatches s ms).length ≤ 2 * ms.length + 1 := by
  have key : ∀ (ms : List (Int × Int)) (st : Int × List Capture),
      (ms.foldl regexpStep st).2.length ≤ st.2.length + 2 * ms.length := by
    intro ms
    induction ms with
    | nil => intro st; simp
    | cons mt ms ih =>
      intro st
      have h := ih (regexpStep st mt)
      have h1 : (regexpStep st mt).2.length ≤ st.2.length + 2 := by
        unfold regexpStep
        simp only
        split <;> simp
      rw [List.foldl_cons]
      simp only [List.length_cons]
      omega
  unfold capturesOfMatches
  have := key ms (0, [])
  simp only [List.length_nil] at this
  simp only
  split
  · simp; omega
  · omega

theorem regexp2_fit {findAll2 : List Rune → Except Err (List (Nat × Nat))} (he : SaneEngine findAll2) {s : Str}
    (hs : m.Sized s.length) : m.fromRegexp2 findAll2 s = Verif.fromRegexp2 findAll2 s
      ∧ ∀ cs, Verif.fromRegexp2 findAll2 s = .ok (.ok cs) → CapturesFit m cs := by
  have hr := runesOf_length_le s
  constructor
  · refine fromRegexp2_eq hs ?_
    intro ms h mt hmt
    have := (ordered2_within _ _ _ (he _ _ h).1).2 mt hmt
    omega
  · intro cs h
    have hs' := hs
    unfold Sized at hs'
    unfold Verif.fromRegexp2 at h
    by_cases h0 : s.length = 0
    · rw [if_pos h0] at h
      simp only [GoM.ok.injEq, Except.ok.injEq] at h
      subst h
      have := funcCaptures_fit (m := m) (fun _ => false) hs
      unfold funcFindMatches at this
      rwa [if_pos h0] at this
    · rw [if_neg h0] at h
      cases hf : findAll2 (runesOf s) with
      | error e => simp [hf] at h
      | ok ms =>
        simp only [hf, GoM.ok.injEq, Except.ok.injEq] at h
        subst h
        obtain ⟨e1, e2⟩ := he _ _ hf
        have hl := capturesOfMatches_length s (ms.map (regexp2Bytes (runesOf s)))
        simp only [List.length_map] at hl
        have h4 := encodeRunes_runesOf_le s
        refine ⟨by omega, ?_⟩
        have hz : m.InInt 0 := ⟨by omega, by omega⟩
        have hn : m.InInt (s.length : Int) := ⟨by omega, by omega⟩
        have hp := capturesOfMatches_points m.InInt s (ms.map (regexp2Bytes (runesOf s))) hz hn (by
          intro x hx
          obtain ⟨mt, hmt, rfl⟩ := List.mem_map.1 hx
          unfold regexp2Bytes
          have t1 : (encodeRunes ((runesOf s).take mt.1)).length ≤ (encodeRunes (runesOf s)).length := by
            conv => rhs; rw [← List.take_append_drop mt.1 (runesOf s), encodeRunes_append]
            simp
          have t2 : (encodeRunes (((runesOf s).drop mt.1).take mt.2)).length ≤ 4 * (runesOf s).length := by
            have := encodeRunes_le_four (((runesOf s).drop mt.1).take mt.2)
            have : (((runesOf s).drop mt.1).take mt.2).length ≤ (runesOf s).length := by simp; omega
            omega
          exact ⟨⟨by simp only; omega, by simp only; omega⟩, ⟨by simp only; omega, by simp only; omega⟩⟩)
        exact hp

/-! ## Splitting -/

/-- The pieces of `Split` are parts of the same text and no longer. -/
theorem split_small {root : Str} {n : Nat} {ns : NS} (h : Small root n ns) {pattern : SplitPattern} {b : Behavior}
    {pieces : List NS} (hs : ns.split pattern b = .ok (.ok pieces)) : ∀ p ∈ pieces, Small root n p := by
  have key : ∀ (sms : List SplitMatch) (pieces : List NS), ns.sliceAll sms = .ok (.ok pieces) → ∀ p ∈ pieces, Small root n p := by
    intro sms
    induction sms with
    | nil => intro pieces h; simp [NS.sliceAll] at h; subst h; simp
    | cons sm sms ih =>
      intro pieces hp
      unfold NS.sliceAll at hp
      by_cases hrm : sm.shouldRemove = true
      · rw [if_pos hrm] at hp; exact ih _ hp
      · rw [if_neg hrm] at hp
        rw [GoM.bind_eq_ok] at hp
        obtain ⟨o, h1, h2⟩ := hp
        cases o with
        | none => simp at h2
        | some p =>
          simp only [GoM.bind_eq_ok] at h2
          obtain ⟨r, h3, h4⟩ := h2
          cases r with
          | error e => simp at h4
          | ok rest =>
            simp only [GoM.pure_eq, GoM.ok.injEq, Except.ok.injEq] at h4
            subst h4
            intro q hq
            rcases List.mem_cons.1 hq with rfl | hq
            · refine ⟨slice_wf h.wf h1, slice_partOf h.part h1, ?_⟩
              obtain ⟨-, na, nb, oa, ob, als, -, -, -, g, -⟩ := slice_ok h1
              have := (goSlice_eq_ok.1 g).2
              have hl := congrArg List.length this
              have hsz := h.size
              simp only [List.length_take, List.length_drop] at hl
              omega
            · exact ih _ h3 q hq
  unfold NS.split at hs
  rw [GoM.bind_eq_ok] at hs
  obtain ⟨r, -, h2⟩ := hs
  cases r with
  | error e => simp at h2
  | ok cs => exact key _ _ h2

theorem split_machine {root : Str} {n : Nat} {ns : NS} (h : Small root n ns) (hr : m.Sized root.length) (hn : m.Sized n)
    {pattern pattern' : SplitPattern} {b : Behavior} (hp : pattern' ns.normalized = pattern ns.normalized)
    (hc : ∀ cs, pattern ns.normalized = .ok (.ok cs) → CapturesFit m cs) : m.split ns pattern' b = ns.split pattern b := by
  have : m.split ns pattern' b = m.split ns pattern b := by
    unfold split; rw [hp]
  rw [this]
  exact split_eq h.wf h.part hr (h.sized hn).1 hc

theorem splitByPattern_machine {root : Str} {n : Nat} (hr : m.Sized root.length) (hn : m.Sized n)
    {pattern pattern' : SplitPattern} {b : Behavior} (hp : ∀ s : Str, m.Sized s.length → pattern' s = pattern s)
    (hc : ∀ (s : Str) cs, m.Sized s.length → pattern s = .ok (.ok cs) → CapturesFit m cs) (i : Nat) {ns : NS} (h : Small root n ns) :
    m.splitByPattern pattern' b i ns = Verif.splitByPattern pattern b i ns := by
  unfold splitByPattern Verif.splitByPattern
  rw [split_machine h hr hn (hp _ (h.sized hn).1) (fun cs => hc _ cs (h.sized hn).1)]
  rfl

theorem splitByPattern_small {root : Str} {n : Nat} {pattern : SplitPattern} {b : Behavior} {i : Nat} {ns ns' : NS}
    {items : List Piece} (h : Small root n ns) (hs : Verif.splitByPattern pattern b i ns = .ok (ns', .ok items)) :
    ∀ it ∈ items, Small root n it.ns := by
  unfold Verif.splitByPattern at hs
  rw [GoM.bind_eq_ok] at hs
  obtain ⟨r, h1, h2⟩ := hs
  cases r with
  | error e => simp at h2
  | ok nss =>
    simp only [GoM.pure_eq, GoM.ok.injEq, Prod.mk.injEq, Except.ok.injEq] at h2
    obtain ⟨-, rfl⟩ := h2
    intro it hit
    obtain ⟨p, hp, rfl⟩ := List.mem_map.1 hit
    exact split_small h h1 p hp

theorem func_machine (f : Rune → Bool) {s : Str} (hs : m.Sized s.length) : m.fromFunc f s = Verif.fromFunc f s
    ∧ ∀ cs, Verif.fromFunc f s = .ok (.ok cs) → CapturesFit m cs := by
  refine ⟨fromFunc_eq hs, ?_⟩
  intro cs h
  simp only [Verif.fromFunc, GoM.ok.injEq, Except.ok.injEq] at h
  subst h
  exact funcCaptures_fit f hs

/-- Splitting by a predicate. -/
theorem splitFunc_machine {root : Str} {n : Nat} (hr : m.Sized root.length) (hn : m.Sized n) (f : Rune → Bool) (b : Behavior)
    {p : PTS} (h : ∀ sp ∈ p.splits, Small root n sp.ns) :
    p.split (m.splitByPattern (m.fromFunc f) b) = p.split (Verif.splitByPattern (Verif.fromFunc f) b)
    ∧ ∀ p', p.split (Verif.splitByPattern (Verif.fromFunc f) b) = .ok (p', none) → ∀ sp ∈ p'.splits, Small root n sp.ns :=
  ⟨split_congr (fun i _ hns => splitByPattern_machine hr hn (fun _ hs => (func_machine f hs).1)
      (fun _ cs hs => (func_machine f hs).2 cs) i hns) h,
    fun _ hp => split_keeps (fun _ h => h) (fun _ _ _ _ => splitByPattern_small) h hp⟩

/-! ## Transformations -/

theorem runesOf_encode_length (rs : List Rune) : (runesOf (encodeRunes (rs.map sanitize))).length = rs.length := by
  rw [runesOf_encodeRunes]
  · simp
  · intro r hr
    obtain ⟨x, -, rfl⟩ := List.mem_map.1 hr
    exact sanitize_valid x

/-- At most `k` runes, at most four bytes each or `n` bytes in all. -/
structure Runes (root : Str) (n k : Nat) (ns : NS) : Prop where
  small : Small root n ns
  runes : (runesOf ns.normalized).length ≤ k

theorem Runes.mono {root : Str} {n n' k : Nat} {ns : NS} (h : Runes root n k ns) (hn : n ≤ n') : Runes root n' k ns :=
  ⟨h.small.mono hn, h.runes⟩

theorem transform_runes {root : Str} {ns ns' : NS} {n k : Nat} (h : Small root n ns) {dest : List RuneChange} {io : Int}
    (hd : dest.length ≤ k) (ht : ns.transform dest io = .ok ns') : Runes root (4 * k) k ns' := by
  have hop : Op.run ns (.transform dest io) = .ok ns' := ht
  obtain ⟨h1, -⟩ := C76_transform ht
  have h1' : ns'.normalized = encodeRunes (dest.map fun rc => sanitize rc.rune) := h1
  have e : (dest.map fun rc => sanitize rc.rune) = (dest.map (·.rune)).map sanitize := by simp
  refine ⟨⟨Op.run_wf h.wf hop, Op.run_partOf h.part hop, ?_⟩, ?_⟩
  · have := encodeRunes_le_four (dest.map fun rc => sanitize rc.rune)
    rw [h1']
    simp only [List.length_map] at this
    omega
  · rw [h1', e, runesOf_encode_length]
    simpa using hd

theorem transform_machine {root : Str} {n : Nat} {ns : NS} (h : Small root n ns) (hn : m.Sized n) {dest : List RuneChange}
    {io : Int} (hd : 8 * dest.length ≤ m.half) (hdest : ∀ rc ∈ dest, m.InInt rc.change ∧ m.Writes rc.rune) :
    m.transform ns dest io = ns.transform dest io :=
  transform_eq (h.sized hn).1 (h.sized hn).2 hd hdest

theorem map_machine {root : Str} {n k : Nat} {ns : NS} (hm : m.WritesRunes) (h : Runes root n k ns) (hn : m.Sized n)
    {f : Rune → Rune} (hf : ∀ r, 0 ≤ r → 0 ≤ f r) :
    m.map ns f = ns.map f ∧ ∀ ns', ns.map f = .ok ns' → Runes root (4 * k) k ns' := by
  constructor
  · have hl := runesOf_length_le ns.normalized
    have hsz := h.small.size
    have hn' := hn
    unfold Sized at hn'
    refine transform_machine h.small hn (by simp; omega) ?_
    intro rc hrc
    obtain ⟨r, hr, rfl⟩ := List.mem_map.1 hrc
    refine ⟨⟨by simp only; omega, by simp only; omega⟩, hm _ (hf r ?_)⟩
    rcases runesOf_valid ns.normalized r hr with h | h <;> omega
  · intro ns' ht
    exact transform_runes h.small (by simpa using h.runes) ht

theorem filter_machine {root : Str} {n k : Nat} {ns : NS} (hm : m.WritesRunes) (h : Runes root n k ns) (hn : m.Sized n)
    {keep : Rune → Bool} :
    m.filter ns keep = ns.filter keep ∧ ∀ ns', ns.filter keep = .ok ns' → Runes root (4 * k) k ns' := by
  refine ⟨filter_eq hm (h.small.sized hn).1 (h.small.sized hn).2, ?_⟩
  intro ns' ht
  refine transform_runes h.small ?_ (show ns.transform _ _ = .ok ns' from ht)
  have e := congrArg List.length (filterChanges_runes keep (runesOf ns.normalized))
  change (NS.filterChanges keep (runesOf ns.normalized)).1.length ≤ k
  have := List.length_filter_le keep (runesOf ns.normalized)
  have := h.runes
  simp only [List.length_map] at e
  omega

theorem chinese_machine {root : Str} {n k : Nat} {ns : NS} (hm : m.WritesRunes) (h : Runes root n k ns) (hn : m.Sized n)
    (hk : 24 * k ≤ m.half) : m.handleChineseChars ns = Verif.handleChineseChars ns
      ∧ ∀ ns', Verif.handleChineseChars ns = .ok ns' → Runes root (12 * k) (3 * k) ns' := by
  have hlen : ∀ rs : List Rune, (rs.flatMap chineseChange).length ≤ 3 * rs.length := by
    intro rs
    induction rs with
    | nil => simp
    | cons r rs ih =>
      simp only [List.flatMap_cons, List.length_append, List.length_cons]
      have : (chineseChange r).length ≤ 3 := by unfold chineseChange; split <;> simp
      omega
  have h1 := hlen (runesOf ns.normalized)
  have h2 := h.runes
  constructor
  · unfold Sized at hn
    refine transform_machine h.small hn (by omega) ?_
    intro rc hrc
    obtain ⟨r, hr, hrc⟩ := List.mem_flatMap.1 hrc
    have h0 : 0 ≤ r := by rcases runesOf_valid ns.normalized r hr with h | h <;> omega
    have hi : ∀ x : Int, 0 ≤ x → x ≤ 1 → m.InInt x := fun x _ _ => ⟨by omega, by omega⟩
    unfold chineseChange at hrc
    split at hrc
    · simp only [List.mem_cons, List.not_mem_nil, or_false] at hrc
      rcases hrc with rfl | rfl | rfl
      · exact ⟨hi _ (by simp) (by simp), hm _ (by simp)⟩
      · exact ⟨hi _ (by simp) (by simp), hm _ h0⟩
      · exact ⟨hi _ (by simp) (by simp), hm _ (by simp)⟩
    · simp only [List.mem_singleton] at hrc
      subst hrc
      exact ⟨hi _ (by simp) (by simp), hm _ h0⟩
  · intro ns' ht
    have := transform_runes (k := 3 * k) h.small (by omega) (show ns.transform _ _ = .ok ns' from ht)
    exact this.mono (by omega)

theorem bertNormalize_def (u : Uni) (c : BertCfg) (ns : NS) : m.bertNormalize u c ns =
    ((if c.textCleaning then m.cleanText u ns else pure ns) >>= fun ns1 =>
      (if c.chineseCharsHandling then m.handleChineseChars ns1 else pure ns1) >>= fun ns2 =>
      (if c.accentsStripping then m.filter ns2 (fun r => !u.isMn r) else pure ns2) >>= fun ns3 =>
      (if c.lowerCaseEnabled then m.map ns3 u.toLower else pure ns3) >>= fun ns4 => pure (ns4, none)) := by
  obtain ⟨a, b, c, d⟩ := c
  cases a <;> cases b <;> cases c <;> cases d <;> rfl

theorem bertNormalize_plain (u : Uni) (c : BertCfg) (ns : NS) : Verif.bertNormalize u c ns =
    ((if c.textCleaning then Verif.cleanText u ns else pure ns) >>= fun ns1 =>
      (if c.chineseCharsHandling then Verif.handleChineseChars ns1 else pure ns1) >>= fun ns2 =>
      (if c.accentsStripping then stripAccents u ns2 else pure ns2) >>= fun ns3 =>
      (if c.lowerCaseEnabled then ns3.toLower u.toLower else pure ns3) >>= fun ns4 => pure (ns4, none)) := by
  obtain ⟨a, b, c, d⟩ := c
  cases a <;> cases b <;> cases c <;> cases d <;> rfl

/-- **C90, `BertNormalizer`.** On every consistent string of `n` bytes, if `12 n` is well below the largest `int`. -/
theorem bertNormalize_machine {root : Str} {n : Nat} {ns : NS} (hm : m.WritesRunes) (h : Small root n ns)
    (hn : m.Sized (12 * n)) {u : Uni} (hu : ∀ r, 0 ≤ r → 0 ≤ u.toLower r) (c : BertCfg) :
    m.bertNormalize u c ns = Verif.bertNormalize u c ns
    ∧ ∀ ns' e, Verif.bertNormalize u c ns = .ok (ns', e) → Small root (12 * n) ns' := by
  have h0 : Runes root (12 * n) n ns :=
    ⟨h.mono (by omega), Nat.le_trans (runesOf_length_le _) h.size⟩
  have hn' := hn
  unfold Sized at hn'
  -- text cleaning
  have e1 : (if c.textCleaning then m.cleanText u ns else pure ns) = (if c.textCleaning then Verif.cleanText u ns else pure ns)
      ∧ ∀ ns1, (if c.textCleaning then Verif.cleanText u ns else pure ns) = .ok ns1 → Runes root (12 * n) n ns1 := by
    cases c.textCleaning with
    | false => exact ⟨rfl, fun ns1 h => by simp at h; subst h; exact h0⟩
    | true =>
      simp only [if_true]
      obtain ⟨f1, f2⟩ := filter_machine hm h0 hn (keep := cleanKeep u)
      unfold cleanText Verif.cleanText
      rw [f1]
      cases hx : ns.filter (cleanKeep u) with
      | panic => exact ⟨rfl, fun ns1 h => by simp at h⟩
      | ok x =>
        simp only [GoM.bind_ok]
        obtain ⟨g1, g2⟩ := map_machine (f := cleanMap) hm ((f2 x hx).mono (n' := 12 * n) (by omega)) hn (by
          intro r hr; unfold cleanMap; split <;> simp [hr])
        exact ⟨g1, fun ns1 h => (g2 ns1 h).mono (by omega)⟩
  have e2 : ∀ ns1, Runes root (12 * n) n ns1 →
      (if c.chineseCharsHandling then m.handleChineseChars ns1 else pure ns1)
        = (if c.chineseCharsHandling then Verif.handleChineseChars ns1 else pure ns1)
      ∧ ∀ ns2, (if c.chineseCharsHandling then Verif.handleChineseChars ns1 else pure ns1) = .ok ns2 →
          Runes root (12 * n) (3 * n) ns2 := by
    intro ns1 h1
    cases c.chineseCharsHandling with
    | false => exact ⟨rfl, fun ns2 h => by simp at h; subst h; exact ⟨h1.small, by have := h1.runes; omega⟩⟩
    | true =>
      simp only [if_true]
      exact chinese_machine hm h1 hn (by omega)
  have e3 : ∀ ns2, Runes root (12 * n) (3 * n) ns2 →
      (if c.accentsStripping then m.filter ns2 (fun r => !u.isMn r) else pure ns2)
        = (if c.accentsStripping then stripAccents u ns2 else pure ns2)
      ∧ ∀ ns3, (if c.accentsStripping then stripAccents u ns2 else pure ns2) = .ok ns3 → Runes root (12 * n) (3 * n) ns3 := by
    intro ns2 h2
    cases c.accentsStripping with
    | false => exact ⟨rfl, fun ns3 h => by simp at h; subst h; exact h2⟩
    | true =>
      simp only [if_true]
      obtain ⟨f1, f2⟩ := filter_machine hm h2 hn (keep := fun r => !u.isMn r)
      exact ⟨f1, fun ns3 h => (f2 ns3 h).mono (by omega)⟩
  have e4 : ∀ ns3, Runes root (12 * n) (3 * n) ns3 →
      (if c.lowerCaseEnabled then m.map ns3 u.toLower else pure ns3)
        = (if c.lowerCaseEnabled then ns3.toLower u.toLower else pure ns3)
      ∧ ∀ ns4, (if c.lowerCaseEnabled then ns3.toLower u.toLower else pure ns3) = .ok ns4 → Runes root (12 * n) (3 * n) ns4 := by
    intro ns3 h3
    cases c.lowerCaseEnabled with
    | false => exact ⟨rfl, fun ns4 h => by simp at h; subst h; exact h3⟩
    | true =>
      simp only [if_true]
      obtain ⟨f1, f2⟩ := map_machine hm h3 hn hu
      exact ⟨f1, fun ns4 h => (f2 ns4 h).mono (by omega)⟩
  rw [bertNormalize_def, bertNormalize_plain, e1.1]
  cases hx1 : (if c.textCleaning then Verif.cleanText u ns else pure ns) with
  | panic => exact ⟨rfl, fun _ _ h => by simp at h⟩
  | ok ns1 =>
    have r1 := e1.2 ns1 hx1
    simp only [GoM.bind_ok]
    rw [(e2 ns1 r1).1]
    cases hx2 : (if c.chineseCharsHandling then Verif.handleChineseChars ns1 else pure ns1) with
    | panic => exact ⟨rfl, fun _ _ h => by simp at h⟩
    | ok ns2 =>
      have r2 := (e2 ns1 r1).2 ns2 hx2
      simp only [GoM.bind_ok]
      rw [(e3 ns2 r2).1]
      cases hx3 : (if c.accentsStripping then stripAccents u ns2 else pure ns2) with
      | panic => exact ⟨rfl, fun _ _ h => by simp at h⟩
      | ok ns3 =>
        have r3 := (e3 ns2 r2).2 ns3 hx3
        simp only [GoM.bind_ok]
        rw [(e4 ns3 r3).1]
        cases hx4 : (if c.lowerCaseEnabled then ns3.toLower u.toLower else pure ns3) with
        | panic => exact ⟨rfl, fun _ _ h => by simp at h⟩
        | ok ns4 =>
          have r4 := (e4 ns3 r3).2 ns4 hx4
          refine ⟨rfl, ?_⟩
          intro ns' e h
          simp only [GoM.bind_ok, GoM.pure_eq, GoM.ok.injEq, Prod.mk.injEq] at h
          rw [← h.1]
          exact r4.small

/-! ## Pre-tokenizers -/

/-- Prepending a text that is not too long. -/
theorem prepend_machine {root : Str} {n : Nat} {ns : NS} {s : Str} (hm : m.WritesRunes) (h : Small root n ns)
    (hn : m.Sized n) (hs : m.Sized s.length) : m.prepend ns s = ns.prepend s
      ∧ ∀ ns', ns.prepend s = .ok ns' → Small root (n + 4 * (s.length + 1)) ns' := by
  refine ⟨prepend_eq hm (h.sized hn).1 (h.sized hn).2 hs, ?_⟩
  intro ns' hp
  have hop : Op.run ns (.prepend s) = .ok ns' := hp
  refine ⟨Op.run_wf h.wf hop, Op.run_partOf h.part hop, ?_⟩
  have hsz := h.size
  unfold NS.prepend at hp
  by_cases h0 : ns.normalized.length = 0
  · rw [if_pos h0] at hp
    simp only [GoM.ok.injEq] at hp
    subst hp
    omega
  · rw [if_neg h0, GoM.bind_eq_ok] at hp
    obtain ⟨r, -, hp⟩ := hp
    have := (transformNormalized_sizes (show ns.transformNormalized 0 _ _ _ = .ok ns' from hp)).1
    have hl := runesOf_length_le s
    simp only [List.length_append, NS.prependChanges, List.length_map, List.length_singleton] at this
    simp only [runesOf, List.length_map] at hl
    omega

theorem byteLevelLoop_machine (s : Str) (hs : m.Sized s.length) (rs : List Rune) : ∀ (i : Int) (out : List RuneChange),
    0 ≤ i → i ≤ s.length →
    m.byteLevelLoop s rs i out = (Verif.byteLevelLoop s rs i >>= fun r => pure (out ++ r)) := by
  induction rs with
  | nil => intro i out _ _; simp [byteLevelLoop, Verif.byteLevelLoop]
  | cons r rs ih =>
    intro i out h0 h1
    have h4 := encodeRune_le_four r
    unfold Sized at hs
    simp only [byteLevelLoop, Verif.byteLevelLoop]
    rw [wrap_eq (x := i + (encodeRune r).length) ⟨by omega, by omega⟩]
    cases hg : goSlice s i (i + (encodeRune r).length) with
    | panic => rfl
    | ok bytes =>
      obtain ⟨⟨g1, g2, g3⟩, -⟩ := goSlice_eq_ok.1 hg
      simp only [GoM.bind_ok]
      rw [ih _ _ (by omega) (by omega)]
      cases Verif.byteLevelLoop s rs (i + (encodeRune r).length) with
      | panic => rfl
      | ok rest => simp

theorem byteLevelLoop_changes (s : Str) (rs : List Rune) : ∀ (i : Int) (changes : List RuneChange), 0 ≤ i → i ≤ s.length →
    Verif.byteLevelLoop s rs i = .ok changes → (changes.length : Int) ≤ s.length - i
      ∧ ∀ rc ∈ changes, (0 ≤ rc.change ∧ rc.change ≤ 1) ∧ 0 ≤ rc.rune := by
  induction rs with
  | nil =>
    intro i changes h0 h1 h
    simp only [Verif.byteLevelLoop, GoM.ok.injEq] at h
    subst h
    refine ⟨?_, by simp⟩
    simp only [List.length_nil]; omega
  | cons r rs ih =>
    intro i changes h0 h1 h
    simp only [Verif.byteLevelLoop, GoM.bind_eq_ok] at h
    obtain ⟨bytes, hg, rest, hr, h⟩ := h
    simp only [GoM.pure_eq, GoM.ok.injEq] at h
    subst h
    obtain ⟨⟨g1, g2, g3⟩, gb⟩ := goSlice_eq_ok.1 hg
    obtain ⟨k1, k2⟩ := ih _ _ (by omega) (by omega) hr
    have hb : bytes.length = (encodeRune r).length := by
      rw [gb]
      simp only [List.length_take, List.length_drop]
      omega
    constructor
    · simp only [List.length_append, byteChanges, List.length_mapIdx]
      omega
    · intro rc hrc
      rcases List.mem_append.1 hrc with hrc | hrc
      · obtain ⟨j, hj, rfl⟩ := List.mem_mapIdx.1 hrc
        refine ⟨by simp only; split <;> omega, ?_⟩
        have := (byteToRune_good bytes[j]).1
        simp only
        rcases this with h | h <;> omega
      · exact k2 rc hrc

/-- **C90, byte-level normalization.** -/
theorem byteLevelNormalize_machine {root : Str} {n : Nat} {ns : NS} (hm : m.WritesRunes) (h : Small root n ns) (hn : m.Sized n) :
    m.byteLevelNormalize ns = Verif.byteLevelNormalize ns
    ∧ ∀ ns' e, Verif.byteLevelNormalize ns = .ok (ns', e) → Small root (4 * n) ns' := by
  have hsz := h.size
  have hn' := hn
  unfold Sized at hn'
  unfold byteLevelNormalize Verif.byteLevelNormalize
  rw [byteLevelLoop_machine ns.get (h.sized hn).1 _ 0 [] (by omega) (by omega)]
  cases hl : Verif.byteLevelLoop ns.get (runesOf ns.get) 0 with
  | panic => exact ⟨rfl, fun _ _ h => by simp at h⟩
  | ok changes =>
    obtain ⟨c1, c2⟩ := byteLevelLoop_changes ns.get _ 0 changes (by omega) (by omega) hl
    have hget : ns.get.length ≤ n := hsz
    simp only [GoM.bind_ok, GoM.pure_eq, List.nil_append]
    rw [transform_machine h hn (by omega) (fun rc hrc => by
      obtain ⟨⟨a, b⟩, c⟩ := c2 rc hrc
      exact ⟨⟨by omega, by omega⟩, hm _ c⟩)]
    refine ⟨rfl, ?_⟩
    intro ns' e hx
    rw [GoM.bind_eq_ok] at hx
    obtain ⟨ns1, h1, h2⟩ := hx
    simp only [GoM.ok.injEq, Prod.mk.injEq] at h2
    obtain ⟨rfl, -⟩ := h2
    exact (transform_runes (k := n) h (by omega) h1).small

theorem byteLevelSplitFunc_def (findAll2 : List Rune → Except Err (List (Nat × Nat))) (b : Bool) (i : Nat) (ns : NS) :
    m.byteLevelSplitFunc findAll2 b i ns =
      ((if b = true ∧ (!startsWithWhitespace ns.get) = true then m.prepend ns [32] else pure ns) >>= fun ns1 =>
        m.split ns1 (m.fromRegexp2 findAll2) .isolated >>= fun r => match r with
          | .error e => pure (ns1, .error e)
          | .ok nss => pure (ns1, .ok (splitsFromNormalizedStrings nss))) := by
  unfold byteLevelSplitFunc
  by_cases h : b = true ∧ (!startsWithWhitespace ns.get) = true
  · simp only [if_pos h]; rfl
  · simp only [if_neg h]; rfl

theorem byteLevelSplitFunc_plain (findAll2 : List Rune → Except Err (List (Nat × Nat))) (b : Bool) (i : Nat) (ns : NS) :
    Verif.byteLevelSplitFunc findAll2 b i ns =
      ((if b = true ∧ (!startsWithWhitespace ns.get) = true then ns.prepend [32] else pure ns) >>= fun ns1 =>
        ns1.split (Verif.fromRegexp2 findAll2) .isolated >>= fun r => match r with
          | .error e => pure (ns1, .error e)
          | .ok nss => pure (ns1, .ok (splitsFromNormalizedStrings nss))) := by
  unfold Verif.byteLevelSplitFunc
  by_cases h : b = true ∧ (!startsWithWhitespace ns.get) = true
  · simp only [if_pos h]; rfl
  · simp only [if_neg h]; rfl

theorem byteLevelSplitFunc_machine {root : Str} {n : Nat} (hm : m.WritesRunes) (hr : m.Sized root.length) (hn : m.Sized (n + 8))
    {findAll2 : List Rune → Except Err (List (Nat × Nat))} (he : SaneEngine findAll2) (b : Bool) (i : Nat) {ns : NS}
    (h : Small root n ns) : m.byteLevelSplitFunc findAll2 b i ns = Verif.byteLevelSplitFunc findAll2 b i ns
      ∧ ∀ ns' items, Verif.byteLevelSplitFunc findAll2 b i ns = .ok (ns', .ok items) → ∀ it ∈ items, Small root (n + 8) it.ns := by
  have hn0 : m.Sized n := hn.mono (by omega)
  obtain ⟨p1, p2⟩ := prepend_machine (s := [32]) hm h hn0 (hn.mono (by simp))
  have e1 : (if b = true ∧ (!startsWithWhitespace ns.get) = true then m.prepend ns [32] else pure ns)
        = (if b = true ∧ (!startsWithWhitespace ns.get) = true then ns.prepend [32] else pure ns)
      ∧ ∀ ns1, (if b = true ∧ (!startsWithWhitespace ns.get) = true then ns.prepend [32] else pure ns) = .ok ns1 →
          Small root (n + 8) ns1 := by
    by_cases hb : b = true ∧ (!startsWithWhitespace ns.get) = true
    · simp only [if_pos hb]
      exact ⟨p1, fun ns1 h => (p2 ns1 h).mono (by simp)⟩
    · simp only [if_neg hb]
      exact ⟨trivial, fun ns1 hx => by simp at hx; subst hx; exact h.mono (by omega)⟩
  rw [byteLevelSplitFunc_def, byteLevelSplitFunc_plain, e1.1]
  cases hx : (if b = true ∧ (!startsWithWhitespace ns.get) = true then ns.prepend [32] else pure ns) with
  | panic => exact ⟨rfl, fun _ _ h => by simp at h⟩
  | ok ns1 =>
    have s1 := e1.2 ns1 hx
    obtain ⟨r1, r2⟩ := regexp2_fit (m := m) he (s1.sized hn).1
    simp only [GoM.bind_ok]
    rw [split_machine s1 hr hn r1 r2]
    refine ⟨rfl, ?_⟩
    intro ns' items h
    rw [GoM.bind_eq_ok] at h
    obtain ⟨r, h1, h2⟩ := h
    cases r with
    | error e => simp at h2
    | ok nss =>
      simp only [GoM.pure_eq, GoM.ok.injEq, Prod.mk.injEq, Except.ok.injEq] at h2
      obtain ⟨-, rfl⟩ := h2
      intro it hit
      obtain ⟨p, hp, rfl⟩ := List.mem_map.1 hit
      exact split_small s1 h1 p hp

theorem invert_fit {pattern pattern' : SplitPattern} {s : Str} (hp : pattern' s = pattern s)
    (hc : ∀ cs, pattern s = .ok (.ok cs) → CapturesFit m cs) : m.invert pattern' s = Verif.invert pattern s
      ∧ ∀ cs, Verif.invert pattern s = .ok (.ok cs) → CapturesFit m cs := by
  constructor
  · rw [invert_eq (fun cs h => (hc cs (hp ▸ h)).1)]
    unfold Verif.invert
    rw [hp]
  · intro cs h
    unfold Verif.invert at h
    cases hx : pattern s with
    | panic => simp [hx] at h
    | ok r =>
      cases r with
      | error e => simp [hx] at h
      | ok cs0 =>
        simp only [hx, GoM.ok.injEq, Except.ok.injEq] at h
        subst h
        obtain ⟨h1, h2⟩ := hc cs0 hx
        refine ⟨by simpa using h1, ?_⟩
        intro c hc
        obtain ⟨c0, hc0, rfl⟩ := List.mem_map.1 hc
        exact h2 c0 hc0

/-! ## Replacing -/

theorem replace_small {root : Str} {n : Nat} {ns ns' : NS} {pattern : SplitPattern} {content : Str} (h : Small root n ns)
    {caps : List Capture} (hp : pattern ns.normalized = .ok (.ok caps))
    (hr : ns.replace pattern content = .ok (.ok ns')) : Small root (n + 4 * (caps.length * content.length)) ns' := by
  have hop : Op.run ns (.replace pattern content) = .ok ns' := by
    simp only [Op.run, hr, GoM.bind_ok, GoM.pure_eq]
  refine ⟨Op.run_wf h.wf hop, Op.run_partOf h.part hop, ?_⟩
  have key : ∀ (caps : List Capture) (ns : NS) (offset : Int) (st : NS × Int),
      goFor caps (ns, offset) (NS.replaceStep content) = .ok st →
      st.1.normalized.length ≤ ns.normalized.length + 4 * (caps.length * content.length) := by
    intro caps
    induction caps with
    | nil => intro ns offset st h; simp [goFor_nil] at h; subst h; simp
    | cons c cs ih =>
      intro ns offset st h
      rw [goFor_cons, GoM.bind_eq_ok] at h
      obtain ⟨⟨ns1, o1⟩, h1, h2⟩ := h
      have := ih ns1 o1 st h2
      have hmul : (c :: cs).length * content.length = cs.length * content.length + content.length := by
        simp [Nat.add_mul]
      unfold NS.replaceStep at h1
      cases hmt : c.isMatch with
      | false =>
        simp only [hmt, Bool.not_false, if_true, GoM.ok.injEq, Prod.mk.injEq] at h1
        obtain ⟨rfl, -⟩ := h1
        omega
      | true =>
        simp only [hmt, Bool.not_true, Bool.false_eq_true, if_false, GoM.bind_eq_ok] at h1
        obtain ⟨seg, -, ns2, g2, g3⟩ := h1
        simp only [GoM.pure_eq, GoM.ok.injEq, Prod.mk.injEq] at g3
        obtain ⟨rfl, -⟩ := g3
        have hsz := (transformNormalized_sizes (show ns.transformNormalized _ _ _ _ = .ok ns2 from g2)).1
        have hrl := runesOf_length_le content
        simp only [List.length_map] at hsz
        omega
  unfold NS.replace at hr
  simp only [hp, GoM.bind_ok, GoM.bind_eq_ok] at hr
  obtain ⟨st, h1, h2⟩ := hr
  simp only [GoM.pure_eq, GoM.ok.injEq, Except.ok.injEq] at h2
  subst h2
  have := key _ _ _ _ h1
  have := h.size
  omega

theorem tiles_count : ∀ (cs : List Capture) (i n : Int), Tiles cs i n → (∀ c ∈ cs, c.offsets.start < c.offsets.stop) →
    (cs.length : Int) ≤ n - i := by
  intro cs
  induction cs with
  | nil => intro i n h _; simp only [Tiles] at h; subst h; simp
  | cons c cs ih =>
    intro i n h hc
    obtain ⟨h1, h2, h3⟩ := h
    have := ih _ _ h3 fun c hc' => hc c (by simp [hc'])
    have := hc c (by simp)
    simp only [List.length_cons]
    omega

theorem func_count (f : Rune → Bool) {s : Str} (hs : ValidUtf8 s) {caps : List Capture} (h : Verif.fromFunc f s = .ok (.ok caps)) :
    Tiles caps 0 s.length ∧ caps.length ≤ s.length + 1 := by
  obtain ⟨rs, hv, rfl⟩ := hs
  obtain ⟨caps', h1, h2, h3, h4⟩ := C20_func f rs hv
  rw [h1] at h
  simp only [GoM.ok.injEq, Except.ok.injEq] at h
  subst h
  refine ⟨h2, ?_⟩
  by_cases h0 : rs = []
  · rw [h3 h0]; simp
  · have := tiles_count _ _ _ h2 (by
      intro c hc
      obtain ⟨-, -, pre, g, post, -, hg, e1, e2, -⟩ := (h4 h0).1 c hc
      rw [e1, e2, encodeRunes_append]
      have : encodeRunes g ≠ [] := by
        cases g with
        | nil => exact absurd rfl hg
        | cons r g => rw [encodeRunes_cons]; simp [encodeRune_ne_nil]
      have := List.length_pos_iff.2 this
      simp only [List.length_append]
      omega)
    omega

theorem metaSpaceSplitFunc_def (r : Rune) (b : Bool) (i : Nat) (ns : NS) : m.metaSpaceSplitFunc r b i ns =
    ((if b = true ∧ (!(encodeRune r).isPrefixOf ns.get) = true then m.prepend ns (encodeRune r) else pure ns) >>= fun ns1 =>
      m.replace ns1 (m.fromFunc fun other => other == 32) (encodeRune r) >>= fun x => match x with
        | .error e => pure (ns1, .error e)
        | .ok ns2 => m.split ns2 (m.fromFunc fun other => other == r) .mergedWithNext >>= fun x => match x with
          | .error e => pure (ns2, .error e)
          | .ok nss => pure (ns2, .ok (splitsFromNormalizedStrings nss))) := by
  unfold metaSpaceSplitFunc
  by_cases h : b = true ∧ (!(encodeRune r).isPrefixOf ns.get) = true
  · simp only [if_pos h]; rfl
  · simp only [if_neg h]; rfl

theorem metaSpaceSplitFunc_plain (r : Rune) (b : Bool) (i : Nat) (ns : NS) : Verif.metaSpaceSplitFunc r b i ns =
    ((if b = true ∧ (!(encodeRune r).isPrefixOf ns.get) = true then ns.prepend (encodeRune r) else pure ns) >>= fun ns1 =>
      ns1.replace (Verif.fromFunc fun other => other == 32) (encodeRune r) >>= fun x => match x with
        | .error e => pure (ns1, .error e)
        | .ok ns2 => ns2.split (Verif.fromFunc fun other => other == r) .mergedWithNext >>= fun x => match x with
          | .error e => pure (ns2, .error e)
          | .ok nss => pure (ns2, .ok (splitsFromNormalizedStrings nss))) := by
  unfold Verif.metaSpaceSplitFunc
  by_cases h : b = true ∧ (!(encodeRune r).isPrefixOf ns.get) = true
  · simp only [if_pos h]; rfl
  · simp only [if_neg h]; rfl

theorem metaSpaceSplitFunc_machine {root : Str} {n : Nat} (hm : m.WritesRunes) (hr : m.Sized root.length)
    (hn : m.Sized (17 * (n + 21))) (r : Rune) (b : Bool) (i : Nat) {ns : NS} (h : Small root n ns) (hwh : Whole ns) :
    m.metaSpaceSplitFunc r b i ns = Verif.metaSpaceSplitFunc r b i ns
      ∧ ∀ ns' items, Verif.metaSpaceSplitFunc r b i ns = .ok (ns', .ok items) → ∀ it ∈ items, Small root (17 * (n + 21)) it.ns := by
  have h4 := encodeRune_le_four r
  obtain ⟨p1, p2⟩ := prepend_machine (s := encodeRune r) hm h (hn.mono (by omega)) (hn.mono (by omega))
  have e1 : (if b = true ∧ (!(encodeRune r).isPrefixOf ns.get) = true then m.prepend ns (encodeRune r) else pure ns)
        = (if b = true ∧ (!(encodeRune r).isPrefixOf ns.get) = true then ns.prepend (encodeRune r) else pure ns)
      ∧ ∀ ns1, (if b = true ∧ (!(encodeRune r).isPrefixOf ns.get) = true then ns.prepend (encodeRune r) else pure ns) = .ok ns1 →
          Small root (n + 20) ns1 ∧ Whole ns1 := by
    by_cases hb : b = true ∧ (!(encodeRune r).isPrefixOf ns.get) = true
    · simp only [if_pos hb]
      refine ⟨p1, fun ns1 h => ⟨(p2 ns1 h).mono (by omega), ?_⟩⟩
      obtain ⟨cs, hcs⟩ := hwh
      exact prepend_whole hcs h
    · simp only [if_neg hb]
      exact ⟨trivial, fun ns1 hx => by simp at hx; subst hx; exact ⟨h.mono (by omega), hwh⟩⟩
  rw [metaSpaceSplitFunc_def, metaSpaceSplitFunc_plain, e1.1]
  cases hx : (if b = true ∧ (!(encodeRune r).isPrefixOf ns.get) = true then ns.prepend (encodeRune r) else pure ns) with
  | panic => exact ⟨rfl, fun _ _ h => by simp at h⟩
  | ok ns1 =>
    obtain ⟨s1, cs, hcs⟩ := e1.2 ns1 hx
    have hsz := s1.size
    have hcap : ∀ caps, Verif.fromFunc (fun other => other == 32) ns1.normalized = .ok (.ok caps) →
        4 * (caps.length * (encodeRune r).length) ≤ 16 * (n + 21) := by
      intro caps hc
      have := (func_count _ hcs.validUtf8 hc).2
      have := Nat.mul_le_mul (show caps.length ≤ n + 21 by omega) h4
      omega
    have hrep : m.replace ns1 (m.fromFunc fun other => other == 32) (encodeRune r)
        = ns1.replace (Verif.fromFunc fun other => other == 32) (encodeRune r) := by
      have : m.replace ns1 (m.fromFunc fun other => other == 32) (encodeRune r)
          = m.replace ns1 (Verif.fromFunc fun other => other == 32) (encodeRune r) := by
        unfold replace
        rw [fromFunc_eq (s1.sized (hn.mono (by omega))).1]
      rw [this]
      refine replace_eq hm s1.wf.len ⟨hn.mono (by omega), ?_⟩
      intro caps hc
      have := hcap caps hc
      exact ⟨(func_count _ hcs.validUtf8 hc).1, hn.mono (by omega)⟩
    simp only [GoM.bind_ok]
    rw [hrep]
    cases hy : ns1.replace (Verif.fromFunc fun other => other == 32) (encodeRune r) with
    | panic => exact ⟨rfl, fun _ _ h => by simp at h⟩
    | ok x =>
      cases x with
      | error e => exact ⟨rfl, fun _ _ h => by simp at h⟩
      | ok ns2 =>
        have s2 : Small root (17 * (n + 21)) ns2 := by
          have hc : Verif.fromFunc (fun other => other == 32) ns1.normalized = .ok (.ok _) := rfl
          refine (replace_small s1 hc hy).mono ?_
          have := hcap _ hc
          omega
        simp only [GoM.bind_ok]
        rw [split_machine s2 hr hn (func_machine _ (s2.sized hn).1).1 (func_machine _ (s2.sized hn).1).2]
        refine ⟨rfl, ?_⟩
        intro ns' items h
        rw [GoM.bind_eq_ok] at h
        obtain ⟨x, h1, h2⟩ := h
        cases x with
        | error e => simp at h2
        | ok nss =>
          simp only [GoM.pure_eq, GoM.ok.injEq, Prod.mk.injEq, Except.ok.injEq] at h2
          obtain ⟨-, rfl⟩ := h2
          intro it hit
          obtain ⟨p, hp, rfl⟩ := List.mem_map.1 hit
          exact split_small s2 h1 p hp

end Machine

open Machine

/-- On splits of a text, with at most `n` bytes each: the same result, and splits of at most `size n` bytes. -/
def SameOn (m : Machine) (P : NS → Prop) (size : Nat → Nat) (pre' pre : PreTokenizer) : Prop :=
  ∀ (root : Str) (n : Nat) (p : PTS), m.Sized root.length → m.Sized (size n) → (∀ sp ∈ p.splits, Small root n sp.ns ∧ P sp.ns) →
    pre' p = pre p ∧ ∀ p', pre p = .ok (p', none) → ∀ sp ∈ p'.splits, Small root (size n) sp.ns

/-- **C90, pre-tokenizers.** On the splits of any text, after any calls that keep them consistent, every pre-tokenizer gives
the same with machine integers, if the texts are well below the largest `int` (texts of whole runes for `MetaSpace`). -/
theorem C90_preTokenizers (m : Machine) (hm : m.WritesRunes) :
    SameOn m (fun _ => True) id m.whiteSpaceSplit whiteSpaceSplit
    ∧ (∀ d, SameOn m (fun _ => True) id (m.runeDelimiter d) (runeDelimiter d))
    ∧ (∀ u, SameOn m (fun _ => True) id (m.bertPreTokenize u) (bertPreTokenize u))
    ∧ (∀ findAll2, SaneEngine findAll2 → SameOn m (fun _ => True) id (m.whiteSpacePreTokenize findAll2) (whiteSpacePreTokenize findAll2))
    ∧ (∀ findAll2 b, SaneEngine findAll2 →
        SameOn m (fun _ => True) (fun n => 4 * (n + 8)) (m.byteLevel findAll2 b) (byteLevel findAll2 b))
    ∧ ∀ r b, SameOn m Whole (fun n => 17 * (n + 21)) (m.metaSpace r b) (metaSpace r b) := by
  refine ⟨?_, ?_, ?_, ?_, ?_, ?_⟩
  · intro root n p hr hn h
    exact splitFunc_machine hr hn _ _ fun sp hsp => (h sp hsp).1
  · intro d root n p hr hn h
    exact splitFunc_machine hr hn _ _ fun sp hsp => (h sp hsp).1
  · intro u root n p hr hn h
    obtain ⟨h1, h2⟩ := splitFunc_machine (m := m) hr hn isWhiteSpace .removed fun sp hsp => (h sp hsp).1
    unfold Machine.bertPreTokenize bertPreTokenize
    rw [h1]
    cases hx : p.split (splitByPattern (fromFunc isWhiteSpace) .removed) with
    | panic => exact ⟨rfl, fun _ h => by simp at h⟩
    | ok x =>
      obtain ⟨p1, e⟩ := x
      cases e with
      | some e => exact ⟨rfl, fun _ h => by simp at h⟩
      | none => exact splitFunc_machine (m := m) hr hn u.isPunct .isolated (h2 p1 hx)
  · intro findAll2 he root n p hr hn h
    have key := fun (s : Str) (hs : m.Sized s.length) => invert_fit (m := m) (regexp2_fit he hs).1 (regexp2_fit he hs).2
    exact ⟨split_congr (fun i _ hns => splitByPattern_machine hr hn (fun s hs => (key s hs).1)
        (fun s cs hs => (key s hs).2 cs) i hns) fun sp hsp => (h sp hsp).1,
      fun _ hp => Machine.split_keeps (fun _ h => h) (fun _ _ _ _ => splitByPattern_small) (fun sp hsp => (h sp hsp).1) hp⟩
  · intro findAll2 b he root n p hr hn h
    have hn : m.Sized (4 * (n + 8)) := hn
    have hn8 : m.Sized (n + 8) := hn.mono (by omega)
    have h' : ∀ sp ∈ p.splits, Small root n sp.ns := fun sp hsp => (h sp hsp).1
    unfold Machine.byteLevel byteLevel
    rw [split_congr (fun i _ hns => (byteLevelSplitFunc_machine hm hr hn8 he b i hns).1) h']
    cases hx : p.split (byteLevelSplitFunc findAll2 b) with
    | panic => exact ⟨rfl, fun _ h => by simp at h⟩
    | ok x =>
      obtain ⟨p1, e⟩ := x
      cases e with
      | some e => exact ⟨rfl, fun _ h => by simp at h⟩
      | none =>
        have k := Machine.split_keeps (Q := Small root (n + 8)) (fun _ h => h.mono (by omega))
          (fun i ns ns' items hns => (byteLevelSplitFunc_machine (m := m) hm hr hn8 he b i hns).2 ns' items) h' hx
        exact ⟨normalize_congr (fun ns hns => (byteLevelNormalize_machine hm hns hn8).1) k, fun p' hp' =>
          (Machine.normalize_keeps (Q := Small root (4 * (n + 8))) (fun _ h => h.mono (by omega))
            (fun ns ns' e hns => (byteLevelNormalize_machine (m := m) hm hns hn8).2 ns' e) k hp').1⟩
  · intro r b root n p hr hn h
    exact ⟨split_congr (P := fun ns => Small root n ns ∧ Whole ns)
        (fun i _ hns => (metaSpaceSplitFunc_machine hm hr hn r b i hns.1 hns.2).1) h,
      fun _ hp => Machine.split_keeps (P := fun ns => Small root n ns ∧ Whole ns) (Q := Small root (17 * (n + 21))) (fun _ h => h.1.mono (by omega))
        (fun i ns ns' items hns => (metaSpaceSplitFunc_machine (m := m) hm hr hn r b i hns.1 hns.2).2 ns' items) h hp⟩

namespace Machine
variable {m : Machine}

/-! ## Tokens -/

theorem bpeNS_machine {root : Str} {n : Nat} (b : BPE) (rnd : NS → Nat → Bool) {ns : NS} (h : Small root n ns) (hn : m.Sized n) :
    m.bpeNS b rnd ns = b.tokenizeNS rnd ns := by
  unfold bpeNS BPE.tokenizeNS
  rw [bpeTokenize_eq (s := ns.get) (h.sized hn).1 (Nat.le_refl _)]
  rfl

theorem pieceNS_machine {root : Str} {n : Nat} (wp : WordPiece) {ns : NS} (h : Small root n ns)
    (hn : m.Sized (wp.continuingSubwordPrefix.length + n)) : m.pieceNS wp ns = .ok (wp.tokenize ns.get) := by
  unfold pieceNS
  have := h.size
  rw [pieceTokenize_eq (hn.mono (by show _ + ns.normalized.length ≤ _; omega))]
  rfl

theorem tokenTiles_within {v : Vocab} (ts : List Token) : ∀ a b : Int, BPE.TokenTiles v a ts b →
    a ≤ b ∧ ∀ t ∈ ts, a ≤ t.offsets.start ∧ t.offsets.start ≤ t.offsets.stop ∧ t.offsets.stop ≤ b := by
  induction ts with
  | nil => intro a b h; simp only [BPE.TokenTiles] at h; subst h; simp
  | cons t ts ih =>
    intro a b h
    obtain ⟨h1, h2, -, h3⟩ := h
    obtain ⟨k1, k2⟩ := ih _ _ h3
    refine ⟨by omega, ?_⟩
    intro x hx
    rcases List.mem_cons.1 hx with rfl | hx
    · omega
    · have := k2 x hx; omega

theorem bpe_within (b : BPE) (rnd : NS → Nat → Bool) {ns : NS} {ts : List Token} (h : b.tokenizeNS rnd ns = .ok (.ok ts)) :
    ∀ t ∈ ts, 0 ≤ t.offsets.start ∧ t.offsets.start ≤ t.offsets.stop ∧ t.offsets.stop ≤ 4 * (ns.normalized.length : Int) := by
  by_cases hne : ns.get = []
  · have h0 : b.tokenize (rnd ns) ns.get = .ok (.ok (some [])) := by rw [hne]; rfl
    simp only [BPE.tokenizeNS, h0, GoM.bind_ok, GoM.pure_eq, GoM.ok.injEq, Except.ok.injEq] at h
    subst h
    simp
  · rcases BPE.tokenize_eq b (rnd ns) ns.get hne with ⟨-, h2⟩ | ⟨u, ss, w', -, rfl, h3, h4, -, h6⟩
    · simp [BPE.tokenizeNS, h2] at h
    · simp only [BPE.tokenizeNS, h6, GoM.bind_ok] at h
      cases hw : BPE.wordToTokens b.vocab w' 0 with
      | error e => simp [hw, Except.map] at h
      | ok ts' =>
        simp only [hw, Except.map, GoM.pure_eq, GoM.ok.injEq, Except.ok.injEq] at h
        subst h
        obtain ⟨-, c2, c3⟩ := C39_table_merges b.merges b.hasDropout (rnd ns) _ h3 h4
        have ht := BPE.wordToTokens_spec hw c3
        obtain ⟨hsum, -⟩ := pending_sum (b := b) (u := u) (b.lookups ns.get) none (BPE.lookups_positive b ns.get)
        obtain ⟨l1, -⟩ := lookups_sum b ns.get
        have hfour := encodeRunes_runesOf_le ns.get
        simp only [Option.toList_none, List.map_nil, List.sum_nil] at hsum
        have hget : ns.get.length = ns.normalized.length := rfl
        intro t htm
        have := (tokenTiles_within _ _ _ ht).2 t htm
        omega

theorem piece_within (wp : WordPiece) {s : Str} {ts : List Token} (h : wp.tokenize s = .ok ts) :
    ∀ t ∈ ts, 0 ≤ t.offsets.start ∧ t.offsets.start ≤ t.offsets.stop ∧ t.offsets.stop ≤ s.length := by
  have key : ∀ (ts : List Token) (start : Nat), WordPiece.Tiles wp s start ts →
      ∀ t ∈ ts, 0 ≤ t.offsets.start ∧ t.offsets.start ≤ t.offsets.stop ∧ t.offsets.stop ≤ s.length := by
    intro ts
    induction ts with
    | nil => intro _ _ t ht; simp at ht
    | cons x ts ih =>
      intro start h t ht
      obtain ⟨stop, e, h1, h2, -, -, h3⟩ := h
      rcases List.mem_cons.1 ht with rfl | ht
      · rw [e]; simp only; omega
      · exact ih stop h3 t ht
  rcases (C36_tiles wp s).1 ts h with ⟨id, -, rfl⟩ | ⟨-, h⟩
  · intro t ht
    rw [List.mem_singleton] at ht
    subst ht
    simp
  · exact key ts 0 h

end Machine

/-- **C90, `BertNormalizer`.** On every consistent string that is part of a text, if twelve times its bytes are well below the
largest `int` and lower-casing gives no negative rune: the same string, or the same panic. -/
theorem C90_bertNormalize {m : Machine} (hm : m.WritesRunes) {root : Str} {ns : NS} (hwf : WF ns) (hp : PartOf root ns)
    (hn : m.Sized (12 * ns.normalized.length)) {u : Uni} (hu : ∀ r, 0 ≤ r → 0 ≤ u.toLower r) (c : BertCfg) :
    m.bertNormalize u c ns = bertNormalize u c ns :=
  (bertNormalize_machine hm ⟨hwf, hp, Nat.le_refl _⟩ hn hu c).1

/-- **C90, tokens and encodings.** On the splits of any text, with tokens that fit or none: running a BPE or WordPiece model on
the splits, and then `IntoEncoding`, give the same. -/
theorem C90_encode {m : Machine} {root : Str} {n : Nat} {p : PTS} (hr : m.Sized root.length)
    (h : ∀ sp ∈ p.splits, Small root n sp.ns) (ht : ∀ sp ∈ p.splits, m.TokensFit sp) (hl : (p.splits.length : Int) < m.half)
    (w ty : Int) :
    (∀ (b : BPE) rnd, m.Sized n → p.tokenize (m.bpeNS b rnd) = p.tokenize (b.tokenizeNS rnd)
      ∧ ∀ p' e, p.tokenize (b.tokenizeNS rnd) = .ok (p', e) → m.intoEncoding p' w ty = p'.intoEncoding w ty)
    ∧ ∀ wp : WordPiece, m.Sized (wp.continuingSubwordPrefix.length + n) →
      p.tokenize (m.pieceNS wp) = p.tokenize (fun ns => .ok (wp.tokenize ns.get))
      ∧ ∀ p' e, p.tokenize (fun ns => .ok (wp.tokenize ns.get)) = .ok (p', e) → m.intoEncoding p' w ty = p'.intoEncoding w ty := by
  constructor
  · intro b rnd hn
    refine ⟨tokenize_congr (fun ns hns => bpeNS_machine b rnd hns hn) h, ?_⟩
    intro p' e hp
    obtain ⟨k1, k2⟩ := tokenize_keeps (T := m.TokensFit) ht (by
      intro ns ts hns hts ts' e' t htm
      simp only [Option.some.injEq] at e'
      subst e'
      have := bpe_within b rnd hts t htm
      have := hns.size
      unfold Sized at hn
      exact ⟨⟨by omega, by omega⟩, ⟨by omega, by omega⟩⟩) h hp
    exact intoEncoding_eq hr (by rw [k2]; exact hl) fun sp hsp =>
      ⟨(k1 sp hsp).1.wf, (k1 sp hsp).1.part, ((k1 sp hsp).1.sized hn).1, (k1 sp hsp).2⟩
  · intro wp hn
    have hn' : m.Sized n := hn.mono (by omega)
    refine ⟨tokenize_congr (fun ns hns => pieceNS_machine wp hns hn) h, ?_⟩
    intro p' e hp
    obtain ⟨k1, k2⟩ := tokenize_keeps (T := m.TokensFit) ht (by
      intro ns ts hns hts ts' e' t htm
      simp only [Option.some.injEq] at e'
      subst e'
      simp only [GoM.ok.injEq] at hts
      have := piece_within wp hts t htm
      have := hns.size
      have hget : ns.get.length = ns.normalized.length := rfl
      unfold Sized at hn'
      exact ⟨⟨by omega, by omega⟩, ⟨by omega, by omega⟩⟩) h hp
    exact intoEncoding_eq hr (by rw [k2]; exact hl) fun sp hsp =>
      ⟨(k1 sp hsp).1.wf, (k1 sp hsp).1.part, ((k1 sp hsp).1.sized hn').1, (k1 sp hsp).2⟩

namespace Machine
variable {m : Machine}

/-! ## Whole tokenizers -/

theorem splitLoop_fresh {f : SplitFunc} (hf : ∀ i ns ns' items, f i ns = .ok (ns', .ok items) → ∀ it ∈ items, it.tokens = none)
    (ps : List Piece) : ∀ i old new, (∀ sp ∈ ps, sp.tokens = none) → PTS.splitLoop f i ps = .ok (old, .ok new) →
      ∀ sp ∈ new, sp.tokens = none := by
  induction ps with
  | nil => intro i old new _ h; simp [PTS.splitLoop] at h; obtain ⟨-, rfl⟩ := h; simp
  | cons p ps ih =>
    intro i old new hp h
    unfold PTS.splitLoop at h
    simp only [hp p (by simp), GoM.bind_eq_ok] at h
    obtain ⟨⟨ns', r⟩, h1, h2⟩ := h
    cases r with
    | error e => simp at h2
    | ok items =>
      simp only [GoM.bind_eq_ok] at h2
      obtain ⟨⟨old', new'⟩, h3, h4⟩ := h2
      cases new' with
      | error e => simp at h4
      | ok new' =>
        simp only [GoM.pure_eq, GoM.ok.injEq, Prod.mk.injEq, Except.ok.injEq] at h4
        obtain ⟨-, rfl⟩ := h4
        intro sp hsp
        rcases List.mem_append.1 hsp with hsp | hsp
        · exact hf _ _ _ _ h1 sp (List.mem_filter.1 hsp).1
        · exact ih _ _ _ (fun sp hsp => hp sp (by simp [hsp])) h3 sp hsp

theorem split_fresh {f : SplitFunc} (hf : ∀ i ns ns' items, f i ns = .ok (ns', .ok items) → ∀ it ∈ items, it.tokens = none)
    {p p' : PTS} (h : ∀ sp ∈ p.splits, sp.tokens = none) (hs : p.split f = .ok (p', none)) : ∀ sp ∈ p'.splits, sp.tokens = none := by
  unfold PTS.split at hs
  rw [GoM.bind_eq_ok] at hs
  obtain ⟨⟨old, new⟩, h1, h2⟩ := hs
  cases new with
  | error e => simp at h2
  | ok new =>
    simp only [GoM.pure_eq, GoM.ok.injEq, Prod.mk.injEq, and_true] at h2
    subst h2
    exact splitLoop_fresh hf _ _ _ _ h h1

theorem normalize_fresh {f : NormalizeFunc} {p p' : PTS} {e : Option Err} (h : ∀ sp ∈ p.splits, sp.tokens = none)
    (hs : p.normalize f = .ok (p', e)) : ∀ sp ∈ p'.splits, sp.tokens = none := by
  have key : ∀ (ps : List Piece) ps' e, (∀ sp ∈ ps, sp.tokens = none) → PTS.normalizeLoop f ps = .ok (ps', e) →
      ∀ sp ∈ ps', sp.tokens = none := by
    intro ps
    induction ps with
    | nil => intro ps' e _ h; simp [PTS.normalizeLoop] at h; obtain ⟨rfl, -⟩ := h; simp
    | cons p ps ih =>
      intro ps' e h h1
      unfold PTS.normalizeLoop at h1
      have hrest : ∀ sp ∈ ps, sp.tokens = none := fun sp hsp => h sp (by simp [hsp])
      have hp := h p (by simp)
      simp only [hp, GoM.bind_eq_ok] at h1
      obtain ⟨⟨ns', e1⟩, h2, h3⟩ := h1
      cases e1 with
      | some e1 =>
        simp only [GoM.pure_eq, GoM.ok.injEq, Prod.mk.injEq] at h3
        obtain ⟨rfl, rfl⟩ := h3
        intro sp hsp
        rcases List.mem_cons.1 hsp with rfl | hsp
        · first | exact hp | rfl
        · exact hrest sp hsp
      | none =>
        simp only [GoM.bind_eq_ok] at h3
        obtain ⟨⟨ps1, e2⟩, h4, h5⟩ := h3
        simp only [GoM.pure_eq, GoM.ok.injEq, Prod.mk.injEq] at h5
        obtain ⟨rfl, rfl⟩ := h5
        intro sp hsp
        rcases List.mem_cons.1 hsp with rfl | hsp
        · first | exact hp | rfl
        · exact ih _ _ hrest h4 sp hsp
  unfold PTS.normalize at hs
  rw [GoM.bind_eq_ok] at hs
  obtain ⟨⟨ps, e'⟩, h1, h2⟩ := hs
  simp only [GoM.pure_eq, GoM.ok.injEq, Prod.mk.injEq] at h2
  obtain ⟨rfl, rfl⟩ := h2
  exact key _ _ _ h h1

theorem splitsFrom_fresh (nss : List NS) : ∀ it ∈ splitsFromNormalizedStrings nss, it.tokens = none := by
  intro it hit
  obtain ⟨p, -, rfl⟩ := List.mem_map.1 hit
  rfl

theorem splitByPattern_fresh {pattern : SplitPattern} {b : Behavior} (i : Nat) (ns ns' : NS) (items : List Piece)
    (hs : Verif.splitByPattern pattern b i ns = .ok (ns', .ok items)) : ∀ it ∈ items, it.tokens = none := by
  unfold Verif.splitByPattern at hs
  rw [GoM.bind_eq_ok] at hs
  obtain ⟨r, -, h2⟩ := hs
  cases r with
  | error e => simp at h2
  | ok nss =>
    simp only [GoM.pure_eq, GoM.ok.injEq, Prod.mk.injEq, Except.ok.injEq] at h2
    obtain ⟨-, rfl⟩ := h2
    exact splitsFrom_fresh nss

theorem sliceAll_length {ns : NS} (sms : List SplitMatch) : ∀ pieces, ns.sliceAll sms = .ok (.ok pieces) →
    pieces.length ≤ sms.length := by
  induction sms with
  | nil => intro pieces h; simp [NS.sliceAll] at h; subst h; simp
  | cons sm sms ih =>
    intro pieces hp
    unfold NS.sliceAll at hp
    by_cases hrm : sm.shouldRemove = true
    · rw [if_pos hrm] at hp; have := ih _ hp; simp only [List.length_cons]; omega
    · rw [if_neg hrm, GoM.bind_eq_ok] at hp
      obtain ⟨o, h1, h2⟩ := hp
      cases o with
      | none => simp at h2
      | some p =>
        simp only [GoM.bind_eq_ok] at h2
        obtain ⟨r, h3, h4⟩ := h2
        cases r with
        | error e => simp at h4
        | ok rest =>
          simp only [GoM.pure_eq, GoM.ok.injEq, Except.ok.injEq] at h4
          subst h4
          have := ih _ h3
          simp only [List.length_cons]; omega

/-- One split is cut into fewer splits than there are integers. -/
theorem byteLevel_count {root : Str} {n : Nat} (hm : m.WritesRunes) (hn : m.Sized (n + 8))
    {findAll2 : List Rune → Except Err (List (Nat × Nat))} (he : SaneEngine findAll2) (b : Bool) {o : Str} {ns : NS}
    (h : Small root n ns) {p' : PTS} (hp : Verif.byteLevel findAll2 b ⟨o, [⟨ns, none⟩]⟩ = .ok (p', none)) :
    (p'.splits.length : Int) < m.half ∧ ∀ sp ∈ p'.splits, sp.tokens = none := by
  unfold Verif.byteLevel at hp
  rw [GoM.bind_eq_ok] at hp
  obtain ⟨⟨p1, e⟩, h1, h2⟩ := hp
  cases e with
  | some e => simp at h2
  | none =>
    simp only at h2
    obtain ⟨-, p2⟩ := prepend_machine (m := m) (s := [32]) hm h (hn.mono (by omega)) (hn.mono (by simp))
    have hfresh : ∀ i ns ns' items, Verif.byteLevelSplitFunc findAll2 b i ns = .ok (ns', .ok items) →
        ∀ it ∈ items, it.tokens = none := by
      intro i ns ns' items hx
      rw [byteLevelSplitFunc_plain, GoM.bind_eq_ok] at hx
      obtain ⟨ns1, -, hx⟩ := hx
      rw [GoM.bind_eq_ok] at hx
      obtain ⟨r, -, hx⟩ := hx
      cases r with
      | error e => simp at hx
      | ok nss =>
        simp only [GoM.pure_eq, GoM.ok.injEq, Prod.mk.injEq, Except.ok.injEq] at hx
        obtain ⟨-, rfl⟩ := hx
        exact splitsFrom_fresh nss
    have hcount : (p1.splits.length : Int) < m.half := by
      unfold PTS.split at h1
      rw [GoM.bind_eq_ok] at h1
      obtain ⟨⟨old, new⟩, g1, g2⟩ := h1
      cases new with
      | error e => simp at g2
      | ok new =>
        simp only [GoM.pure_eq, GoM.ok.injEq, Prod.mk.injEq, and_true] at g2
        subst g2
        simp only [PTS.splitLoop, GoM.bind_eq_ok] at g1
        obtain ⟨⟨ns', r⟩, g1, g2⟩ := g1
        cases r with
        | error e => simp at g2
        | ok items =>
          simp only [GoM.bind_ok, GoM.pure_eq, GoM.ok.injEq, Prod.mk.injEq, Except.ok.injEq, List.append_nil] at g2
          obtain ⟨-, rfl⟩ := g2
          rw [byteLevelSplitFunc_plain, GoM.bind_eq_ok] at g1
          obtain ⟨ns1, k1, k2⟩ := g1
          have hs1 : m.Sized ns1.normalized.length := by
            by_cases hb : b = true ∧ (!startsWithWhitespace ns.get) = true
            · rw [if_pos hb] at k1
              exact ((p2 ns1 k1).sized (n := n + 8) hn).1
            · rw [if_neg hb] at k1
              simp only [GoM.pure_eq, GoM.ok.injEq] at k1
              subst k1
              exact (h.sized (hn.mono (by omega))).1
          rw [GoM.bind_eq_ok] at k2
          obtain ⟨r, k2, k3⟩ := k2
          cases r with
          | error e => simp at k3
          | ok nss =>
            simp only [GoM.pure_eq, GoM.ok.injEq, Prod.mk.injEq, Except.ok.injEq] at k3
            obtain ⟨-, rfl⟩ := k3
            unfold NS.split at k2
            rw [GoM.bind_eq_ok] at k2
            obtain ⟨x, k2, k4⟩ := k2
            cases x with
            | error e => simp at k4
            | ok caps =>
              have l1 := ((regexp2_fit (m := m) he hs1).2 caps k2).1
              have l2 := sliceAll_length _ _ k4
              have l3 := List.length_filter_le (fun it : Piece => !it.ns.isEmpty) (splitsFromNormalizedStrings nss)
              have l4 : (splitsFromNormalizedStrings nss).length = nss.length := by simp [splitsFromNormalizedStrings]
              simp only [Verif.splitMatches, List.length_map] at l2
              simp only
              omega
    have hf1 := split_fresh hfresh (by simp) h1
    refine ⟨?_, normalize_fresh hf1 h2⟩
    rw [(Machine.normalize_keeps (P := fun _ => True) (Q := fun _ => True) (fun _ h => h) (fun _ _ _ _ _ => trivial)
      (fun _ _ => trivial) h2).2]
    exact hcount

theorem ptsFromString_eq {s : Str} (hs : m.Sized s.length) : m.ptsFromString s = PTS.fromString s := by
  unfold ptsFromString PTS.fromString
  rw [fromString_eq hs]

theorem fromString_small {s : Str} (hs : ValidUtf8 s) : Small s s.length (NS.fromString s) :=
  ⟨fromString_wf hs, partOf_fromString s, Nat.le_refl _⟩

end Machine

open Ref Json in
/-- **C90, GPT-2.** `C83_gpt2` with machine integers everywhere: in the vocabulary and merges files, the pre-tokenizer, the
model and the encoding, for all texts well below the largest `int`. -/
theorem C90_gpt2 (m : Machine) (hm : m.WritesRunes) (es : List (Str × Int)) (rules : List (Str × Str))
    (order : GoMap Str Int → List (Str × Int)) (ho : IterationOrder order)
    (hv : ∀ e ∈ es, ValidUtf8 e.1 ∧ e.1 ≠ []) (hi : ∀ e ∈ es, -(m.half : Int) ≤ e.2 ∧ e.2 < m.half)
    (hk : (es.map (·.1)).Nodup) (hid : (es.map (·.2)).Nodup) (hw : ∀ r ∈ rules, Writable r)
    (hr : ∀ r ∈ rules, ∀ t ∈ [r.1, r.2, r.1 ++ r.2], t ∈ es.map (·.1))
    (hb : ∀ b : UInt8, encodeRune (byteToRune b) ∈ es.map (·.1)) (hf : m.Sized (writeRules rules).length) :
    ∃ v merges, Vocab.fromJSONFile m (Json.writeVocab es) order = .ok v
      ∧ m.mergeMapFromFile (writeRules rules) v 0 = .ok (.ok merges)
      ∧ ∀ (u : RxUni) (_ : SaneTables u) (capacity : Int) (unk : Str) (_ : unk = [] ∨ unk ∈ es.map (·.1)) (fuse : Bool)
          (rnd : NS → Nat → Bool) (addSpace : Bool) (rs : List Rune) (_ : ∀ r ∈ rs, ValidRune r) (w ty : Int)
          (_ : m.Sized (4 * ((encodeRunes rs).length + 8))),
        ∃ p1 p2 enc L, m.byteLevel (splittingRegexp u).findAll addSpace (m.ptsFromString (encodeRunes rs)) = .ok (p1, none)
          ∧ p1.tokenize (m.bpeNS (plainBPE v merges capacity unk [] fuse) rnd) = .ok (p2, none)
          ∧ m.intoEncoding p2 w ty = .ok (.ok enc)
          ∧ GptPieces u [] (spacedRunes addSpace rs) L
          ∧ enc.tokens = L.flatMap (fun x => Ref.bpe rules (byteLetters x.2))
          ∧ All2 (fun t i => (t, i) ∈ es) enc.tokens enc.ids
          ∧ enc.words = wordNumbers w 0 (L.map fun x => (Ref.bpe rules (byteLetters x.2)).length)
          ∧ All2 (fun t o => ∃ y, y = (runesOf t).map runeToByte ∧ (SelectsTouched (encodeRunes rs) y o
              ∨ (addedBytes addSpace rs = 1 ∧ ∃ y', y = 32 :: y' ∧ y' ≠ [] ∧ SelectsTouched (encodeRunes rs) y' o)
              ∨ (addedBytes addSpace rs = 1 ∧ y = [32]
                  ∧ goSlice (encodeRunes rs) o.start o.stop = .ok (encodeRunes (rs.take 1))))) enc.tokens enc.offsets := by
  obtain ⟨v, merges, h1, h2, h3⟩ := C83_gpt2 m es rules order ho hv hi hk hid hw hr hb
  refine ⟨v, merges, h1, by rw [C79_merges hf]; exact h2, ?_⟩
  intro u hu capacity unk hunk fuse rnd addSpace rs hrs w ty hs
  obtain ⟨p1, p2, enc, L, g1, g2, g3, g4⟩ := h3 u hu capacity unk hunk fuse rnd addSpace rs hrs w ty
  have hsz : m.Sized (encodeRunes rs).length := hs.mono (by omega)
  have hsm := fromString_small (show ValidUtf8 (encodeRunes rs) from ⟨rs, hrs, rfl⟩)
  obtain ⟨-, -, -, -, hpre, -⟩ := C90_preTokenizers m hm
  obtain ⟨e1, e2⟩ := hpre (splittingRegexp u).findAll addSpace (saneEngine_re _) (encodeRunes rs) (encodeRunes rs).length
    (PTS.fromString (encodeRunes rs)) hsz hs (by
      intro sp hsp
      simp only [PTS.fromString, PTS.fromNormalizedString, List.mem_singleton] at hsp
      subst hsp
      exact ⟨hsm, trivial⟩)
  obtain ⟨c1, c2⟩ := byteLevel_count hm (hs.mono (by omega)) (saneEngine_re (splittingRegexp u)) addSpace hsm
    (show byteLevel (splittingRegexp u).findAll addSpace ⟨encodeRunes rs, [⟨NS.fromString (encodeRunes rs), none⟩]⟩ = .ok (p1, none)
      from g1)
  have he := (C90_encode hsz (e2 p1 g1) (fun sp hsp ts ht => by rw [c2 sp hsp] at ht; simp at ht) c1 w ty).1
    (plainBPE v merges capacity unk [] fuse) rnd hs
  exact ⟨p1, p2, enc, L, by rw [ptsFromString_eq hsz, e1]; exact g1, by rw [he.1]; exact g2,
    by rw [he.2 p2 none g2]; exact g3, g4⟩

open Ref Json in
/-- **C90, BERT.** `C84_bert` with machine integers everywhere, for all texts well below the largest `int`. -/
theorem C90_bert (m : Machine) (hm : m.WritesRunes) (es : List (Str × Int)) (order : GoMap Str Int → List (Str × Int))
    (hv : ∀ e ∈ es, ValidUtf8 e.1) (hi : ∀ e ∈ es, -(m.half : Int) ≤ e.2 ∧ e.2 < m.half) (hk : (es.map (·.1)).Nodup) :
    ∃ v, Vocab.fromJSONFile m (writeVocab es) order = .ok v
      ∧ ∀ (unk mark : Str) (_ : unk ∈ es.map (·.1)) (max : Int) (u : Uni) (_ : u.toLower 0x20 = 0x20)
          (_ : ∀ r, 0 ≤ r → 0 ≤ u.toLower r) (c : BertCfg)
          (rs : List Rune) (_ : ∀ r ∈ rs, ValidRune r) (_ : c.textCleaning = true → GoodStart (bertDropped u) rs)
          (_ : c.accentsStripping = true → GoodStart u.isMn (bertText u (spacesOnly c) rs)) (w ty : Int)
          (_ : m.Sized (mark.length + 12 * (encodeRunes rs).length)),
        let words := cutWords isWhiteSpace u.isPunct [] (bertText u c rs)
        ∃ p0 p1 p2 enc, (m.ptsFromString (encodeRunes rs)).normalize (m.bertNormalize u c) = .ok (p0, none)
          ∧ m.bertPreTokenize u p0 = .ok (p1, none)
          ∧ p1.tokenize (m.pieceNS (WordPiece.mk v unk mark max)) = .ok (p2, none)
          ∧ m.intoEncoding p2 w ty = .ok (.ok enc)
          ∧ enc.tokens = words.flatMap (wordPieces (termOf es) WordPiece.tried unk mark max)
          ∧ ((∀ x ∈ words, ∀ r ∈ x.drop 1, runeLen r ≠ 3) →
              enc.tokens = words.flatMap (wordPieces (termOf es) (fun _ => true) unk mark max))
          ∧ All2 (fun t i => (t, i) ∈ es) enc.tokens enc.ids
          ∧ enc.words = wordNumbers w 0 (words.map fun x => (wordPieces (termOf es) WordPiece.tried unk mark max x).length)
          ∧ All2 (fun t o => ∃ h, goSlice (encodeRunes rs) o.start o.stop = .ok (encodeRunes h) ∧ bertVisible u c h ≠ []
              ∧ (t = unk ∨ t = encodeRunes (bertVisible u c h) ∨ t = mark ++ encodeRunes (bertVisible u c h))) enc.tokens enc.offsets
          ∧ enc.offsets.Pairwise (fun o o' => o.stop ≤ o'.start) := by
  obtain ⟨v, h1, h2⟩ := C84_bert m es order hv hi hk
  refine ⟨v, h1, ?_⟩
  intro unk mark hunk max u hu hlow c rs hrs g1 g2 w ty hs words
  obtain ⟨p0, p1, p2, enc, k0, k1, k2, k3, k4⟩ := h2 unk mark hunk max u hu c rs hrs g1 g2 w ty
  have hvs : ValidUtf8 (encodeRunes rs) := ⟨rs, hrs, rfl⟩
  have hsz : m.Sized (encodeRunes rs).length := hs.mono (by omega)
  have hs12 : m.Sized (12 * (encodeRunes rs).length) := hs.mono (by omega)
  have hsm := fromString_small hvs
  have hmem : ∀ sp ∈ (PTS.fromString (encodeRunes rs)).splits, Small (encodeRunes rs) (encodeRunes rs).length sp.ns := by
    intro sp hsp
    simp only [PTS.fromString, PTS.fromNormalizedString, List.mem_singleton] at hsp
    subst hsp
    exact hsm
  have e0 := normalize_congr (P := Small (encodeRunes rs) (encodeRunes rs).length) (fun ns hns => (bertNormalize_machine hm hns hs12 hlow c).1) hmem
  -- the normalized text
  have hr : Repr (NS.fromString (encodeRunes rs)) (selfChars 0 rs) := by
    have := fromString_repr hvs
    rwa [runesOf_encodeRunes rs hrs] at this
  have hfst : (selfChars 0 rs).map (·.1) = rs := selfChars_map_fst 0 rs
  obtain ⟨ns, n1, n2, -, -⟩ := C34_bert_partial hr u c (fun h => goodLead_iff (by rw [hfst]; exact g1 h))
    (fun h => goodLead_iff (by rw [spacesOnly_text, hfst]; exact g2 h))
  have hns := (bertNormalize_machine hm hsm hs12 hlow c).2 ns none n1
  have hp0 : p0 = ⟨encodeRunes rs, [⟨ns, none⟩]⟩ := by
    have := C59_normalize_ok (PTS.fromString (encodeRunes rs)) (bertNormalize u c) (fun _ => ns) (by
      intro sp hsp _
      simp [PTS.fromString, PTS.fromNormalizedString] at hsp
      rw [hsp]; exact n1)
    rw [k0] at this
    simpa [PTS.fromString, PTS.fromNormalizedString, withText, NS.getOriginal, NS.fromString] using this
  subst hp0
  -- the words
  obtain ⟨L, l1, -, -, l4, -⟩ := C66_bert u ns _ (encodeRunes rs) hns.wf n2
  have hp1 : p1 = ⟨encodeRunes rs, charPieces ns L⟩ := by
    rw [l1] at k1
    simpa using k1.symm
  subst hp1
  have hcount : (charPieces ns L).length ≤ 12 * (encodeRunes rs).length := by
    have hlen : ∀ M : List (List Rune × List Rune), (∀ x ∈ M, x.2 ≠ []) → M.length ≤ (M.flatMap (·.2)).length := by
      intro M
      induction M with
      | nil => simp
      | cons x M ih =>
        intro h
        have := ih fun y hy => h y (by simp [hy])
        have := List.length_pos_iff.2 (h x (by simp))
        simp only [List.length_cons, List.flatMap_cons, List.length_append]
        omega
    have a := hlen _ fun x hx => (l4.located x hx).1
    rw [l4.complete] at a
    have b := List.length_filter_le (fun r => !isWhiteSpace r) ((bertSpec u c (selfChars 0 rs)).map (·.1))
    have d := runesOf_length_le ns.normalized
    rw [n2.runes] at d
    have := hns.size
    have e : (charPieces ns L).length = (wordRunes L).length := by simp [charPieces, wordRunes]
    omega
  obtain ⟨-, -, hpre, -, -, -⟩ := C90_preTokenizers m hm
  obtain ⟨e1, e2⟩ := hpre u (encodeRunes rs) (12 * (encodeRunes rs).length) ⟨encodeRunes rs, [⟨ns, none⟩]⟩ hsz hs12 (by
    intro sp hsp
    simp only [List.mem_singleton] at hsp
    subst hsp
    exact ⟨hns, trivial⟩)
  have he := (C90_encode hsz (e2 _ k1) (fun sp hsp ts ht => by
      obtain ⟨x, -, rfl⟩ := List.mem_map.1 hsp
      simp at ht) (by simp only; unfold Sized at hs12; omega) w ty).2 (WordPiece.mk v unk mark max) hs
  exact ⟨_, _, p2, enc, by rw [ptsFromString_eq hsz, e0]; exact k0, by rw [e1]; exact k1, by rw [he.1]; exact k2,
    by rw [he.2 p2 none k2]; exact k3, k4⟩

/-! ## Concrete cases -/

example : go32.WritesRunes ∧ go64Old.WritesRunes ∧ go32.Sized (12 * 20000000) ∧ go64.Sized (17 * (2 ^ 50 + 21)) :=
  ⟨writesRunes_go.2.1, writesRunes_go.2.2, by unfold Sized; decide, by unfold Sized; decide⟩
example : (go32.byteLevel (fun _ => .ok [(0, 2), (2, 1)]) true (go32.ptsFromString b!"aé") >>= fun r =>
    pure (r.1.splits.map fun sp => sp.ns.get)) = .ok [b!"Ġa", b!"Ã©"] := by decide +kernel
example : (go32.metaSpace 0x2581 true (go32.ptsFromString b!"a b") >>= fun r =>
    pure (r.1.splits.map fun sp => sp.ns.get)) = .ok [b!"▁a", b!"▁b"] := by decide +kernel
/-- The bound matters: where the largest `int` is 3, the loop over five letters runs into a negative offset. -/
theorem C90_bound_needed : (Machine.mk 4 encodeRune).byteLevelNormalize (NS.fromString b!"abcde") = .panic
    ∧ (byteLevelNormalize (NS.fromString b!"abcde") >>= fun r => pure (r.1.get, r.2)) = .ok (b!"abcde", none) := by
  decide +kernel

end Verif
