import Verif.Lemmas.Runs
import Verif.Props.StrUtils

/-! Properties C20–C23: the split patterns. -/

set_option autoImplicit false

namespace Verif

/-! ## C20: function and rune patterns -/

theorem capsOf_adjacent : ∀ (i : Int) (t : List (Bool × List Rune)),
    Adjacent (fun p q => p.1 = true ∨ q.1 = true) t →
    Adjacent (fun (c d : Capture) => c.isMatch = true ∨ d.isMatch = true) (capsOf i t) := by
  intro i t
  induction t generalizing i with
  | nil => intro _; simp [capsOf, Adjacent]
  | cons p t ih =>
    intro hm
    obtain ⟨b, g⟩ := p
    cases t with
    | nil => simp [capsOf, Adjacent]
    | cons q t =>
      obtain ⟨b', g'⟩ := q
      exact ⟨hm.1, ih (i + (encodeRunes g).length) hm.2⟩

/-- **C20.** On every valid non-empty text, for every predicate, `FromFunc` never fails and
its captures tile the text; each capture lies on rune boundaries and spans the runes `g` of
the text standing at its offsets: a match is exactly one rune satisfying `f`, a non-match a
non-empty run of runes not satisfying it; two non-matches are never adjacent.  On the empty
text there is one empty non-matching capture. -/
theorem C20_func (f : Rune → Bool) (rs : List Rune) (hv : ∀ r ∈ rs, ValidRune r) :
    ∃ caps, fromFunc f (encodeRunes rs) = .ok (.ok caps)
      ∧ Tiles caps 0 (encodeRunes rs).length
      ∧ (rs = [] → caps = [⟨⟨0, 0⟩, false⟩])
      ∧ (rs ≠ [] → (∀ c ∈ caps,
            IsBoundary (encodeRunes rs) c.offsets.start ∧ IsBoundary (encodeRunes rs) c.offsets.stop
            ∧ ∃ pre g post : List Rune, rs = pre ++ g ++ post ∧ g ≠ []
                ∧ c.offsets.start = (encodeRunes pre).length ∧ c.offsets.stop = (encodeRunes (pre ++ g)).length
                ∧ (c.isMatch = true → ∃ r, g = [r] ∧ f r = true)
                ∧ (c.isMatch = false → ∀ r ∈ g, f r = false))
          ∧ Adjacent (fun c d => c.isMatch = true ∨ d.isMatch = true) caps) := by
  refine ⟨_, rfl, ?_⟩
  rw [funcFindMatches_eq f rs hv]
  by_cases h0 : rs = []
  · subst h0
    simp [emptyCaptures, Tiles]
  · rw [if_neg h0]
    have ht := capsOf_tiles 0 (segs f rs)
    rw [segs_flatten] at ht
    have ha := capsOf_all2 [] (segs f rs)
    simp only [List.nil_append, segs_flatten, encodeRunes_nil, List.length_nil] at ha
    refine ⟨by simpa using ht, fun h => absurd h h0, fun _ => ⟨?_, ?_⟩⟩
    · intro c hc
      obtain ⟨p, hp, hcs⟩ := All2.exists_right ha hc
      obtain ⟨-, b1, b2⟩ := hcs.text hv
      obtain ⟨h1, pre, post, h2, h3, h4⟩ := hcs
      refine ⟨b1, b2, pre, p.2, post, h2, segs_ne_nil f rs p hp, h3, h4, ?_, ?_⟩
      · intro h; exact (segs_kind f rs p hp).1 (h1 ▸ h)
      · intro h; exact ((segs_kind f rs p hp).2 (h1 ▸ h)).2
    · exact capsOf_adjacent 0 _ (segs_maximal f rs)

/-- **C20 for runes.** `FromRune(r)` is the function pattern of "is `r`". -/
theorem C20_rune (r : Rune) (rs : List Rune) (hv : ∀ x ∈ rs, ValidRune x) (hne : rs ≠ []) :
    ∃ caps, fromRune r (encodeRunes rs) = .ok (.ok caps)
      ∧ Tiles caps 0 (encodeRunes rs).length
      ∧ (∀ c ∈ caps, ∃ pre g post : List Rune, rs = pre ++ g ++ post ∧ g ≠ []
          ∧ c.offsets.start = (encodeRunes pre).length ∧ c.offsets.stop = (encodeRunes (pre ++ g)).length
          ∧ (c.isMatch = true → g = [r]) ∧ (c.isMatch = false → r ∉ g)) := by
  obtain ⟨caps, h1, h2, -, h3⟩ := C20_func (fun x => x == r) rs hv
  refine ⟨caps, h1, h2, ?_⟩
  intro c hc
  obtain ⟨-, -, pre, g, post, e1, e2, e3, e4, e5, e6⟩ := (h3 hne).1 c hc
  refine ⟨pre, g, post, e1, e2, e3, e4, ?_, ?_⟩
  · intro h
    obtain ⟨x, rfl, hx⟩ := e5 h
    rw [beq_iff_eq] at hx; rw [hx]
  · intro h hm
    have := e6 h r hm
    simp at this

example : fromRune 0x20 b!" é  b" = .ok (.ok
    [⟨⟨0, 1⟩, true⟩, ⟨⟨1, 3⟩, false⟩, ⟨⟨3, 4⟩, true⟩, ⟨⟨4, 5⟩, true⟩, ⟨⟨5, 6⟩, false⟩]) := by decide +kernel

/-! ## C21: regular expression patterns -/

/-- Matches in order: each starts at or after the end of the one before, and ends within `n`. -/
def Ordered : List (Int × Int) → Int → Int → Prop
  | [], i, n => i ≤ n
  | m :: ms, i, n => i ≤ m.1 ∧ m.1 ≤ m.2 ∧ Ordered ms m.2 n

theorem Tiles.append {cs ds : List Capture} {i j n : Int} (h : Tiles cs i j) (h' : Tiles ds j n) :
    Tiles (cs ++ ds) i n := by
  induction cs generalizing i with
  | nil => have : i = j := h; subst this; exact h'
  | cons c cs ih => exact ⟨h.1, h.2.1, ih h.2.2⟩

theorem regexp_fold : ∀ (ms : List (Int × Int)) (i n : Int) (S : List Capture), Ordered ms i n →
    ∃ T j, ms.foldl regexpStep (i, S) = (j, S ++ T) ∧ j ≤ n ∧ Tiles T i j
      ∧ (T.filter (·.isMatch)).map (fun c => (c.offsets.start, c.offsets.stop)) = ms
      ∧ (∀ c ∈ T, c.isMatch = false → c.offsets.start < c.offsets.stop) := by
  intro ms
  induction ms with
  | nil => intro i n S h; exact ⟨[], i, by simp, h, rfl, rfl, by simp⟩
  | cons m ms ih =>
    intro i n S h
    obtain ⟨h1, h2, h3⟩ := h
    rw [List.foldl_cons]
    by_cases he : i = m.1
    · have e : regexpStep (i, S) m = (m.2, S ++ [⟨⟨m.1, m.2⟩, true⟩]) := by simp [regexpStep, he]
      obtain ⟨T, j, k1, k2, k3, k4, k5⟩ := ih m.2 n (S ++ [⟨⟨m.1, m.2⟩, true⟩]) h3
      refine ⟨⟨⟨m.1, m.2⟩, true⟩ :: T, j, by rw [e, k1]; simp, k2, ⟨he.symm, by show i ≤ m.2; omega, k3⟩, ?_, ?_⟩
      · simp [k4]
      · intro c hc hm
        rcases List.mem_cons.1 hc with rfl | hc
        · simp at hm
        · exact k5 c hc hm
    · have e : regexpStep (i, S) m = (m.2, S ++ [⟨⟨i, m.1⟩, false⟩, ⟨⟨m.1, m.2⟩, true⟩]) := by
        simp [regexpStep, he]
      obtain ⟨T, j, k1, k2, k3, k4, k5⟩ := ih m.2 n (S ++ [⟨⟨i, m.1⟩, false⟩, ⟨⟨m.1, m.2⟩, true⟩]) h3
      refine ⟨⟨⟨i, m.1⟩, false⟩ :: ⟨⟨m.1, m.2⟩, true⟩ :: T, j, by rw [e, k1]; simp, k2,
        ⟨rfl, h1, rfl, h2, k3⟩, ?_, ?_⟩
      · simp [k4]
      · intro c hc hm
        simp only [List.mem_cons] at hc
        rcases hc with rfl | rfl | hc
        · simp only; omega
        · simp at hm
        · exact k5 c hc hm

theorem capturesOfMatches_spec (s : Str) (ms : List (Int × Int)) (h : Ordered ms 0 s.length) :
    Tiles (capturesOfMatches s ms) 0 s.length
      ∧ ((capturesOfMatches s ms).filter (·.isMatch)).map (fun c => (c.offsets.start, c.offsets.stop)) = ms
      ∧ (∀ c ∈ capturesOfMatches s ms, c.isMatch = false → c.offsets.start < c.offsets.stop) := by
  obtain ⟨T, j, k1, k2, k3, k4, k5⟩ := regexp_fold ms 0 s.length [] h
  unfold capturesOfMatches
  rw [k1]
  simp only [List.nil_append]
  by_cases he : j = s.length
  · subst he; simp only [ne_eq, not_true_eq_false, if_false]; exact ⟨k3, k4, k5⟩
  · rw [if_pos he]
    refine ⟨k3.append ⟨rfl, k2, rfl⟩, by simpa using k4, ?_⟩
    intro c hc hm
    rcases List.mem_append.1 hc with hc | hc
    · exact k5 c hc hm
    · simp at hc; subst hc; simp only; omega

/-- Where captures can start and stop: 0, the end, and the ends of matches. -/
theorem regexp_points (P : Int → Prop) : ∀ (ms : List (Int × Int)) (st : Int × List Capture), P st.1 →
    (∀ c ∈ st.2, P c.offsets.start ∧ P c.offsets.stop) → (∀ m ∈ ms, P m.1 ∧ P m.2) →
    P (ms.foldl regexpStep st).1 ∧ ∀ c ∈ (ms.foldl regexpStep st).2, P c.offsets.start ∧ P c.offsets.stop := by
  intro ms
  induction ms with
  | nil => intro st h1 h2 _; exact ⟨h1, h2⟩
  | cons m ms ih =>
    intro st h1 h2 h3
    have hm := h3 m (by simp)
    rw [List.foldl_cons]
    refine ih (regexpStep st m) hm.2 ?_ (fun x hx => h3 x (by simp [hx]))
    intro c hc
    unfold regexpStep at hc
    split at hc
    · simp only [List.append_assoc, List.mem_append, List.mem_cons, List.not_mem_nil, or_false] at hc
      rcases hc with hc | rfl | rfl
      · exact h2 c hc
      · exact ⟨h1, hm.1⟩
      · exact hm
    · simp only [List.mem_append, List.mem_cons, List.not_mem_nil, or_false] at hc
      rcases hc with hc | rfl
      · exact h2 c hc
      · exact hm

theorem capturesOfMatches_points (P : Int → Prop) (s : Str) (ms : List (Int × Int)) (h0 : P 0) (hn : P s.length)
    (hm : ∀ m ∈ ms, P m.1 ∧ P m.2) :
    ∀ c ∈ capturesOfMatches s ms, P c.offsets.start ∧ P c.offsets.stop := by
  obtain ⟨h1, h2⟩ := regexp_points P ms (0, []) h0 (by simp) hm
  intro c hc
  simp only [capturesOfMatches] at hc
  split at hc
  · simp only [List.mem_append, List.mem_cons, List.not_mem_nil, or_false] at hc
    rcases hc with hc | rfl
    · exact h2 c hc
    · exact ⟨h1, hn⟩
  · exact h2 c hc

/-- **C21 (regexp).** For every non-empty text and every engine whose matches are in bounds,
ordered and non-overlapping, the captures tile the text, the matching ones are exactly the
engine's matches and the non-matching ones are non-empty. -/
theorem C21_regexp (findAll : Str → List (Int × Int)) (s : Str) (hs : s ≠ [])
    (h : Ordered (findAll s) 0 s.length) :
    ∃ caps, fromRegexp findAll s = .ok (.ok caps) ∧ Tiles caps 0 s.length
      ∧ (caps.filter (·.isMatch)).map (fun c => (c.offsets.start, c.offsets.stop)) = findAll s
      ∧ (∀ c ∈ caps, c.isMatch = false → c.offsets.start < c.offsets.stop) := by
  have : ¬ s.length = 0 := by simpa using hs
  exact ⟨_, by rw [fromRegexp, if_neg this], capturesOfMatches_spec s _ h⟩

/-- On the empty text every pattern gives one empty non-matching capture, whatever the
engine finds there. -/
theorem C21_empty (findAll : Str → List (Int × Int))
    (findAll2 : List Rune → Except Err (List (Nat × Nat))) :
    fromRegexp findAll [] = .ok (.ok [⟨⟨0, 0⟩, false⟩])
      ∧ fromRegexp2 findAll2 [] = .ok (.ok [⟨⟨0, 0⟩, false⟩]) := ⟨rfl, rfl⟩

/-- Rune matches (index, length) in order, within `n` runes. -/
def Ordered2 : List (Nat × Nat) → Nat → Nat → Prop
  | [], i, n => i ≤ n
  | m :: ms, i, n => i ≤ m.1 ∧ Ordered2 ms (m.1 + m.2) n

theorem encodeRunes_take_mono (rs : List Rune) {i j : Nat} (h : i ≤ j) :
    (encodeRunes (rs.take i)).length ≤ (encodeRunes (rs.take j)).length := by
  have : rs.take j = rs.take i ++ (rs.drop i).take (j - i) := by
    rw [← List.take_add]; congr 1; omega
  rw [this]; simp

theorem take_add_bytes (rs : List Rune) (m : Nat × Nat) :
    regexp2Bytes rs m = (((encodeRunes (rs.take m.1)).length : Int), ((encodeRunes (rs.take (m.1 + m.2))).length : Int)) := by
  simp [regexp2Bytes, List.take_add]

theorem ordered2_bytes (rs : List Rune) : ∀ (ms : List (Nat × Nat)) (i : Nat), Ordered2 ms i rs.length →
    Ordered (ms.map (regexp2Bytes rs)) (encodeRunes (rs.take i)).length (encodeRunes rs).length := by
  intro ms
  induction ms with
  | nil =>
    intro i h
    have := encodeRunes_take_mono rs (i := i) (j := rs.length) h
    rw [List.take_length] at this
    exact Int.ofNat_le.2 this
  | cons m ms ih =>
    intro i h
    rw [List.map_cons, take_add_bytes]
    refine ⟨?_, ?_, ih (m.1 + m.2) h.2⟩
    · exact Int.ofNat_le.2 (encodeRunes_take_mono rs h.1)
    · exact Int.ofNat_le.2 (encodeRunes_take_mono rs (Nat.le_add_right _ _))

/-- **C21 (regexp2).** For every valid text and every engine whose rune matches are in
bounds, ordered and non-overlapping, the captures tile the text and the matching ones are the
engine's matches, carried from rune to byte positions: a match of `len` runes at rune `idx`
becomes the bytes between the encodings of the first `idx` and the first `idx+len` runes.
All captures are on rune boundaries.  An engine error is returned as the error. -/
theorem C21_regexp2 (findAll2 : List Rune → Except Err (List (Nat × Nat))) (rs : List Rune)
    (hv : ∀ r ∈ rs, ValidRune r) (hs : rs ≠ []) :
    (∀ e, findAll2 rs = .error e → fromRegexp2 findAll2 (encodeRunes rs) = .ok (.error e))
    ∧ (∀ ms, findAll2 rs = .ok ms → Ordered2 ms 0 rs.length →
      ∃ caps, fromRegexp2 findAll2 (encodeRunes rs) = .ok (.ok caps)
        ∧ Tiles caps 0 (encodeRunes rs).length
        ∧ (caps.filter (·.isMatch)).map (fun c => (c.offsets.start, c.offsets.stop))
          = ms.map (fun m => (((encodeRunes (rs.take m.1)).length : Int),
              ((encodeRunes (rs.take (m.1 + m.2))).length : Int)))
        ∧ (∀ c ∈ caps, c.isMatch = false → c.offsets.start < c.offsets.stop)
        ∧ (∀ c ∈ caps, IsBoundary (encodeRunes rs) c.offsets.start ∧ IsBoundary (encodeRunes rs) c.offsets.stop)) := by
  have hne : ¬ (encodeRunes rs).length = 0 := by
    intro h'; exact hs (encodeRunes_eq_nil.1 (List.length_eq_zero_iff.1 h'))
  have hru := runesOf_encodeRunes rs hv
  constructor
  · intro e he
    simp only [fromRegexp2, if_neg hne, hru, he]
  · intro ms he ho
    have := ordered2_bytes rs ms 0 ho
    simp only [List.take_zero, encodeRunes_nil, List.length_nil] at this
    have hb : ms.map (regexp2Bytes rs) = ms.map (fun m => (((encodeRunes (rs.take m.1)).length : Int),
              ((encodeRunes (rs.take (m.1 + m.2))).length : Int))) :=
      List.map_congr_left fun m _ => take_add_bytes rs m
    obtain ⟨k1, k2, k3⟩ := capturesOfMatches_spec (encodeRunes rs) _ this
    refine ⟨_, by simp only [fromRegexp2, if_neg hne, hru, he], k1, by rw [k2, hb], k3, ?_⟩
    have hbd : ∀ k : Nat, IsBoundary (encodeRunes rs) (encodeRunes (rs.take k)).length := fun k =>
      ⟨_, encodeRunes (rs.drop k), ⟨rs.take k, fun r hr => hv r (List.mem_of_mem_take hr), rfl⟩,
        ⟨_, fun r hr => hv r (List.mem_of_mem_drop hr), rfl⟩,
        by rw [← encodeRunes_append, List.take_append_drop], rfl⟩
    refine capturesOfMatches_points _ _ _ (by simpa using hbd 0) (by simpa using hbd rs.length) ?_
    intro m hm
    obtain ⟨m', -, rfl⟩ := List.mem_map.1 hm
    rw [take_add_bytes]
    exact ⟨hbd _, hbd _⟩

example : fromRegexp2 (fun _ => .ok [(1, 2), (3, 0)]) b!"aéxb" = .ok (.ok
    [⟨⟨0, 1⟩, false⟩, ⟨⟨1, 4⟩, true⟩, ⟨⟨4, 4⟩, true⟩, ⟨⟨4, 5⟩, false⟩]) := by decide +kernel

/-! ## C22: string patterns -/

/-- `pat` stands in `s` at byte `i`. -/
def OccursAt (pat s : Str) (i : Nat) : Prop := pat <+: s.drop i

theorem litAux_spec (pat : Str) (hp : pat ≠ []) : ∀ (s pre : Str) (skip : Nat), skip ≤ s.length →
    Ordered (litAux pat s pre.length skip) (pre.length + skip : Nat) (pre ++ s).length
    ∧ (∀ m ∈ litAux pat s pre.length skip, ∃ i : Nat, m.1 = i ∧ m.2 = (i + pat.length : Nat)
        ∧ OccursAt pat (pre ++ s) i)
    ∧ (∀ i, pre.length + skip ≤ i → OccursAt pat (pre ++ s) i →
        ∃ m ∈ litAux pat s pre.length skip, m.1 < (i + pat.length : Nat) ∧ (i : Int) < m.2) := by
  intro s
  induction s with
  | nil =>
    intro pre skip hk
    simp at hk; subst hk
    refine ⟨by simp [litAux, Ordered], by simp [litAux], ?_⟩
    intro i hi ho
    exfalso
    simp [OccursAt] at ho
    rw [List.drop_eq_nil_of_le (by omega)] at ho
    exact hp (by simpa using ho)
  | cons b bs ih =>
    intro pre skip hk
    have e : pre ++ b :: bs = (pre ++ [b]) ++ bs := by simp
    have el : (pre ++ [b]).length = pre.length + 1 := by simp
    cases skip with
    | succ k =>
      have := ih (pre ++ [b]) k (by simpa using hk)
      rw [el, ← e] at this
      simp only [litAux]
      have e3 : pre.length + 1 + k = pre.length + (k + 1) := by omega
      rw [e3] at this
      exact this
    | zero =>
      simp only [litAux]
      by_cases hpre : pat.isPrefixOf (b :: bs)
      · rw [if_pos hpre]
        have hpl : 0 < pat.length := List.length_pos_iff.2 hp
        have hpf : pat <+: b :: bs := List.isPrefixOf_iff_prefix.1 hpre
        have hle := hpf.length_le
        simp at hle
        have := ih (pre ++ [b]) (pat.length - 1) (by omega)
        rw [el, ← e] at this
        have e3 : pre.length + 1 + (pat.length - 1) = pre.length + pat.length := by omega
        rw [e3] at this
        obtain ⟨h1, h2, h3⟩ := this
        refine ⟨⟨by omega, by simp only; omega, h1⟩, ?_, ?_⟩
        · intro m hm
          rcases List.mem_cons.1 hm with rfl | hm
          · exact ⟨pre.length, rfl, rfl, by simpa [OccursAt] using hpf⟩
          · exact h2 m hm
        · intro i hi ho
          by_cases hc : i < pre.length + pat.length
          · refine ⟨_, List.mem_cons_self, ?_, ?_⟩ <;> simp only <;> omega
          · obtain ⟨m, hm, a1, a2⟩ := h3 i (by omega) ho
            exact ⟨m, by simp [hm], a1, a2⟩
      · rw [if_neg hpre]
        have := ih (pre ++ [b]) 0 (by omega)
        rw [el, ← e] at this
        obtain ⟨h1, h2, h3⟩ := this
        refine ⟨?_, h2, ?_⟩
        · revert h1
          cases litAux pat bs (pre.length + 1) 0 with
          | nil => intro h; simp only [Ordered] at h ⊢; omega
          | cons m ms => intro h; exact ⟨by have := h.1; omega, h.2⟩
        · intro i hi ho
          by_cases hc : i = pre.length
          · subst hc
            exfalso
            apply hpre
            apply List.isPrefixOf_iff_prefix.2
            simpa [OccursAt] using ho
          · exact h3 i (by omega) ho

theorem Tiles.start_le {cs : List Capture} {i n : Int} (h : Tiles cs i n) :
    ∀ c ∈ cs, i ≤ c.offsets.start ∧ c.offsets.start ≤ c.offsets.stop := by
  induction cs generalizing i with
  | nil => simp
  | cons d cs ih =>
    obtain ⟨h1, h2, h3⟩ := h
    intro c hc
    rcases List.mem_cons.1 hc with rfl | hc
    · omega
    · have := ih h3 c hc; omega

/-- Captures of a tiling that share a byte are the same capture. -/
theorem Tiles.overlap {cs : List Capture} {i n : Int} (h : Tiles cs i n) {c d : Capture}
    (hc : c ∈ cs) (hd : d ∈ cs) (h1 : c.offsets.start < d.offsets.stop)
    (h2 : d.offsets.start < c.offsets.stop) : c = d := by
  induction cs generalizing i with
  | nil => simp at hc
  | cons e cs ih =>
    have hs := Tiles.start_le h.2.2
    rcases List.mem_cons.1 hc with rfl | hc' <;> rcases List.mem_cons.1 hd with rfl | hd'
    · rfl
    · have := hs d hd'; omega
    · have := hs c hc'; omega
    · exact ih h.2.2 hc' hd'

theorem occurs_boundary {pat s : Str} (hpv : ValidUtf8 pat) (hp : pat ≠ []) (hs : ValidUtf8 s) {i : Nat}
    (h : OccursAt pat s i) : IsBoundary s i ∧ IsBoundary s (i + pat.length : Nat) := by
  obtain ⟨rs, hv, rfl⟩ := hs
  obtain ⟨t, ht⟩ := h
  have hb : IsBoundary (encodeRunes rs) i := by
    obtain ⟨ps, hps, rfl⟩ := hpv
    cases ps with
    | nil => simp at hp
    | cons p ps =>
      obtain ⟨c, u, he, hc, -⟩ := encodeRune_bytes p
      refine boundary_of_notCont rs hv i c ?_ hc
      have := congrArg (·[0]?) ht
      simp [he] at this
      exact this.symm
  refine ⟨hb, ?_⟩
  obtain ⟨u, v, hu, hv2, e, hi⟩ := hb
  have hiu : i = u.length := by omega
  rw [e, hiu, List.drop_left] at ht
  have hvt : ValidUtf8 t := validUtf8_drop (by rw [ht]; exact hv2) hpv
  exact ⟨u ++ pat, t, hu.append hpv, hvt, by rw [e, ← ht]; simp, by simp; omega⟩

/-- **C22 (partial).** For every valid non-empty pattern string and every non-empty valid
text, the captures of `FromString(p)` tile the text on rune boundaries, every match spells
`p`, and no non-match contains an occurrence of `p`.  Missing from the full property: the empty
pattern, on which the code is wrong for non-ASCII text (`C22_counterexample`), and right for
ASCII text (`C22_empty_ascii`). -/
theorem C22_string_partial {pat s : Str} (hpv : ValidUtf8 pat) (hp : pat ≠ []) (hsv : ValidUtf8 s)
    (hs : s ≠ []) :
    ∃ caps, fromStringPattern pat s = .ok (.ok caps) ∧ Tiles caps 0 s.length
      ∧ (∀ c ∈ caps, IsBoundary s c.offsets.start ∧ IsBoundary s c.offsets.stop
          ∧ c.offsets.start < c.offsets.stop)
      ∧ (∀ c ∈ caps, c.isMatch = true → sub s c.offsets.start c.offsets.stop = pat)
      ∧ (∀ c ∈ caps, c.isMatch = false → ∀ i : Nat, c.offsets.start ≤ i →
          (i + pat.length : Int) ≤ c.offsets.stop → ¬ OccursAt pat s i) := by
  have hsl : ¬ s.length = 0 := by simpa using hs
  have hpl : ¬ pat.length = 0 := by simpa using hp
  obtain ⟨o1, o2, o3⟩ := litAux_spec pat hp s [] 0 (by omega)
  simp only [List.nil_append, List.length_nil, Nat.zero_add] at o1 o2 o3
  have o1 : Ordered (litFindAll pat s) 0 s.length := o1
  obtain ⟨t1, t2, t3⟩ := capturesOfMatches_spec s _ o1
  have hmatch : ∀ c ∈ capturesOfMatches s (litFindAll pat s), c.isMatch = true →
      (c.offsets.start, c.offsets.stop) ∈ litFindAll pat s := by
    intro c hc hm
    rw [← t2]
    exact List.mem_map.2 ⟨c, List.mem_filter.2 ⟨hc, hm⟩, rfl⟩
  have hspell : ∀ c ∈ capturesOfMatches s (litFindAll pat s), c.isMatch = true →
      ∃ i : Nat, c.offsets.start = i ∧ c.offsets.stop = (i + pat.length : Nat) ∧ OccursAt pat s i :=
    fun c hc hm => o2 _ (hmatch c hc hm)
  refine ⟨_, by rw [fromStringPattern, if_neg hpl, fromRegexp, if_neg hsl], t1, ?_, ?_, ?_⟩
  · intro c hc
    have := capturesOfMatches_points (IsBoundary s) s (litFindAll pat s)
      ⟨[], s, ⟨[], by simp, rfl⟩, hsv, rfl, rfl⟩ ⟨s, [], hsv, ⟨[], by simp, rfl⟩, by simp, rfl⟩ (by
        intro m hm
        obtain ⟨i, e1, e2, ho⟩ := o2 m hm
        rw [e1, e2]
        exact occurs_boundary hpv hp hsv ho) c hc
    refine ⟨this.1, this.2, ?_⟩
    cases hm : c.isMatch with
    | false => exact t3 c hc hm
    | true =>
      obtain ⟨i, e1, e2, -⟩ := hspell c hc hm
      rw [e1, e2]; omega
  · intro c hc hm
    obtain ⟨i, e1, e2, t, ht⟩ := hspell c hc hm
    rw [e1, e2]
    unfold sub
    have : (((i + pat.length : Nat) : Int) - i).toNat = pat.length := by omega
    rw [this]
    simp [← ht]
  · intro c hc hm i h1 h2 ho
    obtain ⟨m, hmm, a1, a2⟩ := o3 i (by omega) ho
    have hmm' : m ∈ litFindAll pat s := hmm
    rw [← t2] at hmm'
    obtain ⟨d, hd, rfl⟩ := List.mem_map.1 hmm'
    obtain ⟨hd, hdm⟩ := List.mem_filter.1 hd
    have := Tiles.overlap t1 hc hd (by simp only at a2; omega) (by simp only at a1; omega)
    subst this
    rw [hm] at hdm
    simp at hdm

/-- **C22, the empty text**: for every pattern string, one empty non-matching capture. -/
theorem C22_empty_text (pat : Str) : fromStringPattern pat [] = .ok (.ok [⟨⟨0, 0⟩, false⟩]) := by
  unfold fromStringPattern
  split <;> rfl

/-- **C22, the empty pattern**: on every valid text one non-matching capture, from 0 to the number of
runes (not of bytes). -/
theorem C22_empty_pattern (rs : List Rune) (hv : ∀ r ∈ rs, ValidRune r) :
    fromStringPattern [] (encodeRunes rs) = .ok (.ok [⟨⟨0, rs.length⟩, false⟩]) := by
  simp [fromStringPattern, runesOf_encodeRunes rs hv]

/-- The empty pattern on ASCII text gives one non-matching capture covering the text. -/
theorem C22_empty_ascii (rs : List Rune) (h : ∀ r ∈ rs, 0 ≤ r ∧ r < 128) :
    fromStringPattern [] (encodeRunes rs)
      = .ok (.ok [⟨⟨0, (encodeRunes rs).length⟩, false⟩]) := by
  have hv : ∀ r ∈ rs, ValidRune r := by
    intro r hr; have := h r hr; unfold ValidRune; omega
  rw [fromStringPattern, if_pos (by rfl), runesOf_encodeRunes rs hv, encodeRunes_ascii_length rs h]

/-- The empty pattern on "é" covers only the first byte of the text: the capture's end is
the number of runes. -/
theorem C22_counterexample :
    fromStringPattern [] b!"é" = .ok (.ok [⟨⟨0, 1⟩, false⟩]) ∧ (b!"é").length = 2
      ∧ ¬ Tiles [⟨⟨0, 1⟩, false⟩] 0 (b!"é").length := by decide +kernel

/-- A text not spelling the pattern at the match boundaries: overlapping occurrences are
found leftmost first. -/
example : fromStringPattern b!"aa" b!"aaaéaa" = .ok (.ok
    [⟨⟨0, 2⟩, true⟩, ⟨⟨2, 5⟩, false⟩, ⟨⟨5, 7⟩, true⟩]) := by decide +kernel

/-! ## C23: inverted patterns -/

/-- **C23.** `Invert(p)` has the same offsets in the same order with every flag negated,
fails with the same error, and inverting twice gives back the original result. -/
theorem C23_invert (p : SplitPattern) (s : Str) :
    (∀ caps, p s = .ok (.ok caps) → ∃ caps', invert p s = .ok (.ok caps')
        ∧ caps'.map (·.offsets) = caps.map (·.offsets)
        ∧ caps'.map (·.isMatch) = caps.map (fun c => !c.isMatch))
    ∧ (∀ e, p s = .ok (.error e) → invert p s = .ok (.error e))
    ∧ (p s = .panic → invert p s = .panic)
    ∧ invert (invert p) s = p s := by
  unfold invert
  refine ⟨?_, ?_, ?_, ?_⟩
  · intro caps h
    rw [h]
    exact ⟨_, rfl, by simp [Function.comp_def], by simp [Function.comp_def]⟩
  · intro e h; rw [h]
  · intro h; rw [h]
  · cases h : p s with
    | panic => simp
    | ok r =>
      cases r with
      | error e => simp
      | ok caps => simp [Function.comp_def]

/-- Inversion keeps tilings. -/
theorem C23_tiles : ∀ (cs : List Capture) (i n : Int), Tiles cs i n →
    Tiles (cs.map fun c => { c with isMatch := !c.isMatch }) i n := by
  intro cs
  induction cs with
  | nil => intro i n h; exact h
  | cons c cs ih => intro i n h; exact ⟨h.1, h.2.1, ih _ _ h.2.2⟩

example : invert (fromRune 0x20) b!"a b" = .ok (.ok
    [⟨⟨0, 1⟩, true⟩, ⟨⟨1, 2⟩, false⟩, ⟨⟨2, 3⟩, true⟩]) := by decide +kernel

end Verif
