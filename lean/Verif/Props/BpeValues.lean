import Verif.Spec.Cells
import Verif.Props.Bpe

/-! Property C73: what the values of BPE tokens spell, with affixes and an unknown token. -/

set_option autoImplicit false

namespace Verif
namespace BPE

/-- A symbol that has the length of what the group covers and whose term is what it shows. -/
def GroupOf (v : Vocab) (p : Int × Int) (g : List Cell) : Prop :=
  g ≠ [] ∧ p.2 = ((covered g).length : Int) ∧ v.getString p.1 = some (shown g)

theorem covered_append (a b : List Cell) : covered (a ++ b) = covered a ++ covered b := by simp [covered]
theorem shown_append (a b : List Cell) : shown (a ++ b) = shown a ++ shown b := by simp [shown]

theorem star_groups {v : Vocab} {merges : MergeMap} (hm : Spells v merges) {l l' : List (Int × Int)}
    (h : Star (MergeOne merges) l l') {gs : List (List Cell)} (hl : All2 (GroupOf v) l gs) :
    ∃ gs', All2 (GroupOf v) l' gs' ∧ gs'.flatten = gs.flatten := by
  induction h with
  | refl => exact ⟨gs, hl, rfl⟩
  | step _ hs ih =>
    obtain ⟨ys, h1, h2⟩ := ih
    cases hs with
    | mk A B a b m hmv =>
      obtain ⟨y1, y2, rfl, g1, g2⟩ := all2_left_append h1
      cases g2 with
      | cons ga g2 =>
        rename_i xa y2
        cases g2 with
        | cons gb g2 =>
          rename_i xb y2
          refine ⟨y1 ++ (xa ++ xb) :: y2, g1.append (.cons ⟨?_, ?_, ?_⟩ g2), ?_⟩
          · simp [ga.1]
          · have h1 := ga.2.1
            have h2 := gb.2.1
            rw [covered_append, List.length_append]
            push_cast
            omega
          · rw [shown_append]; exact hm _ _ _ _ _ hmv ga.2.2 gb.2.2
          · rw [← h2]; simp

theorem flatten_singles (cells : List Cell) : (cells.map fun c => [c]).flatten = cells := by
  induction cells with
  | nil => rfl
  | cons c cs ih => simpa using ih

/-- One group per cell. -/
theorem pending_cells (m : BPE) (u : Int) (fuse : m.hasUnknownToken = true → m.vocab.getString u = some m.unknownToken)
    (cs : List (Option Int × Int)) (items : List (Str × Option Str))
    (h : All2 (fun c it => c.2 = ((it.1 : Str).length : Int)
      ∧ (∀ id, c.1 = some id → ∃ k, it.2 = some k ∧ m.vocab.getString id = some k)
      ∧ (c.1 = none → it.2 = none ∧ m.hasUnknownToken = true)) cs items) :
    (∃ cells, Cells m.unknownToken m.unknownFusionEnabled items cells
      ∧ All2 (GroupOf m.vocab) (pending m u none cs) (cells.map fun c => [c]))
    ∧ ∀ run : List (Str × Option Str), run ≠ [] → (∀ c ∈ run, c.2 = none) → m.hasUnknownToken = true →
        (m.unknownFusionEnabled = false → run.length = 1) →
        ∃ cells, Cells m.unknownToken m.unknownFusionEnabled (run ++ items) cells
          ∧ All2 (GroupOf m.vocab) (pending m u (some (u, ((run.flatMap (fun c => c.1)).length : Int))) cs)
              (cells.map fun c => [c]) := by
  have grp : ∀ (id : Int) (x k : Str), m.vocab.getString id = some k →
      GroupOf m.vocab (id, (x.length : Int)) [(x, k)] := by
    intro id x k hk
    exact ⟨by simp, by simp [covered], by simpa [shown] using hk⟩
  -- ending a run of unknown characters
  have close : ∀ (run items : List (Str × Option Str)) (cells : List Cell), run ≠ [] → (∀ c ∈ run, c.2 = none) →
      (m.unknownFusionEnabled = false → run.length = 1) → (m.unknownFusionEnabled = true → ∀ c ∈ items.head?, c.2 ≠ none) →
      Cells m.unknownToken m.unknownFusionEnabled items cells →
      Cells m.unknownToken m.unknownFusionEnabled (run ++ items) ((run.flatMap (fun c => c.1), m.unknownToken) :: cells) := by
    intro run items cells h1 h2 h3 h4 hc
    cases hf : m.unknownFusionEnabled with
    | true => rw [hf] at hc; exact .run rfl h1 h2 (h4 hf) hc
    | false =>
      obtain ⟨⟨x, o⟩, rfl⟩ := List.length_eq_one_iff.1 (h3 hf)
      have : o = none := h2 (x, o) (by simp)
      subst this
      rw [hf] at hc
      simpa using Cells.single rfl hc
  induction h with
  | nil =>
    refine ⟨⟨[], .nil, .nil⟩, fun run h1 h2 hu h3 => ?_⟩
    exact ⟨_, close run [] [] h1 h2 h3 (by simp) .nil, .cons (grp _ _ _ (fuse hu)) .nil⟩
  | @cons c it cs items hc _ ih =>
    obtain ⟨o, len⟩ := c
    obtain ⟨x, k⟩ := it
    obtain ⟨h1, h2, h3⟩ := hc
    simp only at h1 h2 h3
    subst h1
    obtain ⟨⟨cells, i1, i2⟩, ih2⟩ := ih
    cases o with
    | some id =>
      obtain ⟨k', rfl, hk⟩ := h2 id rfl
      refine ⟨⟨(x, k') :: cells, .known i1, .cons (grp _ _ _ hk) i2⟩, ?_⟩
      intro run r1 r2 hu r3
      exact ⟨_, close run _ _ r1 r2 r3 (by simp) (.known i1), .cons (grp _ _ _ (fuse hu)) (.cons (grp _ _ _ hk) i2)⟩
    | none =>
      obtain ⟨rfl, hu⟩ := h3 rfl
      constructor
      · obtain ⟨cells', j1, j2⟩ := ih2 [(x, none)] (by simp) (by simp) hu (by simp)
        exact ⟨cells', j1, by simpa [pending, hu] using j2⟩
      · intro run r1 r2 _ r3
        cases hf : m.unknownFusionEnabled with
        | true =>
          obtain ⟨cells', j1, j2⟩ := ih2 (run ++ [(x, none)]) (by simp) (by
            intro c hc
            rcases List.mem_append.1 hc with h | h
            · exact r2 c h
            · simp at h; rw [h]) hu (by simp [hf])
          rw [hf] at j1
          refine ⟨cells', by simpa using j1, ?_⟩
          simpa [pending, hu, hf] using j2
        | false =>
          obtain ⟨cells', j1, j2⟩ := ih2 [(x, none)] (by simp) (by simp) hu (by simp)
          have := close run ((x, none) :: items) cells' r1 r2 r3 (by simp [hf]) j1
          rw [hf] at this
          refine ⟨_, this, ?_⟩
          simp only [pending, hu, hf, if_true, Bool.false_eq_true, if_false]
          exact .cons (grp _ _ _ (fuse hu)) (by simpa using j2)

theorem wordToTokens_shows {v : Vocab} (w : Word) (ts : List Token) (a : Int) (gs : List (List Cell))
    (h : wordToTokens v w a = .ok ts) (hl : All2 (GroupOf v) (visible w) gs) : Shows a ts gs := by
  induction w generalizing a ts gs with
  | nil =>
    simp [wordToTokens] at h; subst h
    simp only [visible, List.map_nil] at hl
    cases hl
    trivial
  | cons s w ih =>
    unfold wordToTokens at h
    cases hg : v.getString s.id with
    | none => simp [hg] at h
    | some value =>
      simp only [hg] at h
      simp only [visible, List.map_cons] at hl
      generalize e : w.map (fun s => (s.id, s.length)) = vw at hl
      cases hl with
      | cons h1 h2 =>
        rename_i g gs
        subst e
        obtain ⟨g1, g2, g3⟩ := h1
        simp only at g2 g3
        cases hr : wordToTokens v w (a + s.length) with
        | error e => simp [hr] at h
        | ok ts' =>
          simp only [hr] at h
          injection h with h
          subst h
          rw [hg] at g3
          refine ⟨g1, by rw [g2], by simpa using g3, ?_⟩
          rw [← g2]
          exact ih ts' _ gs hr h2

theorem lookupKey_affixed (m : BPE) (n i : Nat) (r : Rune) (h : i < n) : m.lookupKey i (n - 1) r = m.affixed n i r := by
  rw [C47_actual]
  unfold affixed
  congr 1
  by_cases hl : i = n - 1
  · rw [if_pos hl, if_pos (by omega)]
  · rw [if_neg hl, if_neg (by omega)]

theorem all2_mapIdx2 {α β γ : Type} (R : β → γ → Prop) (l : List α) (f : Nat → α → β) (g : Nat → α → γ)
    (h : ∀ i (hi : i < l.length), R (f i l[i]) (g i l[i])) : All2 R (l.mapIdx f) (l.mapIdx g) := by
  induction l generalizing f g with
  | nil => exact .nil
  | cons a l ih =>
    rw [List.mapIdx_cons, List.mapIdx_cons]
    refine .cons (h 0 (by simp)) (ih _ _ ?_)
    intro i hi
    exact h (i + 1) (by simp; omega)

theorem covered_cells {unk : Str} {fuse : Bool} {items : List (Str × Option Str)} {cells : List Cell}
    (h : Cells unk fuse items cells) : covered cells = items.flatMap fun c => c.1 := by
  induction h with
  | nil => rfl
  | known _ ih => simpa [covered] using ih
  | single _ _ ih => simpa [covered] using ih
  | run _ _ _ _ _ ih =>
    unfold covered at ih ⊢
    rw [List.flatMap_cons, List.flatMap_append, ih]

theorem items_text (m : BPE) (s : Str) (hv : ValidUtf8 s) : ((m.items s).flatMap fun c => c.1) = s := by
  have : (m.items s).map (fun c => c.1) = (runesOf s).map encodeRune := by
    unfold items
    apply List.ext_getElem <;> simp
  rw [List.flatMap_def, this]
  exact flatten_runes s hv

/-- **C73.** For every model in which ids stand for their terms and each merge spells its parts, with any
affixes, any unknown token, with and without fusion and dropout: a successful `Tokenize` of a
valid sequence in which every character gets a symbol cuts the characters (or runs of unknown
characters) into one non-empty group per token; the token has the offsets of its group, and its
value is the affixed characters of the group, with the unknown token for unknown ones. -/
theorem C73_values (m : BPE) (rnd : Nat → Bool) (s : Str) (hs : ValidUtf8 s) (hc : m.Covered s)
    (hv : ∀ t i, m.vocab.getID t = some i → m.vocab.getString i = some t)
    (hm : Spells m.vocab m.merges)
    {ts : List Token} (h : m.tokenize rnd s = .ok (.ok (some ts))) :
    ∃ cells gs, Cells m.unknownToken m.unknownFusionEnabled (m.items s) cells ∧ covered cells = s
      ∧ gs.flatten = cells ∧ Shows 0 ts gs := by
  by_cases hne : s = []
  · subst hne
    have : ts = [] := by
      have h' : m.tokenize rnd [] = .ok (.ok (some [])) := rfl
      rw [h'] at h; simpa using h
    subst this
    exact ⟨[], [], .nil, rfl, rfl, trivial⟩
  · rcases tokenize_eq m rnd s hne with ⟨-, h2⟩ | ⟨u, ss, w', hu, hss, hp, hw, -, ht⟩
    · rw [h] at h2; simp at h2
    · have htok : wordToTokens m.vocab w' 0 = .ok ts := by
        rw [h] at ht
        cases hx : wordToTokens m.vocab w' 0 with
        | error e => rw [hx] at ht; simp [Except.map] at ht
        | ok ts' => rw [hx] at ht; simp [Except.map] at ht; rw [ht]
      obtain ⟨hstar, -, -⟩ := C39_table_merges m.merges m.hasDropout rnd ss hp hw
      have hunk : m.hasUnknownToken = true → m.vocab.getString u = some m.unknownToken := by
        intro h
        unfold unkID at hu
        rw [if_pos h] at hu
        exact hv _ _ hu
      obtain ⟨cells, hcells, hall⟩ := (pending_cells m u hunk (m.lookups s) (m.items s) (by
        unfold lookups items
        apply all2_mapIdx2
        intro i hi
        rw [lookupKey_affixed m _ i _ hi]
        refine ⟨rfl, ?_, ?_⟩
        · intro id hid
          simp only at hid
          exact ⟨_, by simp [hid], hv _ _ hid⟩
        · intro hn
          simp only at hn
          refine ⟨by simp [hn], ?_⟩
          rcases hc with hc | hc
          · exact (hasUnknownToken_iff m).2 hc
          · refine absurd ?_ (hc _ (List.mem_mapIdx.2 ⟨i, hi, rfl⟩))
            rw [lookupKey_affixed m _ i _ hi]
            exact hn)).1
      rw [← hss] at hall
      obtain ⟨gs, hg1, hg2⟩ := star_groups hm hstar hall
      have hflat := flatten_singles cells
      refine ⟨cells, gs, hcells, ?_, by rw [hg2, hflat], wordToTokens_shows w' ts 0 gs htok hg1⟩
      rw [covered_cells hcells, items_text m s hs]

theorem shows_values {a : Int} {ts : List Token} {gs : List (List Cell)} (h : Shows a ts gs) :
    (ts.flatMap fun t => t.value) = shown gs.flatten := by
  induction ts generalizing a gs with
  | nil => cases gs with
    | nil => rfl
    | cons g gs => exact absurd h (by simp [Shows])
  | cons t ts ih => cases gs with
    | nil => exact absurd h (by simp [Shows])
    | cons g gs =>
      obtain ⟨-, -, h3, h4⟩ := h
      rw [List.flatMap_cons, h3, ih h4, List.flatten_cons, shown_append]

/-- Every character of the sequence is in the vocabulary, in its affixed form. -/
def AllKnown (m : BPE) (s : Str) : Prop := ∀ c ∈ m.items s, c.2 ≠ none

theorem cells_known {unk : Str} {fuse : Bool} {items : List (Str × Option Str)} {cells : List Cell}
    (h : Cells unk fuse items cells) (hk : ∀ c ∈ items, c.2 ≠ none) :
    items = cells.map fun c => (c.1, some c.2) := by
  induction h with
  | nil => rfl
  | known _ ih => rw [List.map_cons, ← ih (fun c hc => hk c (by simp [hc]))]
  | @single x _ _ _ _ _ => exact absurd rfl (hk (x, none) (by simp))
  | @run run items cells _ h1 h2 _ _ _ =>
    cases run with
    | nil => exact absurd rfl h1
    | cons c run => exact absurd (h2 c (by simp)) (hk c (by simp))

theorem allKnown_covered (m : BPE) (s : Str) (h : m.AllKnown s) : m.Covered s := by
  right
  intro c hc
  unfold lookups at hc
  obtain ⟨i, hi, rfl⟩ := List.mem_mapIdx.1 hc
  intro hn
  simp only at hn
  rw [lookupKey_affixed m _ i _ hi] at hn
  refine h _ (List.mem_mapIdx.2 ⟨i, hi, rfl⟩) ?_
  simp [hn]

theorem items_getElem (m : BPE) (s : Str) (i : Nat) (hi : i < (m.items s).length) :
    (m.items s)[i] = (encodeRune ((runesOf s)[i]'(by simpa [items] using hi)),
      if (m.vocab.getID (m.affixed (runesOf s).length i ((runesOf s)[i]'(by simpa [items] using hi)))).isSome
      then some (m.affixed (runesOf s).length i ((runesOf s)[i]'(by simpa [items] using hi))) else none) := by
  simp [items]

/-- The cells of a sequence whose characters are all known. -/
theorem known_cells (m : BPE) (s : Str) (hk : m.AllKnown s) {cells : List Cell}
    (h : Cells m.unknownToken m.unknownFusionEnabled (m.items s) cells) :
    cells = (runesOf s).mapIdx fun i r => (encodeRune r, m.affixed (runesOf s).length i r) := by
  have e := cells_known h hk
  have hl : cells.length = (runesOf s).length := by
    have := congrArg List.length e
    simpa [items] using this.symm
  apply List.ext_getElem
  · simpa using hl
  · intro i h1 h2
    have hi : i < (m.items s).length := by simp [items]; omega
    have e1 : (m.items s)[i] = (cells[i].1, some cells[i].2) := by simp [e]
    have e2 := items_getElem m s i hi
    rw [e1] at e2
    rw [List.getElem_mapIdx]
    injection e2 with a b
    refine Prod.ext a ?_
    by_cases hg : (m.vocab.getID (m.affixed (runesOf s).length i ((runesOf s)[i]'(by omega)))).isSome
    · rw [if_pos hg] at b
      injection b
    · rw [if_neg hg] at b
      exact absurd b (by simp)

theorem mapIdx_split {α β : Type} (l : List α) (f : Nat → α → β) (X Y : List β) (h : l.mapIdx f = X ++ Y) :
    ∃ A B, l = A ++ B ∧ X = A.mapIdx f ∧ Y = B.mapIdx fun i => f (i + A.length) := by
  refine ⟨l.take X.length, l.drop X.length, (List.take_append_drop _ _).symm, ?_⟩
  have hl : X.length ≤ l.length := by
    have := congrArg List.length h
    simp at this; omega
  rw [← List.take_append_drop X.length l, List.mapIdx_append] at h
  obtain ⟨h1, h2⟩ := List.append_inj h (by simp; omega)
  exact ⟨h1.symm, h2.symm⟩

/-- The affixed characters from the `k`th on. -/
theorem affixed_run (m : BPE) (n : Nat) (rs : List Rune) (k : Nat) (hne : rs ≠ []) (hn : k + rs.length ≤ n) :
    (rs.mapIdx fun i r => m.affixed n (i + k) r).flatten
      = (if k = 0 then m.continuingSubwordPrefix else []) ++ (rs.map encodeRune).flatten
        ++ (if k + rs.length = n then m.endOfWordSuffix else []) := by
  induction rs generalizing k with
  | nil => exact absurd rfl hne
  | cons r rs ih =>
    rw [List.mapIdx_cons, List.flatten_cons]
    simp only [Nat.zero_add]
    cases rs with
    | nil => simp [affixed]
    | cons r' rs =>
      have := ih (k + 1) (by simp) (by simp at hn ⊢; omega)
      have e : (fun i r => m.affixed n (i + 1 + k) r) = fun i r => m.affixed n (i + (k + 1)) r := by
        funext i r; congr 1; omega
      rw [e, this, affixed]
      have h1 : ¬ k + 1 = n := by simp at hn; omega
      have h2 : k + 1 + (r' :: rs).length = k + (r :: r' :: rs).length := by simp; omega
      rw [h2]
      simp [h1]

theorem covered_mapIdx (rs : List Rune) (f : Nat → Rune → Str) :
    covered (rs.mapIdx fun i r => (encodeRune r, f i r)) = (rs.map encodeRune).flatten := by
  unfold covered
  rw [List.flatMap_def]
  congr 1
  apply List.ext_getElem <;> simp

theorem shown_mapIdx (rs : List Rune) (f : Nat → Rune → Str) :
    shown (rs.mapIdx fun i r => (encodeRune r, f i r)) = (rs.mapIdx f).flatten := by
  unfold shown
  rw [List.flatMap_def]
  congr 1
  apply List.ext_getElem <;> simp

theorem shows_mem {a : Int} {ts : List Token} {gs : List (List Cell)} (h : Shows a ts gs) (t : Token) (ht : t ∈ ts) :
    ∃ before g after, gs = before ++ g :: after ∧ g ≠ []
      ∧ t.offsets = ⟨a + (covered before.flatten).length, a + (covered before.flatten).length + (covered g).length⟩
      ∧ t.value = shown g := by
  induction ts generalizing a gs with
  | nil => exact absurd ht (by simp)
  | cons t' ts ih =>
    cases gs with
    | nil => exact absurd h (by simp [Shows])
    | cons g gs =>
      obtain ⟨h1, h2, h3, h4⟩ := h
      rcases List.mem_cons.1 ht with rfl | ht
      · exact ⟨[], g, gs, rfl, h1, by simpa [covered] using h2, h3⟩
      · obtain ⟨b, g', c, rfl, k1, k2, k3⟩ := ih h4 ht
        refine ⟨g :: b, g', c, rfl, k1, ?_, k3⟩
        rw [k2, List.flatten_cons, covered_append, List.length_append]
        push_cast
        simp only [Int.add_assoc]

theorem encode_eq_nil (rs : List Rune) : (rs.map encodeRune).flatten = [] ↔ rs = [] := by
  cases rs with
  | nil => simp
  | cons r rs =>
    simp only [List.map_cons, List.flatten_cons, List.append_eq_nil_iff, reduceCtorEq, iff_false, not_and]
    intro h
    have := encodeRune_length_pos r
    rw [h] at this
    exact absurd this (by simp)

/-- **C73, sequences of known characters.** Each token's value is its own part of the sequence, with the
prefix in front if the part is at the start of the sequence and the suffix behind it if the part
is at the end. -/
theorem C73_affixes (m : BPE) (rnd : Nat → Bool) (s : Str) (hs : ValidUtf8 s) (hk : m.AllKnown s)
    (hv : ∀ t i, m.vocab.getID t = some i → m.vocab.getString i = some t)
    (hm : Spells m.vocab m.merges)
    {ts : List Token} (h : m.tokenize rnd s = .ok (.ok (some ts))) :
    ∀ t ∈ ts, ∃ x y z, s = x ++ y ++ z ∧ y ≠ []
      ∧ t.offsets = ⟨(x.length : Int), (x.length : Int) + y.length⟩
      ∧ t.value = (if x = [] then m.continuingSubwordPrefix else []) ++ y
          ++ (if z = [] then m.endOfWordSuffix else []) := by
  intro t ht
  obtain ⟨cells, gs, h1, -, h3, h4⟩ := C73_values m rnd s hs (allKnown_covered m s hk) hv hm h
  obtain ⟨b, g, c, rfl, g1, g2, g3⟩ := shows_mem h4 t ht
  have e := known_cells m s hk h1
  rw [← h3] at e
  simp only [List.flatten_append, List.flatten_cons] at e
  obtain ⟨A, B, hAB, hA, hB⟩ := mapIdx_split _ _ _ _ e.symm
  obtain ⟨B', C, rfl, hB', hC⟩ := mapIdx_split _ _ _ _ hB.symm
  have hBne : B' ≠ [] := by
    rintro rfl
    exact g1 (by simpa using hB')
  have hfl : s = (A.map encodeRune).flatten ++ (B'.map encodeRune).flatten ++ (C.map encodeRune).flatten := by
    rw [← flatten_runes s hs, hAB]; simp
  refine ⟨_, _, _, hfl, fun hn => hBne ((encode_eq_nil B').1 hn), ?_, ?_⟩
  · rw [g2, hA, hB', covered_mapIdx, covered_mapIdx]; simp
  · have hn : A.length + B'.length ≤ (runesOf s).length := by rw [hAB]; simp
    rw [g3, hB', shown_mapIdx, affixed_run m _ B' A.length hBne hn]
    have e1 : (A.length = 0) = ((A.map encodeRune).flatten = []) := by
      rw [encode_eq_nil, List.length_eq_zero_iff]
    have e2 : (A.length + B'.length = (runesOf s).length) = ((C.map encodeRune).flatten = []) := by
      rw [encode_eq_nil, hAB, ← List.length_eq_zero_iff]
      simp
    simp only [e1, e2]

/-- **C73, the values together.** They concatenate to the sequence between the two affixes. -/
theorem C73_concat (m : BPE) (rnd : Nat → Bool) (s : Str) (hs : ValidUtf8 s) (hne : s ≠ []) (hk : m.AllKnown s)
    (hv : ∀ t i, m.vocab.getID t = some i → m.vocab.getString i = some t)
    (hm : Spells m.vocab m.merges)
    {ts : List Token} (h : m.tokenize rnd s = .ok (.ok (some ts))) :
    (ts.flatMap fun t => t.value) = m.continuingSubwordPrefix ++ s ++ m.endOfWordSuffix := by
  obtain ⟨cells, gs, h1, -, h3, h4⟩ := C73_values m rnd s hs (allKnown_covered m s hk) hv hm h
  rw [shows_values h4, h3, known_cells m s hk h1, shown_mapIdx]
  have hr : runesOf s ≠ [] := by
    intro hn
    have := flatten_runes s hs
    rw [hn] at this
    exact hne this.symm
  have := affixed_run m (runesOf s).length (runesOf s) 0 hr (by omega)
  simp only [Nat.add_zero, Nat.zero_add, if_true] at this
  rw [this, flatten_runes s hs]

/-! ## Concrete cases -/

/-- A model with affixes: `^a` and `b` merge to `^ab`. -/
def affixSample (fuse : Bool) : BPE :=
  let terms := [(b!"<unk>", (0 : Int)), (b!"^a", 1), (b!"b", 2), (b!"b$", 3), (b!"^ab", 4)]
  ⟨Vocab.fromJSON (some terms) terms, [((1, 2), ⟨0, 4⟩)], ⟨10⟩, false, b!"<unk>", b!"^", b!"$", fuse⟩

/-- C73: the affixes are in the values and not in the offsets. -/
example : (affixSample false).tokenize (fun _ => false) b!"abb"
    = .ok (.ok (some [⟨4, b!"^ab", ⟨0, 2⟩⟩, ⟨3, b!"b$", ⟨2, 3⟩⟩])) := by decide +kernel

/-- C73: one unknown token for a run of unknown characters, or one for each. -/
example : (affixSample true).tokenize (fun _ => false) b!"abxéb"
    = .ok (.ok (some [⟨4, b!"^ab", ⟨0, 2⟩⟩, ⟨0, b!"<unk>", ⟨2, 5⟩⟩, ⟨3, b!"b$", ⟨5, 6⟩⟩]))
    ∧ (affixSample false).tokenize (fun _ => false) b!"abxéb"
    = .ok (.ok (some [⟨4, b!"^ab", ⟨0, 2⟩⟩, ⟨0, b!"<unk>", ⟨2, 3⟩⟩, ⟨0, b!"<unk>", ⟨3, 5⟩⟩, ⟨3, b!"b$", ⟨5, 6⟩⟩])) := by
  decide +kernel

/-- The table of the example satisfies the condition of C73. -/
example (fuse : Bool) : Spells (affixSample fuse).vocab (affixSample fuse).merges := by
  intro a b m x y h ha hb
  have hab : a = 1 ∧ b = 2 ∧ m = ⟨0, 4⟩ := by
    simp only [affixSample, MergeMap.get, GoMap.get?] at h
    grind
  obtain ⟨rfl, rfl, rfl⟩ := hab
  have e1 : (affixSample fuse).vocab.getString 1 = some b!"^a" := by cases fuse <;> decide +kernel
  have e2 : (affixSample fuse).vocab.getString 2 = some b!"b" := by cases fuse <;> decide +kernel
  have e3 : (affixSample fuse).vocab.getString 4 = some (b!"^a" ++ b!"b") := by cases fuse <;> decide +kernel
  rw [e1] at ha; rw [e2] at hb
  injection ha with ha; injection hb with hb
  subst ha; subst hb
  exact e3

example : (affixSample false).AllKnown b!"abb" := by unfold AllKnown; decide +kernel
example : (affixSample true).Covered b!"abxéb" := .inl (by decide +kernel)

/-- C73, the condition on the merges: read from a file with the prefix length of the model, a
merge of two affixed parts drops bytes of the second one (C51), and the value does not spell its
group any more. -/
theorem C73_prefix_length : ∃ v merges, mergeMapFromFile b!"a b\n" v 1 = .ok (.ok merges)
    ∧ (BPE.mk v merges ⟨10⟩ false [] [] [] false).tokenize (fun _ => false) b!"ab"
      = .ok (.ok (some [⟨1, b!"a", ⟨0, 2⟩⟩])) := by
  refine ⟨Vocab.fromJSON (some [(b!"a", 1), (b!"b", 2)]) [(b!"a", 1), (b!"b", 2)], [((1, 2), ⟨0, 1⟩)], ?_, ?_⟩ <;> decide +kernel

end BPE
end Verif
