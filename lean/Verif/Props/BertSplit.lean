import Verif.Props.DeleteSplit
import Verif.Model.Defaults

/-!
C123: the BERT normalizer before or after the BERT pre-tokenizer.
-/

set_option autoImplicit false

namespace Verif

section
variable {α : Type}

/-! ## Texts in which nothing is deleted at the front of a piece -/

/-- Every element that is deleted stands behind one that is not, with no delimiter between them; `ok` says whether such a one is there. -/
def tame (delim drop : α → Bool) : Bool → List α → Bool
  | _, [] => true
  | ok, a :: l => if drop a then ok && tame delim drop ok l else tame delim drop (!delim a) l

theorem tame_map {β : Type} (delim drop : β → Bool) (f : α → β) : ∀ (l : List α) (ok : Bool),
    tame delim drop ok (l.map f) = tame (fun a => delim (f a)) (fun a => drop (f a)) ok l
  | [], _ => rfl
  | a :: l, ok => by simp only [List.map_cons, tame, tame_map delim drop f l]

theorem tame_filter {delim drop drop' : α → Bool} (h : ∀ a, drop' a = true → drop a = true) : ∀ (l : List α) (ok : Bool),
    tame delim drop ok l = true → tame delim drop ok (l.filter fun a => !drop' a) = true
  | [], _, _ => rfl
  | a :: l, ok, ht => by
    simp only [tame] at ht
    cases hd : drop a with
    | true =>
      simp only [hd, if_true, Bool.and_eq_true] at ht
      have ih := tame_filter h l ok ht.2
      cases hd' : drop' a with
      | true => simpa [List.filter_cons, hd'] using ih
      | false => simp [hd', tame, hd, ht.1] at ih ⊢; simpa [ht.1] using ih
    | false =>
      have hd' : drop' a = false := by
        cases e : drop' a with
        | false => rfl
        | true => rw [h a e] at hd; cases hd
      simp only [hd, Bool.false_eq_true, if_false] at ht
      have ih := tame_filter h l _ ht
      simpa [List.filter_cons, hd', tame, hd] using ih

theorem tame_congr {delim drop : α → Bool} {f : α → α} : ∀ (l : List α) (ok : Bool),
    (∀ a ∈ l, drop (f a) = drop a ∧ (drop a = false → delim (f a) = delim a)) → tame delim drop ok (l.map f) = tame delim drop ok l
  | [], _, _ => rfl
  | a :: l, ok, h => by
    have ih := fun ok => tame_congr l ok fun x hx => h x (by simp [hx])
    obtain ⟨h1, h2⟩ := h a (by simp)
    simp only [List.map_cons, tame, h1, ih]
    cases hd : drop a with
    | true => rfl
    | false => rw [h2 hd]

theorem tame_spacedBy {delim drop q : α → Bool} {d : α → α} (hd : ∀ a, delim (d a) = true ∧ drop (d a) = false)
    (hq : ∀ a, q a = true → delim a = true ∧ drop a = false) : ∀ (l : List α) (ok : Bool),
    tame delim drop ok (spacedBy q d l) = tame delim drop ok l
  | [], _ => rfl
  | a :: l, ok => by
    have ih := tame_spacedBy hd hq l
    have e : spacedBy q d (a :: l) = (if q a then [d a, a, d a] else [a]) ++ spacedBy q d l := rfl
    rw [e]
    cases h : q a with
    | true => simp [tame, hd, hq a h, ih]
    | false => simp [tame, ih]

theorem tame_cut {delim drop : α → Bool} {d : α} (hd : delim d = true) (hk : drop d = false) {t : List α} : ∀ (u : List α) (ok : Bool),
    tame delim drop ok (u ++ d :: t) = true → tame delim drop ok u = true ∧ tame delim drop false t = true
  | [], ok, h => by
    simp only [List.nil_append, tame, hk, hd] at h
    exact ⟨rfl, by simpa using h⟩
  | a :: u, ok, h => by
    simp only [List.cons_append, tame] at h ⊢
    cases ha : drop a with
    | true =>
      simp only [ha, if_true, Bool.and_eq_true] at h ⊢
      have := tame_cut hd hk u ok h.2
      exact ⟨⟨h.1, this.1⟩, this.2⟩
    | false =>
      simp only [ha, Bool.false_eq_true, if_false] at h ⊢
      exact tame_cut hd hk u _ h

/-- Words of such texts are such texts. -/
theorem tame_words {delim drop p : α → Bool} {l : List α} (hp : ∀ a ∈ l, p a = true → delim a = true ∧ drop a = false)
    (h : tame delim drop false l = true) : (∀ w ∈ wordsBy p l, tame delim drop false w = true) ∧ ∀ w ∈ isolBy p l, tame delim drop false w = true := by
  suffices H : ∀ (n : Nat) (l : List α), l.length ≤ n → (∀ a ∈ l, p a = true → delim a = true ∧ drop a = false) → tame delim drop false l = true →
      (∀ w ∈ wordsBy p l, tame delim drop false w = true) ∧ ∀ w ∈ isolBy p l, tame delim drop false w = true from H _ l (Nat.le_refl _) hp h
  clear h hp
  intro n
  induction n with
  | zero =>
    intro l hl _ _
    have : l = [] := by simpa using hl
    subst this
    exact ⟨by simp [wordsBy], by simp [isolBy]⟩
  | succ n ih =>
    intro l hl hp h
    obtain ⟨u, r, rfl, h2, h3⟩ := run_and_rest p l
    have one : ∀ w ∈ oneWord u, w = u := by
      intro w hw
      unfold oneWord at hw
      split at hw <;> simp_all
    rcases h3 with rfl | ⟨d, t, rfl, hd⟩
    · rw [wordsBy_word h2 (l := []) (by simp), isolBy_word h2 (l := []) (by simp)]
      rw [List.append_nil] at h
      refine ⟨fun w hw => ?_, fun w hw => ?_⟩
      · rw [one w (by simpa [wordsBy] using hw)]; exact h
      · rw [one w (by simpa [isolBy] using hw)]; exact h
    · obtain ⟨k1, k2⟩ := hp d (by simp) hd
      obtain ⟨t1, t2⟩ := tame_cut k1 k2 u false h
      obtain ⟨i1, i2⟩ := ih t (by simp at hl; omega) (fun a ha => hp a (by simp [ha])) t2
      have e : isolBy p (d :: t) = [d] :: isolBy p t := by simp [isolBy, hd]
      rw [wordsBy_word h2 (by simp [hd]), isolBy_word h2 (by simp [hd]), wordsBy_delim hd, e]
      refine ⟨fun w hw => ?_, fun w hw => ?_⟩
      · rcases List.mem_append.1 hw with hw | hw
        · rw [one w hw]; exact t1
        · exact i1 w hw
      · rcases List.mem_append.1 hw with hw | hw
        · rw [one w hw]; exact t1
        · rcases List.mem_cons.1 hw with rfl | hw
          · simp [tame, k2]
          · exact i2 w hw

theorem wordsBy_free {p : α → Bool} : ∀ {l w : List α}, w ∈ wordsBy p l → ∀ a ∈ w, p a = false
  | [], w, h => by simp [wordsBy] at h
  | x :: l, w, h => by
    have ih := fun w h => wordsBy_free (p := p) (l := l) (w := w) h
    rw [wordsBy_cons] at h
    cases hx : p x with
    | true => rw [hx] at h; exact ih w h
    | false =>
      rw [hx] at h
      simp only [Bool.false_eq_true, if_false] at h
      split at h
      · next v vs _ e =>
        rcases List.mem_cons.1 h with rfl | h
        · intro a ha
          rcases List.mem_cons.1 ha with rfl | ha
          · exact hx
          · exact ih v (by rw [e]; simp) a ha
        · exact ih w (by rw [e]; simp [h])
      · rcases List.mem_cons.1 h with rfl | h
        · intro a ha
          rw [List.mem_singleton.1 ha]; exact hx
        · exact ih w h

end

/-! ## Normalizing strings with the same characters -/

/-- What a normalizer makes of strings with the same characters has the same characters. -/
def Carries (g : NormalizeFunc) (R R' : NS → Prop) : Prop := ∀ x y, SameChars x y → R x →
  ∃ x' y', g x = .ok (x', none) ∧ g y = .ok (y', none) ∧ SameChars x' y' ∧ R' x'

theorem Carries.pts {g : NormalizeFunc} {R R' : NS → Prop} (hg : Carries g R R') {P Q : PTS} (h : All2 PieceSame P.splits Q.splits)
    (hR : AllFree R P) : ∃ a b, P.normalize g = .ok (a, none) ∧ Q.normalize g = .ok (b, none) ∧ All2 PieceSame a.splits b.splits ∧ AllFree R' a := by
  suffices H : ∀ ss ts : List Piece, All2 PieceSame ss ts → (∀ sp ∈ ss, sp.tokens = none → R sp.ns) →
      ∃ as bs, PTS.normalizeLoop g ss = .ok (as, none) ∧ PTS.normalizeLoop g ts = .ok (bs, none) ∧ All2 PieceSame as bs
        ∧ ∀ sp ∈ as, sp.tokens = none → R' sp.ns by
    obtain ⟨as, bs, h1, h2, h3, h4⟩ := H _ _ h hR
    exact ⟨⟨P.original, as⟩, ⟨Q.original, bs⟩, by simp [PTS.normalize, h1], by simp [PTS.normalize, h2], h3, h4⟩
  intro ss ts h
  induction h with
  | nil => intro _; exact ⟨[], [], rfl, rfl, .nil, by simp⟩
  | @cons s t ss ts h _ ih =>
    intro hR
    obtain ⟨as, bs, h1, h2, h3, h4⟩ := ih fun x hx => hR x (by simp [hx])
    cases h with
    | same _ hn =>
      cases ht : s.tokens with
      | none => exact absurd ht hn
      | some ks =>
        refine ⟨s :: as, s :: bs, by simp [PTS.normalizeLoop, ht, h1], by simp [PTS.normalizeLoop, ht, h2], .cons (.same _ hn) h3, ?_⟩
        intro x hx hx'
        rcases List.mem_cons.1 hx with rfl | hx
        · exact absurd hx' hn
        · exact h4 x hx hx'
    | @placed x y ks h hp =>
      refine ⟨⟨x, some ks⟩ :: as, ⟨y, some ks⟩ :: bs, by simp [PTS.normalizeLoop, h1], by simp [PTS.normalizeLoop, h2], .cons (.placed h hp) h3, ?_⟩
      intro z hz hz'
      rcases List.mem_cons.1 hz with rfl | hz
      · cases hz'
      · exact h4 z hz hz'
    | @free x y h =>
      obtain ⟨x', y', g1, g2, g3, g4⟩ := hg x y h (hR ⟨x, none⟩ (by simp) rfl)
      refine ⟨⟨x', none⟩ :: as, ⟨y', none⟩ :: bs, by simp [PTS.normalizeLoop, g1, h1], by simp [PTS.normalizeLoop, g2, h2], .cons (.free g3) h3, ?_⟩
      intro z hz hz'
      rcases List.mem_cons.1 hz with rfl | hz
      · exact g4
      · exact h4 z hz hz'

theorem same_self {P : PTS} (h : WholePTS P) : All2 PieceSame P.splits P.splits := by
  unfold WholePTS at h
  revert h
  generalize P.splits = ss
  intro h
  induction ss with
  | nil => exact .nil
  | cons s ss ih =>
    refine .cons ?_ (ih fun x hx => h x (by simp [hx]))
    cases ht : s.tokens with
    | some ks => exact .same _ (by simp [ht])
    | none =>
      obtain ⟨x, t⟩ := s
      cases ht
      exact .free (.refl (h ⟨x, none⟩ (by simp) rfl))

theorem Carries.one {g : NormalizeFunc} {R R' : NS → Prop} (hg : Carries g R R') {P : PTS} (hw : ∀ ns, R ns → WholeNS ns) (hR : AllFree R P) :
    ∃ a, P.normalize g = .ok (a, none) ∧ AllFree R' a := by
  obtain ⟨a, -, h1, -, -, h2⟩ := hg.pts (same_self fun sp hsp ht => hw _ (hR sp hsp ht)) hR
  exact ⟨a, h1, h2⟩

/-- Strings with the same characters, the one like the other. -/
theorem all2_free {R : NS → Prop} (hR : ∀ x y, SameChars x y → R x → R y) {ss ts : List Piece} (h : All2 PieceSame ss ts)
    (hs : ∀ sp ∈ ts, sp.tokens = none → R sp.ns) : ∀ sp ∈ ss, sp.tokens = none → R sp.ns := by
  induction h with
  | nil => simp
  | @cons s t ss ts h _ ih =>
    intro x hx hn
    rcases List.mem_cons.1 hx with rfl | hx
    · cases h with
      | same _ h => exact absurd hn h
      | free h => exact hR _ _ h.symm (hs _ (List.mem_cons_self) rfl)
      | placed => cases hn
    · exact ih (fun z hz => hs z (by simp [hz])) x hx hn

theorem all2_trans {ss ts rs : List Piece} (h : All2 PieceSame ss ts) (h' : All2 PieceSame ts rs) : All2 PieceSame ss rs := by
  induction h generalizing rs with
  | nil => cases h'; exact .nil
  | cons h1 _ ih =>
    cases h' with
    | cons h2 h3 => exact .cons (h1.trans h2) (ih h3)

/-- Strings made of whole characters with a text in `Q`. -/
def OfText (Q : List Rune → Prop) (ns : NS) : Prop := WF ns ∧ ∃ cs, Repr ns cs ∧ Q (cs.map (·.1))

theorem OfText.whole {Q : List Rune → Prop} {ns : NS} (h : OfText Q ns) : WholeNS ns := by
  obtain ⟨h1, cs, h2, -⟩ := h
  exact ⟨h1, cs, h2⟩

theorem moved_runes {k l : Int} {cs ds : List Ch} (h : moveLeft k cs = moveLeft l ds) : cs.map (·.1) = ds.map (·.1) := by
  have := congrArg (List.map (·.1)) h
  rwa [moveLeft_runes, moveLeft_runes] at this

theorem OfText.same {Q : List Rune → Prop} {x y : NS} (h : SameChars x y) (hx : OfText Q x) : OfText Q y := by
  obtain ⟨h1, h2, cs, ds, h3, h4, h5⟩ := h
  obtain ⟨-, cs', k1, k2⟩ := hx
  have := h3.unique k1
  subst this
  exact ⟨h2, ds, h4, by rw [← moved_runes h5]; exact k2⟩

theorem carries_delete {drop : Rune → Bool} {Q Q' : List Rune → Prop} (h1 : ∀ cs : List Ch, Q (cs.map (·.1)) → GoodLead drop cs)
    (h2 : ∀ l, Q l → Q' (l.filter fun r => !drop r)) : Carries (deleteNormalize drop) (OfText Q) (OfText Q') := by
  intro x y h hx
  have hy := hx.same h
  obtain ⟨hwx, hwy, cs, ds, hcs, hds, he⟩ := h
  obtain ⟨-, cs', k1, qx⟩ := hx
  have := hcs.unique k1
  subst this
  obtain ⟨-, ds', k2, qy⟩ := hy
  have := hds.unique k2
  subst this
  obtain ⟨m, m1, m2, m3, m4⟩ := filter_good hcs (keep := fun r => !drop r) (fun _ => rfl) (h1 cs qx)
  obtain ⟨n, n1, n2, n3, n4⟩ := filter_good hds (keep := fun r => !drop r) (fun _ => rfl) (h1 ds qy)
  have mwf : WF m := Op.run_wf (op := .filter fun r => !drop r) hwx m1
  have nwf : WF n := Op.run_wf (op := .filter fun r => !drop r) hwy n1
  refine ⟨m, n, by simp [deleteNormalize, m1], by simp [deleteNormalize, n1], ⟨mwf, nwf, _, _, m2, n2, ?_⟩, mwf, _, m2, ?_⟩
  · rw [m4, n4, ← filter_moveLeft, ← filter_moveLeft, he]
  · have := h2 _ qx
    rw [List.filter_map] at this
    exact this

theorem moveLeft_mapCh (f : Rune → Rune) (k : Int) (cs : List Ch) : moveLeft k (cs.map (mapCh f)) = (moveLeft k cs).map (mapCh f) := by
  simp [moveLeft, mapCh, Function.comp_def]

theorem carries_map {f : Rune → Rune} {Q Q' : List Rune → Prop} (h : ∀ l, (∀ r ∈ l, ValidRune r) → Q l → Q' (l.map fun r => sanitize (f r))) :
    Carries (mapNormalize f) (OfText Q) (OfText Q') := by
  intro x y hxy hx
  obtain ⟨hwx, hwy, cs, ds, hcs, hds, he⟩ := hxy
  obtain ⟨-, cs', k1, qx⟩ := hx
  have := hcs.unique k1
  subst this
  obtain ⟨m, m1, m2, m3, m4⟩ := C05_map hcs f
  obtain ⟨n, n1, n2, n3, n4⟩ := C05_map hds f
  replace m2 : Repr m (cs.map (mapCh f)) := m2
  replace n2 : Repr n (ds.map (mapCh f)) := n2
  have mwf : WF m := Op.run_wf (op := .map f) hwx m1
  have nwf : WF n := Op.run_wf (op := .map f) hwy n1
  refine ⟨m, n, by simp [mapNormalize, m1], by simp [mapNormalize, n1], ⟨mwf, nwf, _, _, m2, n2, ?_⟩, mwf, _, m2, ?_⟩
  · rw [m4, n4, moveLeft_mapCh, moveLeft_mapCh, he]
  · have := h _ (fun r hr => by
      obtain ⟨c, hc, rfl⟩ := List.mem_map.1 hr
      exact hcs.valid c hc) qx
    simpa [mapCh, Function.comp_def] using this

theorem carries_chinese {Q Q' : List Rune → Prop} (h : ∀ l, Q l → Q' (spacedBy isChinese (fun _ => 0x20) l)) :
    Carries chineseNormalize (OfText Q) (OfText Q') := by
  intro x y hxy hx
  obtain ⟨hwx, hwy, cs, ds, hcs, hds, he⟩ := hxy
  obtain ⟨-, cs', k1, qx⟩ := hx
  have := hcs.unique k1
  subst this
  obtain ⟨m, m1, m2, m3, m4⟩ := handleChineseChars_spec hcs
  obtain ⟨n, n1, n2, n3, n4⟩ := handleChineseChars_spec hds
  have mwf : WF m := Op.run_wf (op := .transform ((runesOf x.normalized).flatMap chineseChange) 0) hwx m1
  have nwf : WF n := Op.run_wf (op := .transform ((runesOf y.normalized).flatMap chineseChange) 0) hwy n1
  have e : ∀ (k : Int) (l : List Ch), moveLeft k (l.flatMap fun x => if isChinese x.1 then [(0x20, x.2), x, (0x20, x.2)] else [x])
      = (moveLeft k l).flatMap fun x => if isChinese x.1 then [(0x20, x.2), x, (0x20, x.2)] else [x] := by
    intro k l
    induction l with
    | nil => rfl
    | cons c l ih =>
      have e1 : moveLeft k (c :: l) = moveLeft k [c] ++ moveLeft k l := rfl
      rw [e1, List.flatMap_cons, List.flatMap_append, ← ih]
      show List.map _ (_ ++ _) = _
      rw [List.map_append]
      congr 1
      cases hc : isChinese c.1 <;> simp [moveLeft, hc]
  refine ⟨m, n, by simp [chineseNormalize, m1], by simp [chineseNormalize, n1], ⟨mwf, nwf, _, _, m2, n2, ?_⟩, mwf, _, m2, ?_⟩
  · rw [m4, n4, e, e, he]
  · have := h _ qx
    have e2 : (cs.flatMap fun x => if isChinese x.1 then [(0x20, x.2), x, (0x20, x.2)] else [x]).map (·.1)
        = spacedBy isChinese (fun _ => 0x20) (cs.map (·.1)) := by
      unfold spacedBy
      rw [List.map_flatMap, List.flatMap_map]
      congr 1
      funext c
      cases hc : isChinese c.1 <;> simp
    rw [e2]
    exact this

/-! ## One normalizer after another -/

/-- One normalizer after the other, as far as there is no error. -/
def thenNorm (g g' : NormalizeFunc) : NormalizeFunc := fun ns => do
  let (ns, e) ← g ns
  match e with
  | some e => pure (ns, some e)
  | none => g' ns

theorem normalize_thenNorm {g g' : NormalizeFunc} {P a c : PTS} (h : P.normalize g = .ok (a, none)) (h' : a.normalize g' = .ok (c, none)) :
    P.normalize (thenNorm g g') = .ok (c, none) := by
  suffices H : ∀ ps as cs : List Piece, PTS.normalizeLoop g ps = .ok (as, none) → PTS.normalizeLoop g' as = .ok (cs, none) →
      PTS.normalizeLoop (thenNorm g g') ps = .ok (cs, none) by
    simp only [PTS.normalize, GoM.bind_eq_ok] at h h' ⊢
    obtain ⟨⟨as, e⟩, h1, h2⟩ := h
    simp only [GoM.pure_eq, GoM.ok.injEq, Prod.mk.injEq] at h2
    obtain ⟨rfl, rfl⟩ := h2
    obtain ⟨⟨cs, e⟩, h3, h4⟩ := h'
    simp only [GoM.pure_eq, GoM.ok.injEq, Prod.mk.injEq] at h4
    obtain ⟨rfl, rfl⟩ := h4
    exact ⟨(cs, none), H _ _ _ h1 h3, rfl⟩
  intro ps
  induction ps with
  | nil =>
    intro as cs h h'
    simp only [PTS.normalizeLoop, GoM.ok.injEq, Prod.mk.injEq, and_true] at h
    subst h
    exact h'
  | cons sp ps ih =>
    intro as cs h h'
    cases ht : sp.tokens with
    | some ks =>
      simp only [PTS.normalizeLoop, ht, GoM.bind_eq_ok] at h
      obtain ⟨⟨as1, e⟩, h1, h2⟩ := h
      simp only [GoM.pure_eq, GoM.ok.injEq, Prod.mk.injEq] at h2
      obtain ⟨rfl, rfl⟩ := h2
      simp only [PTS.normalizeLoop, ht, GoM.bind_eq_ok] at h'
      obtain ⟨⟨cs1, e⟩, h3, h4⟩ := h'
      simp only [GoM.pure_eq, GoM.ok.injEq, Prod.mk.injEq] at h4
      obtain ⟨rfl, rfl⟩ := h4
      simp [PTS.normalizeLoop, ht, ih as1 cs1 h1 h3]
    | none =>
      simp only [PTS.normalizeLoop, ht, GoM.bind_eq_ok] at h
      obtain ⟨⟨n, e⟩, h1, h2⟩ := h
      cases e with
      | some e => simp at h2
      | none =>
        simp only [GoM.bind_eq_ok] at h2
        obtain ⟨⟨as1, e⟩, h2, h3⟩ := h2
        simp only [GoM.pure_eq, GoM.ok.injEq, Prod.mk.injEq] at h3
        obtain ⟨rfl, rfl⟩ := h3
        simp only [PTS.normalizeLoop, GoM.bind_eq_ok] at h'
        obtain ⟨⟨n', e⟩, k1, k2⟩ := h'
        cases e with
        | some e => simp at k2
        | none =>
          simp only [GoM.bind_eq_ok] at k2
          obtain ⟨⟨cs1, e⟩, k2, k3⟩ := k2
          simp only [GoM.pure_eq, GoM.ok.injEq, Prod.mk.injEq] at k3
          obtain ⟨rfl, rfl⟩ := k3
          simp [PTS.normalizeLoop, ht, thenNorm, h1, k1, ih as1 cs1 h2 k2]

theorem bertNormalize_default (u : Uni) : bertNormalize u BertCfg.default = thenNorm (deleteNormalize (bertDropped u))
    (thenNorm (mapNormalize cleanMap) (thenNorm chineseNormalize (thenNorm (deleteNormalize u.isMn) (mapNormalize u.toLower)))) := by
  funext ns
  simp only [bertNormalize, BertCfg.default, if_true, thenNorm, deleteNormalize, mapNormalize, chineseNormalize, cleanText, stripAccents, NS.toLower,
    cleanKeep_dropped]
  cases ns.filter fun r => !bertDropped u r with
  | panic => rfl
  | ok n1 =>
    simp only [GoM.bind_ok, GoM.pure_eq]
    cases n1.map cleanMap with
    | panic => rfl
    | ok n2 =>
      simp only [GoM.bind_ok]
      cases handleChineseChars n2 with
      | panic => rfl
      | ok n3 =>
        simp only [GoM.bind_ok]
        cases n3.filter fun r => !u.isMn r <;> rfl

theorem bertNormalize_words (u : Uni) : bertNormalize u ⟨true, false, true, true⟩ = thenNorm (deleteNormalize (bertDropped u))
    (thenNorm (mapNormalize cleanMap) (thenNorm (deleteNormalize u.isMn) (mapNormalize u.toLower))) := by
  funext ns
  simp only [bertNormalize, Bool.false_eq_true, if_false, if_true, thenNorm, deleteNormalize, mapNormalize, cleanText, stripAccents, NS.toLower,
    cleanKeep_dropped]
  cases ns.filter fun r => !bertDropped u r with
  | panic => rfl
  | ok n1 =>
    simp only [GoM.bind_ok, GoM.pure_eq]
    cases n1.map cleanMap with
    | panic => rfl
    | ok n2 =>
      simp only [GoM.bind_ok]
      cases n2.filter fun r => !u.isMn r <;> rfl

/-! ## One split after another -/

theorem DeletesLike.then {drop : Rune → Bool} {T : PreTokenizer} {pattern : SplitPattern} {b : Behavior} {cut : List Ch → List (List Ch)}
    {seg : List Rune → List (Bool × List Rune)} (hc : Cuts pattern b cut) (hs : CutsSegs pattern seg) {P : PTS} (h : DeletesLike drop T P)
    (hq : ∀ q, T P = .ok (q, none) → AllFree (DropsWell drop cut) q) :
    DeletesLike drop (thenPre T fun P => P.split (splitByPattern pattern b)) P := by
  obtain ⟨a, b1, q, c1, h1, h2, h3, h4, h5⟩ := h
  obtain ⟨c1', d2, q2, c2, g1, g2, g3, g4, g5⟩ := C122_pts hc (P := q) (hq q h3)
  have : c1' = c1 := by rw [h4] at g1; simpa using g1.symm
  subst this
  obtain ⟨b2, d2', r1, r2, r3⟩ := C121_pts hs b b1 c1' h5
  have : d2' = d2 := by
    have g2 : c1'.split (splitByPattern pattern b) = .ok (d2, none) := g2
    have r2 : c1'.split (splitByPattern pattern b) = .ok (d2', none) := r2
    rw [r2] at g2; simpa using g2
  subst this
  simp only at r1 g3
  exact ⟨a, b2, q2, c2, h1, by simp [thenPre, h2, r1], by simp [thenPre, h3, g3], g4, .after r3 g5⟩

/-- The texts of the pieces of a text. -/
theorem split_text {pattern : SplitPattern} {b : Behavior} {cut : List Ch → List (List Ch)} (hc : Cuts pattern b cut) {Q Q' : List Rune → Prop}
    (h : ∀ cs : List Ch, Q (cs.map (·.1)) → ∀ w ∈ cut cs, Q' (w.map (·.1))) {P : PTS} (hP : AllFree (OfText Q) P) :
    ∃ q, P.split (splitByPattern pattern b) = .ok (q, none) ∧ AllFree (OfText Q') q ∧ NoEmpty q := by
  obtain ⟨q, h1, h2⟩ := split_free (pattern := pattern) (b := b) (P := P) (R := OfText Q') (fun sp hsp ht => by
    obtain ⟨hwf, cs, k1, k2⟩ := hP sp hsp ht
    obtain ⟨qs, f1, f2⟩ := hc.pieces hwf k1
    refine ⟨qs, f1, ?_⟩
    rw [f2]
    intro x hx
    obtain ⟨w, hw, rfl⟩ := List.mem_map.1 hx
    obtain ⟨w0, u, v, e⟩ := hc.parts cs w hw
    obtain ⟨a1, a2, -⟩ := pieceOf_chars hwf (by rw [← e]; exact k1) w0
    refine ⟨a1, _, a2, ?_⟩
    rw [moveLeft_runes]
    exact h cs k2 w hw)
  exact ⟨q, h1, fun sp hsp ht => (h2 sp hsp ht).1, fun sp hsp ht => (h2 sp hsp ht).2⟩

/-! ## The BERT normalizer -/

open Unicode (uni inTable disjoint disjoint_spec tableMn tableC toLower)

/-- Chinese characters are neither deleted by text cleaning nor marks. -/
theorem chinese_apart (r : Rune) (h : isChinese r = true) : bertDropped uni r = false ∧ uni.isMn r = false := by
  have ht : inTable [(0x3400, 0x4dbf), (0x4e00, 0x9fff), (0xf900, 0xfaff), (0x20000, 0x2a6df), (0x2a700, 0x2b73f), (0x2b740, 0x2b81f),
      (0x2b920, 0x2ceaf), (0x2f800, 0x2fa1f)] r = true := by
    simp only [isChinese, Bool.or_eq_true, Bool.and_eq_true, decide_eq_true_eq] at h
    simp only [inTable, List.any_cons, List.any_nil, Bool.or_false, Bool.and_eq_true, Bool.or_eq_true, decide_eq_true_eq, Nat.ble_eq]
    omega
  have d1 : disjoint [(0x3400, 0x4dbf), (0x4e00, 0x9fff), (0xf900, 0xfaff), (0x20000, 0x2a6df), (0x2a700, 0x2b73f), (0x2b740, 0x2b81f),
      (0x2b920, 0x2ceaf), (0x2f800, 0x2fa1f)] tableC = true := by decide +kernel
  have d2 : disjoint [(0x3400, 0x4dbf), (0x4e00, 0x9fff), (0xf900, 0xfaff), (0x20000, 0x2a6df), (0x2a700, 0x2b73f), (0x2b740, 0x2b81f),
      (0x2b920, 0x2ceaf), (0x2f800, 0x2fa1f)] tableMn = true := by decide +kernel
  refine ⟨?_, disjoint_spec d2 r ht⟩
  have h0 : uni.isOther r = false := disjoint_spec d1 r ht
  have h1 : (r == 0) = false := by
    cases e : r == 0 with
    | false => rfl
    | true => rw [show r = 0 from by simpa using e] at h; revert h; decide +kernel
  have h2 : (r == 0xFFFD) = false := by
    cases e : r == 0xFFFD with
    | false => rfl
    | true => rw [show r = 0xFFFD from by simpa using e] at h; revert h; decide +kernel
  simp only [bertDropped, h0, h1, h2, Bool.false_and, Bool.or_self]

/-- The runes that the normalizer deletes. -/
def bertLost (r : Rune) : Bool := bertDropped uni r || uni.isMn r

/-- The runes at which the text is cut. -/
def bertCut (r : Rune) : Bool := isWhiteSpace r || isChinese r || uni.isPunct r

/-- Texts in which every rune that is deleted stands behind one that is not, in its own piece, and none is white space. -/
def TameText (l : List Rune) : Prop := tame bertCut bertLost false l = true ∧ ∀ r ∈ l, isWhiteSpace r = true → bertDropped uni r = false

instance (l : List Rune) : Decidable (TameText l) := by unfold TameText; infer_instance

/-- The same for words: no white space. -/
def TameWord (l : List Rune) : Prop := TameText l ∧ ∀ r ∈ l, isWhiteSpace r = false

/-- The same for words that are there. -/
def TameSome (l : List Rune) : Prop := TameWord l ∧ l ≠ []

theorem TameText.cut {l : List Rune} (h : TameText l) {r : Rune} (hr : r ∈ l) (hc : bertCut r = true) : bertLost r = false := by
  unfold bertLost
  simp only [bertCut, Bool.or_eq_true] at hc
  rcases hc with (hc | hc) | hc
  · rw [h.2 r hr hc, marks_apart r (.inl hc)]; rfl
  · rw [(chinese_apart r hc).1, (chinese_apart r hc).2]; rfl
  · rw [dropped_apart r hc, marks_apart r (.inr hc)]; rfl

theorem TameText.cuts {p : Rune → Bool} (hp : ∀ r, p r = true → bertCut r = true) (cs : List Ch) (h : TameText (cs.map (·.1))) :
    (∀ w ∈ wordsBy (fun c => p c.1) cs, TameText (w.map (·.1))) ∧ ∀ w ∈ isolBy (fun c => p c.1) cs, TameText (w.map (·.1)) := by
  have h1 := h.1
  rw [tame_map] at h1
  obtain ⟨w1, w2⟩ := tame_words (p := fun c : Ch => p c.1) (fun c hc hpc => ⟨hp _ hpc, h.cut (List.mem_map_of_mem hc) (hp _ hpc)⟩) h1
  refine ⟨fun w hw => ⟨by rw [tame_map]; exact w1 w hw, fun r hr => h.2 r ?_⟩, fun w hw => ⟨by rw [tame_map]; exact w2 w hw, fun r hr => h.2 r ?_⟩⟩
  · obtain ⟨-, u, v, e⟩ := (cuts_removed p).parts cs w hw
    rw [e]; simp [List.mem_map.1 hr]
  · obtain ⟨-, u, v, e⟩ := (cuts_isolated p).parts cs w hw
    rw [e]; simp [List.mem_map.1 hr]

theorem TameText.lead {drop : Rune → Bool} (hd : ∀ r, drop r = true → bertLost r = true) {cs : List Ch} (h : TameText (cs.map (·.1))) :
    GoodLead drop cs := by
  right
  cases cs with
  | nil => intro c hc; cases hc
  | cons c cs =>
    have h1 := h.1
    simp only [List.map_cons, tame, Bool.false_and] at h1
    have : bertLost c.1 = false := by
      cases e : bertLost c.1 with
      | false => rfl
      | true => rw [e] at h1; simp at h1
    have : drop c.1 = false := by
      cases e : drop c.1 with
      | false => rfl
      | true => rw [hd _ e] at this; cases this
    simp [this, AsciiChars]

theorem TameText.delete {drop : Rune → Bool} (hd : ∀ r, drop r = true → bertLost r = true) {l : List Rune} (h : TameText l) :
    TameText (l.filter fun r => !drop r) :=
  ⟨tame_filter hd l false h.1, fun r hr => h.2 r (List.mem_filter.1 hr).1⟩

theorem TameSome.delete {drop : Rune → Bool} (hd : ∀ r, drop r = true → bertLost r = true) {l : List Rune} (h : TameSome l) :
    TameSome (l.filter fun r => !drop r) := by
  refine ⟨⟨h.1.1.delete hd, fun r hr => h.1.2 r (List.mem_filter.1 hr).1⟩, ?_⟩
  cases l with
  | nil => exact absurd rfl h.2
  | cons r l =>
    have h1 := h.1.1.1
    simp only [tame, Bool.false_and] at h1
    have : bertLost r = false := by
      cases e : bertLost r with
      | false => rfl
      | true => rw [e] at h1; simp at h1
    have : drop r = false := by
      cases e : drop r with
      | false => rfl
      | true => rw [hd _ e] at this; cases this
    simp [this]

theorem bertIsWhitespace_eq (r : Rune) : bertIsWhitespace r = isWhiteSpace r := by
  unfold bertIsWhitespace
  split
  · next h => rcases h with rfl | rfl | rfl <;> rfl
  · rfl

theorem space_kept : bertLost 0x20 = false ∧ bertCut 0x20 = true ∧ isWhiteSpace 0x20 = true ∧ bertDropped uni 0x20 = false := by decide +kernel

theorem TameText.clean {l : List Rune} (hv : ∀ r ∈ l, ValidRune r) (h : TameText l) : TameText (l.map fun r => sanitize (cleanMap r)) := by
  have e : ∀ r ∈ l, sanitize (cleanMap r) = if isWhiteSpace r then 0x20 else r := by
    intro r hr
    unfold cleanMap
    rw [bertIsWhitespace_eq]
    split
    · rfl
    · exact sanitize_of_valid (hv r hr)
  obtain ⟨s1, s2, s3, s4⟩ := space_kept
  refine ⟨?_, ?_⟩
  · rw [tame_congr l false fun r hr => ?_]
    · exact h.1
    · rw [e r hr]
      cases hw : isWhiteSpace r with
      | false => simp
      | true =>
        have hc : bertCut r = true := by simp [bertCut, hw]
        simp [s1, s2, h.cut hr hc, hc]
  · intro x hx hw
    obtain ⟨r, hr, rfl⟩ := List.mem_map.1 hx
    rw [e r hr] at hw ⊢
    cases hr' : isWhiteSpace r with
    | false => rw [hr'] at hw; simp only [Bool.false_eq_true, if_false] at hw; rw [hr'] at hw; cases hw
    | true => simp [s4]

theorem TameText.chinese {l : List Rune} (h : TameText l) : TameText (spacedBy isChinese (fun _ => 0x20) l) := by
  obtain ⟨s1, s2, s3, s4⟩ := space_kept
  refine ⟨?_, ?_⟩
  · rw [tame_spacedBy (fun _ => ⟨s2, s1⟩) fun r hr => ⟨by simp [bertCut, hr], by simp [bertLost, chinese_apart r hr]⟩]
    exact h.1
  · intro r hr hw
    obtain ⟨x, hx, hr⟩ := List.mem_flatMap.1 hr
    split at hr
    · simp only [List.mem_cons, List.not_mem_nil, or_false] at hr
      rcases hr with rfl | rfl | rfl
      · exact s4
      · exact h.2 _ hx hw
      · exact s4
    · rw [List.mem_singleton.1 hr] at hw ⊢
      exact h.2 _ hx hw

/-- Cutting at white space, around Chinese characters, and around punctuation. -/
def bertPieces : PreTokenizer := thenPre (thenPre whiteSpaceSplit (isolating isChinese)) (isolating uni.isPunct)

theorem dropped_lost (r : Rune) (h : bertDropped uni r = true) : bertLost r = true := by simp [bertLost, h]

theorem marks_lost (r : Rune) (h : uni.isMn r = true) : bertLost r = true := by simp [bertLost, h]

theorem TameText.well {drop p : Rune → Bool} (hd : ∀ r, drop r = true → bertLost r = true) (hp : ∀ r, p r = true → bertCut r = true) {ns : NS}
    (h : OfText TameText ns) : DropsWell drop (wordsBy fun c => p c.1) ns ∧ DropsWell drop (isolBy fun c => p c.1) ns := by
  obtain ⟨hwf, cs, h1, h2⟩ := h
  have hk : ∀ c ∈ cs, p c.1 = true → drop c.1 = false := by
    intro c hc hpc
    have := h2.cut (List.mem_map_of_mem hc) (hp _ hpc)
    cases e : drop c.1 with
    | false => rfl
    | true => rw [hd _ e] at this; cases this
  obtain ⟨w1, w2⟩ := TameText.cuts hp cs h2
  exact ⟨⟨hwf, cs, h1, cutsLeft_removed hk, h2.lead hd, fun w hw => (w1 w hw).lead hd⟩,
    ⟨hwf, cs, h1, cutsLeft_isolated hk, h2.lead hd, fun w hw => (w2 w hw).lead hd⟩⟩

theorem white_cut (r : Rune) (h : isWhiteSpace r = true) : bertCut r = true := by simp [bertCut, h]
theorem chinese_cut (r : Rune) (h : isChinese r = true) : bertCut r = true := by simp [bertCut, h]
theorem punct_cut (r : Rune) (h : uni.isPunct r = true) : bertCut r = true := by simp [bertCut, h]

theorem OfText.mono {Q Q' : List Rune → Prop} (h : ∀ l, Q l → Q' l) {P : PTS} (hP : AllFree (OfText Q) P) : AllFree (OfText Q') P := by
  intro sp hsp ht
  obtain ⟨h1, cs, h2, h3⟩ := hP sp hsp ht
  exact ⟨h1, cs, h2, h _ h3⟩

/-- The pieces. -/
theorem bertPieces_text {P : PTS} (h : AllFree (OfText TameText) P) : ∃ q1 q2 q3, whiteSpaceSplit P = .ok (q1, none)
    ∧ thenPre whiteSpaceSplit (isolating isChinese) P = .ok (q2, none) ∧ bertPieces P = .ok (q3, none)
    ∧ AllFree (OfText TameWord) q1 ∧ AllFree (OfText TameWord) q2 ∧ AllFree (OfText TameSome) q3 := by
  obtain ⟨q1, e1, t1, -⟩ := split_text (cuts_removed isWhiteSpace) (Q := TameText) (Q' := TameWord) (fun cs hcs w hw =>
    ⟨(TameText.cuts white_cut cs hcs).1 w hw, fun r hr => by
      obtain ⟨c, hc, rfl⟩ := List.mem_map.1 hr
      exact wordsBy_free hw c hc⟩) h
  have iso : ∀ {p : Rune → Bool}, (∀ r, p r = true → bertCut r = true) → ∀ cs : List Ch, TameWord (cs.map (·.1)) →
      ∀ w ∈ isolBy (fun c => p c.1) cs, TameSome (w.map (·.1)) := by
    intro p hp cs hcs w hw
    obtain ⟨w0, u, v, e⟩ := (cuts_isolated p).parts cs w hw
    refine ⟨⟨(TameText.cuts hp cs hcs.1).2 w hw, fun r hr => hcs.2 r ?_⟩, by simpa using w0⟩
    rw [e]; simp [List.mem_map.1 hr]
  obtain ⟨q2, e2, t2, -⟩ := split_text (cuts_isolated isChinese) (Q := TameWord) (Q' := TameSome) (iso chinese_cut) t1
  have t2' := OfText.mono (fun l (hl : TameSome l) => hl.1) t2
  obtain ⟨q3, e3, t3, -⟩ := split_text (cuts_isolated uni.isPunct) (Q := TameWord) (Q' := TameSome) (iso punct_cut) t2'
  have e1' : whiteSpaceSplit P = .ok (q1, none) := e1
  have e2' : thenPre whiteSpaceSplit (isolating isChinese) P = .ok (q2, none) := by simp [thenPre, e1', isolating, e2]
  refine ⟨q1, q2, q3, e1', e2', ?_, t1, t2', t3⟩
  show thenPre (thenPre whiteSpaceSplit (isolating isChinese)) (isolating uni.isPunct) P = _
  simp only [thenPre] at e2' ⊢
  rw [e2']
  simp [isolating, e3]

/-- Deleting control characters before or after the text is cut. -/
theorem bertPieces_delete {P : PTS} (h : AllFree (OfText TameText) P) : DeletesLike (bertDropped uni) bertPieces P := by
  obtain ⟨q1, q2, q3, e1, e2, -, t1, t2, -⟩ := bertPieces_text h
  have d1 : DeletesLike (bertDropped uni) whiteSpaceSplit P := C122_pts (cuts_removed _) fun sp hsp ht =>
    (TameText.well dropped_lost white_cut (h sp hsp ht)).1
  have d2 := d1.then (cuts_isolated isChinese) (fromFunc_cuts _) (fun q hq => by
    have : q = q1 := by rw [e1] at hq; simpa using hq.symm
    subst this
    exact fun sp hsp ht => (TameText.well dropped_lost chinese_cut (OfText.mono (fun l (hl : TameWord l) => hl.1) t1 sp hsp ht)).2)
  exact d2.then (cuts_isolated uni.isPunct) (fromFunc_cuts _) (fun q hq => by
    have : q = q2 := by
      have hq : thenPre whiteSpaceSplit (isolating isChinese) P = .ok (q, none) := hq
      rw [e2] at hq; simpa using hq.symm
    subst this
    exact fun sp hsp ht => (TameText.well dropped_lost punct_cut (OfText.mono (fun l (hl : TameWord l) => hl.1) t2 sp hsp ht)).2)

theorem TameSome.noEmpty {P : PTS} (h : AllFree (OfText TameSome) P) : NoEmpty P := by
  intro sp hsp ht
  obtain ⟨-, cs, h1, h2⟩ := h sp hsp ht
  have : cs ≠ [] := by
    intro e
    subst e
    exact h2.2 rfl
  simp only [NS.isEmpty, h1.text_eq]
  cases cs with
  | nil => exact absurd rfl this
  | cons c cs =>
    cases e : encodeRune c.1 with
    | nil => exact absurd e (encodeRune_ne_nil c.1)
    | cons x y => simp [text, encodeRunes, e]

/-- **C123.**  The BERT normalizer and then the BERT pre-tokenizer: to cut the text at white space, around Chinese characters and around
punctuation, and then to normalize the pieces. -/
theorem C123_bert {P : PTS} (h : AllFree (OfText TameText) P) : ∃ a b q c, P.normalize (bertNormalize uni BertCfg.default) = .ok (a, none)
    ∧ bertPreTokenize uni a = .ok (b, none) ∧ bertPieces P = .ok (q, none)
    ∧ q.normalize (bertNormalize uni ⟨true, false, true, true⟩) = .ok (c, none) ∧ All2 PieceSame b.splits c.splits := by
  -- control characters
  obtain ⟨a1, b1, q, c1, h1, h2, h3, h4, h5⟩ := bertPieces_delete h
  obtain ⟨q1, q2, q', e1, e2, e3, -, -, tq⟩ := bertPieces_text h
  have : q' = q := by rw [h3] at e3; simpa using e3.symm
  subst this
  have cd : Carries (deleteNormalize (bertDropped uni)) (OfText TameText) (OfText TameText) :=
    carries_delete (fun cs hcs => hcs.lead dropped_lost) fun l hl => hl.delete dropped_lost
  have cd' : ∀ {drop : Rune → Bool}, (∀ r, drop r = true → bertLost r = true) →
      Carries (deleteNormalize drop) (OfText TameSome) (OfText TameSome) := fun hd =>
    carries_delete (fun cs hcs => TameText.lead hd hcs.1.1) fun l hl => hl.delete hd
  obtain ⟨a1', n1, ta1⟩ := cd.one (fun ns => OfText.whole) h
  have : a1' = a1 := by rw [h1] at n1; simpa using n1.symm
  subst this
  obtain ⟨c1', n2, tc1⟩ := (cd' dropped_lost).one (fun ns => OfText.whole) tq
  have : c1' = c1 := by rw [h4] at n2; simpa using n2.symm
  subst this
  obtain ⟨-, -, b1', -, -, f3, -, -, tb1⟩ := bertPieces_text ta1
  have : b1' = b1 := by rw [h2] at f3; simpa using f3.symm
  subst this
  have s1 : All2 PieceSame b1'.splits c1'.splits := h5.all2 (TameSome.noEmpty tb1) (TameSome.noEmpty tc1)
  -- white space
  obtain ⟨a2, n3, ta2⟩ := (carries_map (f := cleanMap) (Q := TameText) (Q' := TameText) fun l hv hl => hl.clean hv).one
    (fun ns => OfText.whole) ta1
  obtain ⟨a2', w, u1, u2, u3⟩ := C119_whiteSpaceSplit (g := mapNormalize cleanMap) (p := a1') fun sp hsp ht => keeps_map
    (fun r _ hp => by simp [cleanMap, bertIsWhitespace_eq, hp]) (fun r _ hp => by
      simp only [cleanMap, bertIsWhitespace_eq, hp, if_true]; decide +kernel) (ta1 sp hsp ht).whole
  have : a2' = a2 := by rw [n3] at u1; simpa using u1.symm
  subst this
  have h2' : bertPieces a2' = .ok (b1', none) := by
    rw [← h2]
    simp only [bertPieces, thenPre, u2, u3]
  have cid : c1'.normalize (mapNormalize cleanMap) = .ok (c1', none) := by
    have hid : ∀ ns, OfText TameSome ns → mapNormalize cleanMap ns = .ok (ns, none) := by
      intro ns hns
      obtain ⟨hwf, cs, k1, k2⟩ := hns
      obtain ⟨m, m1, m2, m3, m4⟩ := C05_map k1 cleanMap
      have : (cs.map fun c => (sanitize (cleanMap c.1), c.2)) = cs := by
        conv => rhs; rw [← List.map_id cs]
        apply List.map_congr_left
        intro c hc
        have hw := k2.1.2 c.1 (List.mem_map_of_mem hc)
        simp only [cleanMap, bertIsWhitespace_eq, hw, Bool.false_eq_true, if_false, sanitize_of_valid (k1.valid c hc), id_eq]
      rw [this] at m2
      have : m = ns := m2.ext k1 m3 m4
      subst this
      simp [mapNormalize, m1]
    have H : ∀ ps : List Piece, (∀ sp ∈ ps, sp.tokens = none → OfText TameSome sp.ns) → PTS.normalizeLoop (mapNormalize cleanMap) ps = .ok (ps, none) := by
      intro ps
      induction ps with
      | nil => intro _; rfl
      | cons sp ps ih =>
        intro hps
        have ih := ih fun x hx => hps x (by simp [hx])
        obtain ⟨x, t⟩ := sp
        cases t with
        | some ks => simp [PTS.normalizeLoop, ih]
        | none => simp [PTS.normalizeLoop, hid x (hps ⟨x, none⟩ (by simp) rfl), ih]
    simp [PTS.normalize, H _ tc1]
  -- Chinese characters
  obtain ⟨a3, n4, ta3⟩ := (carries_chinese (Q := TameText) (Q' := TameText) fun l hl => hl.chinese).one (fun ns => OfText.whole) ta2
  obtain ⟨a3', b1'', v1, v2, v3⟩ := C120_bert uni (P := a2') fun sp hsp ht => (ta2 sp hsp ht).whole
  have : a3' = a3 := by rw [n4] at v1; simpa using v1.symm
  subst this
  have : b1'' = b1' := by
    have v3 : bertPieces a2' = .ok (b1'', none) := v3
    rw [h2'] at v3; simpa using v3.symm
  subst this
  -- marks
  obtain ⟨a4, b4, q4, c4, k1, k2, k3, k4, k5⟩ := C122_accents (P := a3') fun sp hsp ht => by
    obtain ⟨hwf, cs, m1, m2⟩ := ta3 sp hsp ht
    refine ⟨hwf, cs, m1, m2.lead marks_lost, fun w hw => ?_⟩
    have m3 := (TameText.cuts white_cut cs m2).1 w hw
    exact ⟨m3.lead marks_lost, fun v hv => ((TameText.cuts punct_cut w m3).2 v hv).lead marks_lost⟩
  have : q4 = b1'' := by rw [v2] at k3; simpa using k3.symm
  subst this
  obtain ⟨c4', c5, l1, l2, l3, tc4⟩ := (cd' marks_lost).pts s1 tb1
  have : c4' = c4 := by rw [k4] at l1; simpa using l1.symm
  subst this
  have w4 : WholePTS a4 := by
    obtain ⟨a4', n5, ta4⟩ := (carries_delete (drop := uni.isMn) (Q := TameText) (Q' := TameText) (fun cs hcs => hcs.lead marks_lost)
      fun l hl => hl.delete marks_lost).one (fun ns => OfText.whole) ta3
    have : a4' = a4 := by rw [k1] at n5; simpa using n5.symm
    subst this
    exact fun sp hsp ht => (ta4 sp hsp ht).whole
  have nb4 : NoEmpty b4 := by
    obtain ⟨x, x1, x2⟩ := split_whole isWhiteSpace .removed w4
    obtain ⟨y, y1, y2⟩ := split_free (pattern := fromFunc uni.isPunct) (b := .isolated) (P := x) (R := fun _ => True) (fun sp hsp ht => by
      obtain ⟨hwf, cs, k⟩ := x2 sp hsp ht
      obtain ⟨qs, f1, -⟩ := (cuts_isolated uni.isPunct).pieces hwf k
      exact ⟨qs, f1, fun _ _ => trivial⟩)
    have : b4 = y := by
      have e : bertPreTokenize uni a4 = .ok (y, none) := by
        show (do let (p, e) ← a4.split (splitByPattern (fromFunc isWhiteSpace) .removed)
                 match e with | some e => pure (p, some e) | none => p.split (splitByPattern (fromFunc uni.isPunct) .isolated)) = _
        simp only [x1, GoM.bind_ok, y1]
      rw [k2] at e; simpa using e
    subst this
    exact fun sp hsp ht => (y2 sp hsp ht).2
  have s4 : All2 PieceSame b4.splits c4'.splits := k5.all2 nb4 (TameSome.noEmpty tc4)
  -- lower case
  obtain ⟨a5, b5, q5, o1, o2, o3, o4, -⟩ := C118_lower.2.1 a4 w4
  have : q5 = b4 := by rw [k2] at o3; simpa using o3.symm
  subst this
  obtain ⟨b5', c6, p1, p2, p3, -⟩ := (carries_map (f := toLower) (Q := TameSome) (Q' := fun _ => True) fun _ _ _ => trivial).pts
    (all2_trans s4 l3) (fun sp hsp ht => all2_free (fun x y hxy hx => hx.same hxy) s4 tc4 sp hsp ht)
  have : b5' = b5 := by rw [o4] at p1; simpa using p1.symm
  subst this
  refine ⟨a5, b5', q', c6, ?_, o2, h3, ?_, p3⟩
  · rw [bertNormalize_default]
    exact normalize_thenNorm h1 (normalize_thenNorm n3 (normalize_thenNorm n4 (normalize_thenNorm k1 o1)))
  · rw [bertNormalize_words]
    exact normalize_thenNorm h4 (normalize_thenNorm cid (normalize_thenNorm l2 p2))

/-- Splits with the same characters: the same encoding. -/
theorem encodeWith_same {tok : NS → GoM (Except Err (List Token))} (ht : ByText tok) (wi ti : Int) {P Q : PTS} (h : All2 PieceSame P.splits Q.splits) :
    encodeWith tok wi ti P = encodeWith tok wi ti Q := by
  unfold encodeWith
  rcases C121_tokenize ht h with ⟨e1, e2⟩ | ⟨a, b, e, e1, e2, e3⟩
  · rw [e1, e2]
  · rw [e1, e2]
    cases e with
    | some e => rfl
    | none => simp only [GoM.bind_ok]; exact C121_intoEncoding e3 wi ti

/-- **C123, texts.**  For a text: the same splits and, whatever the model, the same encoding. -/
theorem C123_encoding {s : Str} (hs : ValidUtf8 s) (h : TameText (runesOf s)) : ∃ a b q c,
    (PTS.fromString s).normalize (bertNormalize uni BertCfg.default) = .ok (a, none) ∧ bertPreTokenize uni a = .ok (b, none)
    ∧ bertPieces (PTS.fromString s) = .ok (q, none) ∧ q.normalize (bertNormalize uni ⟨true, false, true, true⟩) = .ok (c, none)
    ∧ b.getNormalizedByteSplits = c.getNormalizedByteSplits
    ∧ ∀ (tok : NS → GoM (Except Err (List Token))), ByText tok → ∀ wi ti, encodeWith tok wi ti b = encodeWith tok wi ti c := by
  obtain ⟨a, b, q, c, h1, h2, h3, h4, h5⟩ := C123_bert (P := PTS.fromString s) (by
    intro sp hsp _
    have : sp = ⟨NS.fromString s, none⟩ := by simpa [PTS.fromString, PTS.fromNormalizedString] using hsp
    subst this
    refine ⟨C02_history_wf hs (ops := []) rfl, _, fromString_repr hs, ?_⟩
    have := (fromString_repr hs).runes
    rw [← this]
    exact h)
  exact ⟨a, b, q, c, h1, h2, h3, h4, C121_normalizedByteSplits h5, fun tok ht wi ti => encodeWith_same ht wi ti h5⟩

/-! ## Cases -/

/-- A text with marks, control characters, Chinese characters and punctuation. -/
example : TameText (runesOf b!"Cafe\u0301, \u00c0b\u0001c\t中e\u0301文. ") := by decide +kernel

example : (do
        let (a, _) ← (PTS.fromString b!"Cafe\u0301, Ab\u0001c\t中e\u0301文. ").normalize (bertNormalize uni BertCfg.default)
        let (b, _) ← bertPreTokenize uni a
        encodeWith (fun ns => .ok (.ok [⟨7, ns.get, ⟨0, ns.len⟩⟩])) (-1) 0 b)
      = .ok (.ok ⟨[7, 7, 7, 7, 7, 7, 7], [0, 0, 0, 0, 0, 0, 0], [b!"cafe", b!",", b!"abc", b!"中", b!"e", b!"文", b!"."], [0, 1, 2, 3, 4, 5, 6],
        [⟨0, 4⟩, ⟨6, 7⟩, ⟨8, 12⟩, ⟨13, 16⟩, ⟨16, 17⟩, ⟨19, 22⟩, ⟨22, 23⟩], [0, 0, 0, 0, 0, 0, 0], [1, 1, 1, 1, 1, 1, 1]⟩)
    ∧ (do
        let (q, _) ← bertPieces (PTS.fromString b!"Cafe\u0301, Ab\u0001c\t中e\u0301文. ")
        let (c, _) ← q.normalize (bertNormalize uni ⟨true, false, true, true⟩)
        encodeWith (fun ns => .ok (.ok [⟨7, ns.get, ⟨0, ns.len⟩⟩])) (-1) 0 c)
      = .ok (.ok ⟨[7, 7, 7, 7, 7, 7, 7], [0, 0, 0, 0, 0, 0, 0], [b!"cafe", b!",", b!"abc", b!"中", b!"e", b!"文", b!"."], [0, 1, 2, 3, 4, 5, 6],
        [⟨0, 4⟩, ⟨6, 7⟩, ⟨8, 12⟩, ⟨13, 16⟩, ⟨16, 17⟩, ⟨19, 22⟩, ⟨22, 23⟩], [0, 0, 0, 0, 0, 0, 0], [1, 1, 1, 1, 1, 1, 1]⟩) := by decide +kernel

/-- A mark behind a Chinese character is in a piece of its own, of which nothing is left: the pieces behind it get other numbers. -/
theorem C123_counterexample_mark : ¬ TameText (runesOf b!"中\u0301 a")
    ∧ (do
        let (a, _) ← (PTS.fromString b!"中\u0301 a").normalize (bertNormalize uni BertCfg.default)
        let (b, _) ← bertPreTokenize uni a
        pure (b.splits.map fun sp : Piece => sp.ns.get)) = .ok [b!"中", b!"a"]
    ∧ (do
        let (q, _) ← bertPieces (PTS.fromString b!"中\u0301 a")
        let (c, _) ← q.normalize (bertNormalize uni ⟨true, false, true, true⟩)
        pure (c.splits.map fun sp : Piece => sp.ns.get)) = .ok [b!"中", b!"", b!"a"] := by
  refine ⟨by decide +kernel, by decide +kernel, by decide +kernel⟩

/-- White space that the normalizer takes for a control character. -/
theorem C123_counterexample_space : ¬ TameText (runesOf b!"a\u000bb")
    ∧ (do
        let (a, _) ← (PTS.fromString b!"a\u000bb").normalize (bertNormalize uni BertCfg.default)
        let (b, _) ← bertPreTokenize uni a
        pure (b.splits.map fun sp : Piece => sp.ns.get)) = .ok [b!"ab"]
    ∧ (do
        let (q, _) ← bertPieces (PTS.fromString b!"a\u000bb")
        let (c, _) ← q.normalize (bertNormalize uni ⟨true, false, true, true⟩)
        pure (c.splits.map fun sp : Piece => sp.ns.get)) = .ok [b!"a", b!"b"] := by
  refine ⟨by decide +kernel, by decide +kernel, by decide +kernel⟩

end Verif
