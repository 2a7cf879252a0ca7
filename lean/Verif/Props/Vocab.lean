import Verif.Model.Vocabulary
import Verif.Model.Notation

/-! Properties C49 and C50: the vocabulary. -/

set_option autoImplicit false

namespace Verif

/-! ## Maps -/

namespace GoMap
variable {κ ν : Type} [DecidableEq κ]

theorem get?_set (m : GoMap κ ν) (k k' : κ) (v : ν) :
    (m.set k v).get? k' = if k = k' then some v else m.get? k' := by
  induction m with
  | nil => simp [set, get?]
  | cons e m ih =>
    obtain ⟨a, b⟩ := e
    simp only [set]
    by_cases h : a = k
    · subst h
      rw [if_pos rfl]
      simp only [get?]
      by_cases h2 : a = k' <;> simp [h2]
    · rw [if_neg h]
      simp only [get?, ih]
      by_cases h2 : a = k'
      · subst h2
        simp [Ne.symm h]
      · simp [h2]

theorem length_set (m : GoMap κ ν) (k : κ) (v : ν) :
    (m.set k v).length = if m.get? k = none then m.length + 1 else m.length := by
  induction m with
  | nil => simp [set, get?]
  | cons e m ih =>
    obtain ⟨a, b⟩ := e
    simp only [set, get?]
    by_cases h : a = k
    · simp [h]
    · simp only [h, if_false, List.length_cons, ih]
      split <;> rfl

/-- Keys are unique, as in every Go map. -/
def UniqueKeys (m : GoMap κ ν) : Prop := (m.map (·.1)).Nodup

theorem get?_eq_some {m : GoMap κ ν} (h : UniqueKeys m) (k : κ) (v : ν) :
    m.get? k = some v ↔ (k, v) ∈ m := by
  induction m with
  | nil => simp [get?]
  | cons e m ih =>
    obtain ⟨a, b⟩ := e
    simp only [UniqueKeys, List.map_cons, List.nodup_cons] at h
    simp only [get?, List.mem_cons, Prod.mk.injEq]
    by_cases hk : a = k
    · subst hk
      simp only [if_true, Option.some.injEq]
      constructor
      · intro h; exact .inl ⟨by trivial, h.symm⟩
      · rintro (⟨-, rfl⟩ | hm)
        · rfl
        · exact absurd (List.mem_map.2 ⟨_, hm, rfl⟩) h.1
    · rw [if_neg hk, ih h.2]
      simp [Ne.symm hk]

end GoMap

/-! ## Specification -/

/-- The distinct terms of a list in order of first insertion. -/
def distinct (l : List Str) : List Str :=
  l.foldl (fun acc t => if t ∈ acc then acc else acc ++ [t]) []

/-- `AddTerm` on each term in turn. -/
def Vocab.addTerms (v : Vocab) : List Str → GoM Vocab
  | [] => .ok v
  | t :: ts => v.addTerm t >>= fun v => v.addTerms ts

/-- The vocabulary answers exactly like the list `ts`: position `i` holds the term of id `i`. -/
structure Vocab.Lists (v : Vocab) (ts : List Str) : Prop where
  nodup : ts.Nodup
  ids : ∀ t i, v.getID t = some i ↔ 0 ≤ i ∧ ts[i.toNat]? = some t
  strings : ∀ i t, v.getString i = some t ↔ 0 ≤ i ∧ ts[i.toNat]? = some t
  size : v.size = ts.length
  notNil : v.termToID ≠ none

theorem Vocab.Lists.mem {v : Vocab} {ts : List Str} (h : v.Lists ts) (t : Str) :
    t ∈ ts ↔ v.getID t ≠ none := by
  constructor
  · intro hm hn
    obtain ⟨i, hi, e⟩ := List.mem_iff_getElem.1 hm
    have := (h.ids t (i : Int)).2 ⟨by omega, by simp [hi, e]⟩
    rw [hn] at this; simp at this
  · intro hn
    cases hg : v.getID t with
    | none => exact absurd hg hn
    | some i =>
      have := ((h.ids t i).1 hg).2
      exact List.mem_of_getElem? this

theorem Vocab.addTerm_lists {v : Vocab} {ts : List Str} (h : v.Lists ts) (t : Str) :
    ∃ v', v.addTerm t = .ok v' ∧ v'.Lists (if t ∈ ts then ts else ts ++ [t]) := by
  unfold addTerm
  cases hg : v.getID t with
  | some i =>
    have : t ∈ ts := (h.mem t).2 (by rw [hg]; simp)
    exact ⟨v, rfl, by rw [if_pos this]; exact h⟩
  | none =>
    have hn : t ∉ ts := fun hm => (h.mem t).1 hm hg
    cases hm : v.termToID with
    | none => exact absurd hm h.notNil
    | some m =>
      refine ⟨_, rfl, ?_⟩
      rw [if_neg hn]
      have hsz := h.size
      have hgm : GoMap.get? m t = none := by
        have := hg; simp only [getID, hm, Option.getD_some] at this; exact this
      have hlen : m.length = ts.length := by
        have := hsz; simp only [Vocab.size, hm, Option.getD_some] at this; omega
      constructor
      · rw [List.nodup_append]
        refine ⟨h.nodup, by simp, ?_⟩
        rintro a ha b hb rfl
        simp at hb; subst hb; exact hn ha
      · intro t' i
        have hid := h.ids t' i
        simp only [getID, hm, Option.getD_some] at hid ⊢
        rw [GoMap.get?_set, hsz]
        by_cases ht : t = t'
        · subst ht
          rw [if_pos rfl]
          constructor
          · intro e
            simp at e
            subst e
            exact ⟨by omega, by simp⟩
          · rintro ⟨h0, e⟩
            congr 1
            by_cases hlt : i.toNat < ts.length
            · rw [List.getElem?_append_left hlt] at e
              exact absurd (List.mem_of_getElem? e) hn
            · rw [List.getElem?_append_right (by omega)] at e
              have := (List.getElem?_eq_some_iff.1 e).1
              simp at this
              omega
        · rw [if_neg ht, hid]
          constructor
          · rintro ⟨h0, e⟩
            have hlt := (List.getElem?_eq_some_iff.1 e).1
            exact ⟨h0, by rw [List.getElem?_append_left hlt]; exact e⟩
          · rintro ⟨h0, e⟩
            refine ⟨h0, ?_⟩
            by_cases hlt : i.toNat < ts.length
            · rw [List.getElem?_append_left hlt] at e; exact e
            · rw [List.getElem?_append_right (by omega)] at e
              have := List.mem_of_getElem? e
              simp at this; exact absurd this.symm ht
      · intro i t'
        have hid := h.strings i t'
        simp only [getString] at hid ⊢
        rw [GoMap.get?_set, hsz]
        by_cases hi : (ts.length : Int) = i
        · subst hi
          rw [if_pos rfl]
          simp
        · rw [if_neg hi, hid]
          constructor
          · rintro ⟨h0, e⟩
            have hlt := (List.getElem?_eq_some_iff.1 e).1
            exact ⟨h0, by rw [List.getElem?_append_left hlt]; exact e⟩
          · rintro ⟨h0, e⟩
            refine ⟨h0, ?_⟩
            have := (List.getElem?_eq_some_iff.1 e).1
            simp at this
            rw [List.getElem?_append_left (by omega)] at e; exact e
      · simp only [Vocab.size, Option.getD_some]
        rw [GoMap.length_set, if_pos hgm, hlen]
        simp
      · simp

theorem Vocab.new_lists : Vocab.new.Lists [] := by
  constructor <;> simp [Vocab.new, getID, getString, GoMap.get?, Vocab.size]

theorem Vocab.addTerms_lists {v : Vocab} {ts : List Str} (h : v.Lists ts) (l : List Str) :
    ∃ v', v.addTerms l = .ok v'
      ∧ v'.Lists (l.foldl (fun acc t => if t ∈ acc then acc else acc ++ [t]) ts) := by
  induction l generalizing v ts with
  | nil => exact ⟨v, rfl, h⟩
  | cons t l ih =>
    obtain ⟨v1, h1, h2⟩ := addTerm_lists h t
    obtain ⟨v2, h3, h4⟩ := ih h2
    exact ⟨v2, by simp [addTerms, h1, h3], by simpa using h4⟩

/-- **C49.** After any sequence of `AddTerm` calls on a new vocabulary (none of which panics)
`Size` is the number of distinct terms, and `GetID t = i` iff `GetString i = t` iff `t` is
the `i`-th distinct term in order of first insertion.  In particular the two are inverse to
each other and the ids are exactly `0 … Size-1`. -/
theorem C49_dense (l : List Str) :
    ∃ v, Vocab.new.addTerms l = .ok v
      ∧ v.size = (distinct l).length
      ∧ (∀ t i, v.getID t = some i ↔ 0 ≤ i ∧ (distinct l)[i.toNat]? = some t)
      ∧ (∀ i t, v.getString i = some t ↔ 0 ≤ i ∧ (distinct l)[i.toNat]? = some t) := by
  obtain ⟨v, h1, h2⟩ := Vocab.addTerms_lists Vocab.new_lists l
  exact ⟨v, h1, h2.size, h2.ids, h2.strings⟩

theorem distinct_aux (l acc : List Str) :
    (∀ t, t ∈ l.foldl (fun acc t => if t ∈ acc then acc else acc ++ [t]) acc ↔ t ∈ acc ∨ t ∈ l)
    ∧ (acc.Nodup → (l.foldl (fun acc t => if t ∈ acc then acc else acc ++ [t]) acc).Nodup) := by
  induction l generalizing acc with
  | nil => simp
  | cons x l ih =>
    simp only [List.foldl_cons]
    obtain ⟨i1, i2⟩ := ih (if x ∈ acc then acc else acc ++ [x])
    constructor
    · intro t
      rw [i1 t]
      by_cases hx : x ∈ acc
      · rw [if_pos hx]
        simp only [List.mem_cons]
        constructor
        · rintro (h | h)
          · exact .inl h
          · exact .inr (.inr h)
        · rintro (h | rfl | h)
          · exact .inl h
          · exact .inl hx
          · exact .inr h
      · rw [if_neg hx]; simp [or_assoc]
    · intro hn
      apply i2
      by_cases hx : x ∈ acc
      · rw [if_pos hx]; exact hn
      · rw [if_neg hx, List.nodup_append]
        refine ⟨hn, by simp, ?_⟩
        rintro a ha b hb rfl
        simp at hb; subst hb; exact hx ha

/-- The specification `distinct` is what its name says: the same terms, each once. -/
theorem distinct_spec (l : List Str) : (distinct l).Nodup ∧ ∀ t, t ∈ distinct l ↔ t ∈ l := by
  obtain ⟨h1, h2⟩ := distinct_aux l []
  exact ⟨h2 (by simp), by intro t; unfold distinct; rw [h1]; simp⟩

/-- **C49, re-adding.** Adding a term that is present changes nothing. -/
theorem C49_readd (v : Vocab) (t : Str) (h : v.getID t ≠ none) : v.addTerm t = .ok v := by
  unfold Vocab.addTerm
  cases hg : v.getID t with
  | none => exact absurd hg h
  | some i => rfl

example : (Vocab.new.addTerms [b!"b", b!"a", b!"b", b!"c"]).bind
    (fun v => .ok (v.size, v.getID b!"c", v.getString 0, v.getString 3)) = .ok (3, some 2, some b!"b", none) := by
  decide +kernel

/-! ## Loading from JSON -/

theorem foldl_set_get? {κ ν : Type} [DecidableEq κ] (es : List (ν × κ)) (m : GoMap κ ν) (k : κ) :
    GoMap.get? (es.foldl (fun m e => m.set e.2 e.1) m) k
      = match (es.reverse.find? fun e => decide (e.2 = k)) with
        | some e => some e.1
        | none => m.get? k := by
  induction es generalizing m with
  | nil => simp
  | cons e es ih =>
    simp only [List.foldl_cons, ih, List.reverse_cons, List.find?_append]
    cases hf : (es.reverse.find? fun e => decide (e.2 = k)) with
    | some x => simp
    | none =>
      simp only [Option.none_or, List.find?_cons, List.find?_nil, GoMap.get?_set]
      by_cases he : e.2 = k <;> simp [he]

/-- Two entries never share an id. -/
def DistinctIds (m : GoMap Str Int) : Prop := ∀ t t' i, (t, i) ∈ m → (t', i) ∈ m → t = t'

/-- The two directions of the vocabulary agree. -/
def Vocab.Inverse (v : Vocab) : Prop := ∀ t i, v.getID t = some i ↔ v.getString i = some t

/-- **C50, loading.** For every decoded JSON object with distinct ids and every iteration
order, both directions of the vocabulary answer according to the object. -/
theorem C50_load (m : GoMap Str Int) (order : List (Str × Int))
    (hk : GoMap.UniqueKeys m) (hid : DistinctIds m) (hord : ∀ e, e ∈ order ↔ e ∈ m) :
    (∀ t i, (Vocab.fromJSON (some m) order).getID t = some i ↔ (t, i) ∈ m)
    ∧ (∀ t i, (Vocab.fromJSON (some m) order).getString i = some t ↔ (t, i) ∈ m) := by
  constructor
  · intro t i
    exact GoMap.get?_eq_some hk t i
  · intro t i
    simp only [Vocab.getString, Vocab.fromJSON, Vocab.buildIdToTerm, foldl_set_get?]
    cases hf : (order.reverse.find? fun e => decide (e.2 = i)) with
    | some x =>
      have h1 := List.mem_of_find?_eq_some hf
      have h2 := List.find?_some hf
      simp at h1 h2
      have h3 : (x.1, i) ∈ m := by rw [← h2]; exact (hord _).1 h1
      simp only [Option.some.injEq]
      constructor
      · intro e; rw [← e]; exact h3
      · intro e; exact hid _ _ _ h3 e
    | none =>
      rw [List.find?_eq_none] at hf
      simp only [GoMap.get?]
      constructor
      · intro e; simp at e
      · intro e
        have := hf (t, i) (by simpa using (hord _).2 e)
        simp at this

/-- `GetID` and `GetString` are inverse and every id is below the size. -/
structure Vocab.Below (v : Vocab) : Prop where
  inverse : v.Inverse
  below : ∀ t i, v.getID t = some i → i < v.size
  notNil : v.termToID ≠ none

theorem Vocab.addTerm_below {v : Vocab} (h : v.Below) (t : Str) :
    ∃ v', v.addTerm t = .ok v' ∧ v'.Below := by
  unfold addTerm
  cases hg : v.getID t with
  | some i => exact ⟨v, rfl, h⟩
  | none =>
    cases hm : v.termToID with
    | none => exact absurd hm h.notNil
    | some m =>
      have hgm : GoMap.get? m t = none := by
        have := hg; simp only [getID, hm, Option.getD_some] at this; exact this
      have hsz : v.size = m.length := by simp [Vocab.size, hm]
      have hgi : ∀ t, v.getID t = GoMap.get? m t := by intro t; simp [getID, hm]
      refine ⟨_, rfl, ?_, ?_, by simp⟩
      · intro t' i
        have hi := h.inverse t' i
        have hb := h.below t' i
        rw [hgi] at hi hb
        simp only [getID, Option.getD_some, getString] at hi ⊢
        rw [GoMap.get?_set, GoMap.get?_set]
        by_cases ht : t = t'
        · subst ht
          rw [if_pos rfl]
          by_cases hs : v.size = i
          · simp [hs]
          · rw [if_neg hs, ← hi, hgm]; simp [hs]
        · rw [if_neg ht]
          by_cases hs : v.size = i
          · rw [if_pos hs]
            constructor
            · intro e; have := hb e; omega
            · intro e; simp at e; exact absurd e ht
          · rw [if_neg hs]; exact hi
      · intro t' i
        have hb := h.below t' i
        rw [hgi] at hb
        have hsz' : Vocab.size ⟨some (m.set t v.size), v.idToTerm.set v.size t⟩ = (m.length : Int) + 1 := by
          simp only [Vocab.size, Option.getD_some]
          rw [GoMap.length_set, if_pos hgm]; simp
        rw [hsz']
        simp only [getID, Option.getD_some]
        rw [GoMap.get?_set]
        by_cases ht : t = t'
        · rw [if_pos ht]
          intro e; simp at e; omega
        · rw [if_neg ht]
          intro e; have := hb e; omega

/-- **C50 (partial), growing.** If the object's ids are distinct and all below its size (as in
any file with dense ids), then `GetID` and `GetString` stay inverse to each other, and no
call panics, under any later sequence of `AddTerm`.  Missing: with sparse ids the next
`AddTerm` can reuse an id, see `C50_counterexample`. -/
theorem C50_grow_partial (m : GoMap Str Int) (order : List (Str × Int)) (l : List Str)
    (hk : GoMap.UniqueKeys m) (hid : DistinctIds m) (hord : ∀ e, e ∈ order ↔ e ∈ m)
    (hb : ∀ e ∈ m, e.2 < (m.length : Int)) :
    ∃ v, (Vocab.fromJSON (some m) order).addTerms l = .ok v ∧ v.Inverse := by
  obtain ⟨h1, h2⟩ := C50_load m order hk hid hord
  have h0 : (Vocab.fromJSON (some m) order).Below :=
    ⟨fun t i => by rw [h1, h2], fun t i h => hb _ ((h1 t i).1 h), by simp [Vocab.fromJSON]⟩
  generalize Vocab.fromJSON (some m) order = v at h0
  induction l generalizing v with
  | nil => exact ⟨v, rfl, h0.inverse⟩
  | cons t l ih =>
    obtain ⟨v1, a1, a2⟩ := Vocab.addTerm_below h0 t
    obtain ⟨v2, b1, b2⟩ := ih v1 a2
    exact ⟨v2, by simp [Vocab.addTerms, a1, b1], b2⟩

/-- **C50 is false** for later `AddTerm` calls: with `{"a": 1}` the new term gets the id 1 as
well, and `GetString(1)` no longer gives "a". -/
theorem C50_counterexample :
    ∃ v, (Vocab.fromJSON (some [(b!"a", 1)]) [(b!"a", 1)]).addTerm b!"b" = .ok v
      ∧ v.getID b!"a" = some 1 ∧ v.getID b!"b" = some 1 ∧ v.getString 1 = some b!"b" :=
  ⟨_, rfl, by decide +kernel, by decide +kernel, by decide +kernel⟩

/-- A JSON `null` loads without error; the first `AddTerm` then panics. -/
theorem C50_null_panics (t : Str) : (Vocab.fromJSON none []).addTerm t = .panic := rfl

/-- With a duplicate id the answer of `GetString` depends on the iteration order. -/
theorem C50_duplicate_ids :
    (Vocab.fromJSON (some [(b!"a", 0), (b!"b", 0)]) [(b!"a", 0), (b!"b", 0)]).getString 0 = some b!"b"
    ∧ (Vocab.fromJSON (some [(b!"a", 0), (b!"b", 0)]) [(b!"b", 0), (b!"a", 0)]).getString 0 = some b!"a" := by
  decide +kernel

example : ∃ v, (Vocab.fromJSON (some [(b!"a", 1), (b!"b", 0)]) [(b!"b", 0), (b!"a", 1)]).addTerms [b!"c"] = .ok v
    ∧ v.getID b!"c" = some 2 ∧ v.getString 1 = some b!"a" :=
  ⟨_, rfl, by decide +kernel, by decide +kernel⟩

end Verif
