import Verif.Lemmas.Transform
import Verif.Model.Notation

/-! C04 – C09: the operations that rewrite the normalized text, seen as operations on
lists of characters. -/

set_option autoImplicit false

namespace Verif

/-- The smallest interesting state used by the examples: "aé世" with its own alignments. -/
def exNS : NS := NS.fromString b!"aé世"
def exChars : List Ch := [(u!"a", ⟨0, 1⟩), (u!"é", ⟨1, 3⟩), (u!"世", ⟨3, 6⟩)]

example : Repr exNS exChars := by decide +kernel

/-! ## C04 -/

/-- **C04.** On a state holding the characters `pre ++ skip ++ mid ++ post`, for a range that
covers `skip ++ mid` and an initial offset covering `skip`, `TransformRange` does exactly
what the specification `specTransform` of the change list says: the characters of the range
are replaced by the specified ones, everything else (text, alignments, original, shift) is
unchanged, and it panics only when the list consumes more characters than `mid` has. -/
theorem C04_transformRange {ns : NS} {pre skip mid post : List Ch} {r : Rng} {a b io : Int}
    (h : Repr ns (pre ++ skip ++ mid ++ post)) (dest : List RuneChange)
    (hr : ns.coerceRangeToNormalized r = some (a, b))
    (ha : a = (text pre).length) (hb : b = ((text (pre ++ skip ++ mid)).length : Int))
    (hio : io = (text skip).length) :
    match specTransform (lastAlign (pre ++ skip)) dest mid with
    | some out => ∃ ns', ns.transformRange r dest io = .ok ns'
        ∧ Repr ns' (pre ++ out ++ post) ∧ ns'.original = ns.original
        ∧ ns'.originalShift = ns.originalShift
    | none => ns.transformRange r dest io = .panic := by
  simp only [NS.transformRange, hr]
  exact transformNormalized_spec h dest ha hb hio

/-- The hypotheses of `C04_transformRange` hold for every range and offset on rune
boundaries of a valid state. -/
theorem C04_boundaries {ns : NS} {cs : List Ch} (h : Repr ns cs) {a b io : Int} (h0 : 0 ≤ io)
    (h1 : a + io ≤ b) (ha : IsBoundary ns.normalized a) (hb : IsBoundary ns.normalized b)
    (hio : IsBoundary ns.normalized (a + io)) :
    ∃ pre skip mid post, cs = pre ++ skip ++ mid ++ post ∧ a = (text pre).length
      ∧ b = ((text (pre ++ skip ++ mid)).length : Int) ∧ io = (text skip).length := by
  rw [h.text_eq] at ha hb hio
  obtain ⟨pre, sm, post, rfl, e1, e2⟩ := chars_cut2 h.valid (by omega) ha hb
  have hv : ValidChars (pre ++ sm) := (validChars_append.1 h.valid).1
  obtain ⟨u, v, hu, hv', he, hu'⟩ := hio
  obtain ⟨x, y, hxy, hx, -⟩ := chars_cut h.valid hu he
  rw [List.append_assoc] at hxy
  have hlen : (text pre).length ≤ (text x).length := by rw [hx]; omega
  -- `pre` is a prefix of `x`, `x` is a prefix of `pre ++ sm`
  rcases List.append_eq_append_iff.1 hxy with ⟨m, hm, hm'⟩ | ⟨m, hm, hm'⟩
  · rcases List.append_eq_append_iff.1 hm' with ⟨k, hk, hk'⟩ | ⟨k, hk, hk'⟩
    · -- m = sm ++ k, so k is empty by length
      have : (text k).length = 0 := by
        have h1' : (text x).length = (text pre).length + (text sm).length + (text k).length := by
          rw [hm, hk]; simp; omega
        have : ((text x).length : Int) = a + io := by rw [hx]; omega
        omega
      have hk0 := text_length_eq_zero.1 this
      subst hk0
      refine ⟨pre, sm, [], post, by simp, e1, by simp; omega, ?_⟩
      have : ((text x).length : Int) = a + io := by rw [hx]; omega
      rw [hm, hk] at this; simp at this; omega
    · refine ⟨pre, m, k, post, by simp [hk], e1, ?_, ?_⟩
      · rw [hk] at e2; simp at e2 ⊢; omega
      · have : ((text x).length : Int) = a + io := by rw [hx]; omega
        rw [hm] at this; simp at this; omega
  · -- pre = x ++ m, so m is empty
    have hm0 : (text m).length = 0 := by rw [hm] at hlen; simp at hlen; omega
    have := text_length_eq_zero.1 hm0
    subst this
    have hpx : pre = x := by simpa using hm
    refine ⟨pre, [], sm, post, by simp, e1, by simp; omega, ?_⟩
    have : ((text x).length : Int) = a + io := by rw [hx]; omega
    rw [← hpx] at this; simp; omega

/-- Non-vacuity: on "aé世", range (1,6), replace é by "xy" and drop 世. -/
example : exNS.transformRange (.normalized 1 6) [⟨u!"x", -1⟩, ⟨u!"y", 1⟩] 0
    = .ok ⟨b!"aé世", b!"axy", [⟨0, 1⟩, ⟨1, 3⟩, ⟨3, 6⟩], 0⟩ := by decide +kernel
example : specTransform ⟨0, 1⟩ [⟨u!"x", -1⟩, ⟨u!"y", 1⟩] [(u!"é", ⟨1, 3⟩), (u!"世", ⟨3, 6⟩)]
    = some [(u!"x", ⟨1, 3⟩), (u!"y", ⟨3, 6⟩)] := by decide +kernel

theorem transform_spec {ns : NS} {skip mid : List Ch} (h : Repr ns (skip ++ mid))
    (dest : List RuneChange) {io : Int} (hio : io = (text skip).length) :
    match specTransform (lastAlign skip) dest mid with
    | some out => ∃ ns', ns.transform dest io = .ok ns'
        ∧ Repr ns' out ∧ ns'.original = ns.original ∧ ns'.originalShift = ns.originalShift
    | none => ns.transform dest io = .panic := by
  have := C04_transformRange (ns := ns) (pre := []) (skip := skip) (mid := mid) (post := [])
    (r := .normalized 0 ns.len) (a := 0) (b := ns.len) (io := io) (by simpa using h) dest rfl (by simp)
    (by simp [NS.len, h.text_eq]) hio
  simpa [NS.transform] using this

/-! ## C05 -/

theorem specTransform_zero (prev : Align) (f : Int → Int) (cs : List Ch) :
    specTransform prev (cs.map fun c => ⟨f c.1, 0⟩) cs
      = some (cs.map fun c => (sanitize (f c.1), c.2)) := by
  induction cs generalizing prev with
  | nil => simp [specTransform]
  | cons c cs ih => simp [specTransform, ih]

/-- **C05.** `Map` never panics on a valid state; each rune is replaced by its image
(U+FFFD if the image is not a Unicode scalar value) and keeps its alignment. -/
theorem C05_map {ns : NS} {cs : List Ch} (h : Repr ns cs) (f : Rune → Rune) :
    ∃ ns', ns.map f = .ok ns' ∧ Repr ns' (cs.map fun c => (sanitize (f c.1), c.2))
      ∧ ns'.original = ns.original ∧ ns'.originalShift = ns.originalShift := by
  have := transform_spec (ns := ns) (skip := []) (mid := cs) (by simpa using h)
    (cs.map fun c => ⟨f c.1, 0⟩) (io := 0) (by simp)
  rw [specTransform_zero] at this
  have hm : ns.map f = ns.transform (cs.map fun c => ⟨f c.1, 0⟩) 0 := by
    simp [NS.map, h.runes, Function.comp_def]
  rw [hm]; exact this

/-- `ToUpper` and `ToLower` are instances. -/
theorem C05_toUpper {ns : NS} {cs : List Ch} (h : Repr ns cs) (up : Rune → Rune) :
    ∃ ns', ns.toUpper up = .ok ns' ∧ Repr ns' (cs.map fun c => (sanitize (up c.1), c.2))
      ∧ ns'.original = ns.original ∧ ns'.originalShift = ns.originalShift := C05_map h up

theorem C05_toLower {ns : NS} {cs : List Ch} (h : Repr ns cs) (low : Rune → Rune) :
    ∃ ns', ns.toLower low = .ok ns' ∧ Repr ns' (cs.map fun c => (sanitize (low c.1), c.2))
      ∧ ns'.original = ns.original ∧ ns'.originalShift = ns.originalShift := C05_map h low

example : exNS.map (fun r => if r == u!"é" then u!"世" else if r == u!"a" then -5 else r)
    = .ok ⟨b!"aé世", b!"�世世", [⟨0, 1⟩, ⟨0, 1⟩, ⟨0, 1⟩, ⟨1, 3⟩, ⟨1, 3⟩, ⟨1, 3⟩, ⟨3, 6⟩, ⟨3, 6⟩, ⟨3, 6⟩], 0⟩ := by
  decide +kernel

/-! ## C06 -/

/-- What the loop of `Filter` still emits once a rune `lr` has been kept and
`removed` runes after it were dropped. -/
def filterGo (keep : Rune → Bool) : Rune → Nat → List Rune → List RuneChange
  | lr, n, [] => [⟨lr, -(n : Int)⟩]
  | lr, n, r :: rs => if keep r then ⟨lr, -(n : Int)⟩ :: filterGo keep r 0 rs else filterGo keep lr (n + 1) rs

theorem filter_foldl_some (keep : Rune → Bool) (rs : List Rune) (n k : Nat) (tr : List RuneChange)
    (lr : Rune) :
    let st := rs.foldl (filterStep keep) ⟨n, k, tr, some lr⟩
    ∃ lr', st.lastRune = some lr' ∧ st.removedStart = k
      ∧ st.transforms ++ [⟨lr', -(st.removed : Int)⟩] = tr ++ filterGo keep lr n rs := by
  induction rs generalizing n tr lr with
  | nil => simp [filterGo]
  | cons r rs ih =>
    simp only [List.foldl_cons]
    by_cases hk : keep r = true
    · have : filterStep keep ⟨n, k, tr, some lr⟩ r = ⟨0, k, tr ++ [⟨lr, -(n : Int)⟩], some r⟩ := by
        simp [filterStep, hk]
      rw [this]
      obtain ⟨lr', h1, h2, h3⟩ := ih 0 (tr ++ [⟨lr, -(n : Int)⟩]) r
      exact ⟨lr', h1, h2, by rw [h3]; simp [filterGo, hk]⟩
    · have : filterStep keep ⟨n, k, tr, some lr⟩ r = ⟨n + 1, k, tr, some lr⟩ := by
        simp [filterStep, hk]
      rw [this]
      obtain ⟨lr', h1, h2, h3⟩ := ih (n + 1) tr lr
      exact ⟨lr', h1, h2, by rw [h3]; simp [filterGo, hk]⟩

theorem filter_foldl_lead (keep : Rune → Bool) (lead : List Rune) (hl : ∀ r ∈ lead, keep r = false)
    (n : Nat) :
    lead.foldl (filterStep keep) ⟨n, 0, [], none⟩ = ⟨n + lead.length, 0, [], none⟩ := by
  induction lead generalizing n with
  | nil => simp
  | cons r rs ih =>
    have hr := hl r (by simp)
    have : filterStep keep ⟨n, 0, [], none⟩ r = ⟨n + 1, 0, [], none⟩ := by simp [filterStep, hr]
    rw [List.foldl_cons, this, ih (fun r hr => hl r (by simp [hr]))]
    simp; omega

theorem filterChanges_eq (keep : Rune → Bool) (lead : List Rune) (r : Rune) (rs : List Rune)
    (hl : ∀ r ∈ lead, keep r = false) (hr : keep r = true) :
    NS.filterChanges keep (lead ++ r :: rs) = (filterGo keep r 0 rs, lead.length) := by
  unfold NS.filterChanges
  simp only [List.foldl_append, filter_foldl_lead keep lead hl, List.foldl_cons]
  have : filterStep keep ⟨0 + lead.length, 0, [], none⟩ r = ⟨0, lead.length, [], some r⟩ := by
    simp [filterStep, hr]
  rw [this]
  obtain ⟨lr', h1, h2, h3⟩ := filter_foldl_some keep rs 0 lead.length [] r
  simp only [h1, h2, h3, List.nil_append]

theorem filterChanges_none (keep : Rune → Bool) (lead : List Rune)
    (hl : ∀ r ∈ lead, keep r = false) : NS.filterChanges keep lead = ([], 0) := by
  unfold NS.filterChanges
  simp only [filter_foldl_lead keep lead hl]

theorem specTransform_filterGo (keep : Rune → Bool) (prev : Align) (c : Ch) (dropped cs : List Ch)
    (hv : ValidChars (c :: cs)) :
    specTransform prev (filterGo keep c.1 dropped.length (cs.map (·.1))) (c :: (dropped ++ cs))
      = some (c :: cs.filter fun c => keep c.1) := by
  induction cs generalizing prev c dropped with
  | nil =>
    have : ¬ (1 ≤ -(dropped.length : Int)) := by omega
    simp [filterGo, specTransform, sanitize_of_valid (hv c (by simp)), this]
  | cons d cs ih =>
    have hd : ValidChars (d :: cs) := (validChars_cons.1 hv).2
    by_cases hk : keep d.1 = true
    · simp only [List.map_cons, filterGo, hk, if_true, specTransform]
      have : ¬ (1 ≤ -(dropped.length : Int)) := by omega
      rw [if_neg this]
      have e : (- -(dropped.length : Int)).toNat = dropped.length := by omega
      simp only [e]
      rw [if_neg (by simp)]
      simp only [List.take_left, List.drop_left]
      have := ih (lastAlign (c :: dropped)) d [] hd
      simp only [List.length_nil, List.nil_append] at this
      rw [this]
      simp [sanitize_of_valid (hv c (by simp)), hk]
    · have hk' : keep d.1 = false := by simpa using hk
      have hvc : ValidChars (c :: cs) :=
        validChars_cons.2 ⟨(validChars_cons.1 hv).1, (validChars_cons.1 hd).2⟩
      have := ih prev c (dropped ++ [d]) hvc
      simp only [List.map_cons, filterGo, hk']
      simp only [List.length_append, List.length_singleton, List.append_assoc,
        List.singleton_append] at this
      rw [if_neg (by simp), this]
      simp [hk']

theorem split_first_kept (keep : Ch → Bool) (cs : List Ch) :
    (∀ c ∈ cs, keep c = false) ∨ ∃ lead c rest, cs = lead ++ c :: rest
      ∧ (∀ c ∈ lead, keep c = false) ∧ keep c = true ∧ lead = cs.takeWhile (fun c => !keep c) := by
  induction cs with
  | nil => left; simp
  | cons c cs ih =>
    by_cases hk : keep c = true
    · right; exact ⟨[], c, cs, rfl, by simp, hk, by simp [hk]⟩
    · have hk' : keep c = false := by simpa using hk
      rcases ih with h | ⟨lead, d, rest, rfl, h1, h2, h3⟩
      · left; intro x hx; rcases List.mem_cons.1 hx with rfl | hx
        · exact hk'
        · exact h x hx
      · right
        refine ⟨c :: lead, d, rest, rfl, ?_, h2, ?_⟩
        · intro x hx; rcases List.mem_cons.1 hx with rfl | hx
          · exact hk'
          · exact h1 x hx
        · simp [hk', ← h3]

/-- All characters are single-byte (ASCII). -/
def AsciiChars (cs : List Ch) : Prop := ∀ c ∈ cs, c.1 < 0x80

theorem text_length_of_ascii {cs : List Ch} (hv : ValidChars cs) (h : AsciiChars cs) :
    (text cs).length = cs.length := by
  induction cs with
  | nil => rfl
  | cons c cs ih =>
    have h0 : 0 ≤ c.1 := by
      have := hv c (by simp); rcases this with h | h <;> omega
    have h1 : runeLen c.1 = 1 := runeLen_eq_one.2 ⟨h0, h c (by simp)⟩
    have := ih (validChars_cons.1 hv).2 (fun c hc => h c (by simp [hc]))
    simp only [runeLen] at h1
    simp [h1, this]; omega

/-- **C06 (partial).** `Filter` keeps exactly the kept runes with their alignments and does
not panic, *provided the runes dropped before the first kept one are all ASCII* (or nothing
is kept).  Missing: the general case is false, see `C06_counterexample_panic` and
`C06_counterexample_align`. -/
theorem C06_filter_partial {ns : NS} {cs : List Ch} (h : Repr ns cs) (keep : Rune → Bool)
    (hlead : (∀ c ∈ cs, keep c.1 = false) ∨ AsciiChars (cs.takeWhile fun c => !keep c.1)) :
    ∃ ns', ns.filter keep = .ok ns' ∧ Repr ns' (cs.filter fun c => keep c.1)
      ∧ ns'.original = ns.original ∧ ns'.originalShift = ns.originalShift := by
  unfold NS.filter
  rw [h.runes]
  rcases split_first_kept (fun c => keep c.1) cs with hn | ⟨lead, c, rest, he, h1, h2, h3⟩
  · have hfc : NS.filterChanges keep (cs.map (·.1)) = ([], 0) := by
      apply filterChanges_none
      intro r hr
      obtain ⟨c, hc, rfl⟩ := List.mem_map.1 hr
      exact hn c hc
    simp only [hfc]
    have hf : (cs.filter fun c => keep c.1) = [] := by
      rw [List.filter_eq_nil_iff]; intro c hc; simp [hn c hc]
    have := transform_spec (ns := ns) (skip := []) (mid := cs) (by simpa using h) [] (io := 0) (by simp)
    rw [hf]
    simpa [specTransform] using this
  · have hasc : AsciiChars lead := by
      rcases hlead with hh | hh
      · have := hh c (by rw [he]; simp)
        rw [this] at h2; exact absurd h2 (by simp)
      · rw [h3]; exact hh
    subst he
    have hfc : NS.filterChanges keep ((lead ++ c :: rest).map (·.1))
        = (filterGo keep c.1 0 (rest.map (·.1)), lead.length) := by
      rw [List.map_append, List.map_cons, filterChanges_eq _ _ _ _ ?_ h2]
      · simp
      · intro r hr
        obtain ⟨c, hc, rfl⟩ := List.mem_map.1 hr
        exact h1 c hc
    simp only [hfc]
    have hvl : ValidChars lead := (validChars_append.1 h.valid).1
    have hvc : ValidChars (c :: rest) := (validChars_append.1 h.valid).2
    have := transform_spec (ns := ns) (skip := lead) (mid := c :: rest) h
      (filterGo keep c.1 0 (rest.map (·.1))) (io := (lead.length : Int))
      (by rw [text_length_of_ascii hvl hasc])
    have hsp := specTransform_filterGo keep (lastAlign lead) c [] rest hvc
    simp only [List.length_nil, List.nil_append] at hsp
    rw [hsp] at this
    have hf : ((lead ++ c :: rest).filter fun c => keep c.1) = c :: rest.filter fun c => keep c.1 := by
      rw [List.filter_append]
      have : (lead.filter fun c => keep c.1) = [] := by
        rw [List.filter_eq_nil_iff]; intro c hc; simp [h1 c hc]
      rw [this]; simp [h2]
    rw [hf]
    exact this

/-- C06 fails: dropping a leading two-byte rune makes `Filter` panic. -/
theorem C06_counterexample_panic :
    Repr (NS.fromString b!"éab") [(u!"é", ⟨0, 2⟩), (u!"a", ⟨2, 3⟩), (u!"b", ⟨3, 4⟩)]
      ∧ (NS.fromString b!"éab").filter (fun r => r != u!"é") = .panic := by decide +kernel

/-- C06 fails: here it does not panic, but 'a' loses its alignment (2,3) and gets (0,2). -/
theorem C06_counterexample_align :
    Repr (NS.fromString b!"éa") [(u!"é", ⟨0, 2⟩), (u!"a", ⟨2, 3⟩)]
      ∧ (NS.fromString b!"éa").filter (fun r => r != u!"é") = .ok ⟨b!"éa", b!"a", [⟨0, 2⟩], 0⟩ := by
  decide +kernel

/-- Non-vacuity of `C06_filter_partial`: an ASCII rune dropped in front, a two-byte one inside. -/
example : (NS.fromString b!"-世éb").filter (fun r => r != u!"-" && r != u!"é")
    = .ok ⟨b!"-世éb", b!"世b", [⟨1, 4⟩, ⟨1, 4⟩, ⟨1, 4⟩, ⟨6, 7⟩], 0⟩ := by decide +kernel

/-! ## C07 -/

/-- The characters left after removing outer white space on the requested sides. -/
def trimSpec (left right : Bool) (cs : List Ch) : List Ch :=
  let l := if left then cs.dropWhile (fun c => isWhiteSpace c.1) else cs
  if right then (l.reverse.dropWhile (fun c => isWhiteSpace c.1)).reverse else l

theorem countLeadingSpaces_eq (rs : List Rune) :
    countLeadingSpaces rs = (rs.takeWhile isWhiteSpace).length := by
  induction rs with
  | nil => rfl
  | cons r rs ih => simp only [countLeadingSpaces, List.takeWhile_cons]; split <;> simp [*]

theorem countLeadingSpaces_map (cs : List Ch) :
    countLeadingSpaces (cs.map (·.1)) = (cs.takeWhile fun c => isWhiteSpace c.1).length := by
  rw [countLeadingSpaces_eq, List.takeWhile_map]; simp [Function.comp_def]

theorem specTransform_trim (prev : Align) (n : Nat) (core trail : List Ch) (hn : trail.length = n)
    (hv : ValidChars core) :
    specTransform prev
      ((core.map (·.1)).mapIdx fun i r => ⟨r, if i + 1 = core.length then -(n : Int) else 0⟩)
      (core ++ trail) = some core := by
  rcases List.eq_nil_or_concat core with rfl | ⟨init, last, rfl⟩
  · simp [specTransform]
  · have hlast : sanitize last.1 = last.1 := sanitize_of_valid (hv last (by simp))
    have hvi : ∀ c ∈ init, ValidRune c.1 := fun c hc => hv c (by simp [hc])
    -- the changes: zero for `init`, `-n` for `last`
    have hch : (((init.concat last).map (·.1)).mapIdx fun i r =>
          (⟨r, if i + 1 = (init.concat last).length then -(n : Int) else 0⟩ : RuneChange))
        = (init.map fun c => (⟨c.1, 0⟩ : RuneChange)) ++ [⟨last.1, -(n : Int)⟩] := by
      apply List.ext_getElem
      · simp
      · intro i h1 h2
        simp at h1
        by_cases hi : i < init.length
        · simp [hi]; omega
        · have : i = init.length := by omega
          subst this
          simp
    rw [hch, List.concat_eq_append, List.append_assoc, List.singleton_append]
    clear hch hv
    induction init generalizing prev with
    | nil =>
      simp only [List.map_nil, List.nil_append, specTransform]
      have e : (- -(n : Int)).toNat = n := by omega
      rw [if_neg (by omega)]
      simp only [e, hn]
      simp [hlast]
    | cons c init ih =>
      simp only [List.map_cons, List.cons_append, specTransform]
      rw [if_neg (by simp)]
      have := ih (lastAlign [c]) (fun c hc => hvi c (by simp [hc]))
      simp only [Int.neg_zero, Int.toNat_zero, List.take_zero, List.drop_zero]
      rw [if_neg (by simp), this]
      simp [sanitize_of_valid (hvi c (by simp))]

theorem takeWhile_all {α : Type} {p : α → Bool} {l : List α} (h : ∀ x ∈ l, p x = true) :
    l.takeWhile p = l := by
  induction l with
  | nil => rfl
  | cons x xs ih => simp [h x (by simp), ih (fun y hy => h y (by simp [hy]))]

theorem dropWhile_all {α : Type} {p : α → Bool} {l : List α} (h : ∀ x ∈ l, p x = true) :
    l.dropWhile p = [] := by
  induction l with
  | nil => rfl
  | cons x xs ih => simp [h x (by simp), ih (fun y hy => h y (by simp [hy]))]

theorem takeWhile_append_of_exists {α : Type} {p : α → Bool} (l l' : List α)
    (h : ∃ x ∈ l, p x = false) : (l ++ l').takeWhile p = l.takeWhile p := by
  induction l with
  | nil => simp at h
  | cons x xs ih =>
    simp only [List.cons_append, List.takeWhile_cons]
    split
    · rename_i hx
      obtain ⟨y, hy, hp⟩ := h
      rcases List.mem_cons.1 hy with rfl | hy
      · simp [hp] at hx
      · rw [ih ⟨y, hy, hp⟩]
    · rfl

theorem take_takeWhile_length {α : Type} (p : α → Bool) (l : List α) :
    l.take (l.takeWhile p).length = l.takeWhile p := by
  induction l with
  | nil => rfl
  | cons x xs ih => simp only [List.takeWhile_cons]; split <;> simp [*]

theorem transform_nil {ns : NS} {cs : List Ch} (h : Repr ns cs) (n : Nat)
    (hle : n ≤ ns.normalized.length) :
    ns.transform [] n = .ok { ns with alignments := [], normalized := [] } := by
  have e1 : goSlice ns.normalized 0 ns.len = .ok ns.normalized := by
    have := goSlice_prefix ns.normalized [] (b := ns.len) rfl
    simpa using this
  have e2 : goSlice ns.normalized 0 (n : Int) = .ok (ns.normalized.take n) := by
    rw [goSlice_of (by omega) (by omega) (by omega)]; simp
  have e3 : goSlice ns.normalized (n : Int) (ns.normalized.length : Int)
      = .ok (ns.normalized.drop n) := by
    rw [goSlice_of (by omega) (by omega) (by omega)]
    rw [List.take_of_length_le (by simp)]; simp
  have e4 : goSlice ns.alignments 0 0 = .ok [] := by
    rw [goSlice_of (by omega) (by omega) (by omega)]; simp
  have e5 : goSlice ns.alignments ns.len (ns.alignments.length : Int) = .ok [] := by
    have := h.len_eq
    rw [goSlice_of (by simp [NS.len]) (by simp [NS.len]; omega) (by omega)]
    simp [NS.len]; omega
  have e6 : goSlice ns.normalized 0 0 = .ok [] := by
    rw [goSlice_of (by omega) (by omega) (by omega)]; simp
  have e7 : goSlice ns.normalized ns.len (ns.normalized.length : Int) = .ok [] := by
    rw [goSlice_of (by simp [NS.len]) (by simp [NS.len]) (by omega)]
    simp [NS.len]
  simp [NS.transform, NS.transformRange, NS.coerceRangeToNormalized, NS.transformNormalized,
    e1, e2, e3, e4, e5, e6, e7]

/-- Decomposition of the characters by `TrimLeftRight`'s two counts. -/
theorem trim_decomp (left right : Bool) (cs : List Ch) :
    let leading := if left then countLeadingSpaces (cs.map (·.1)) else 0
    let trailing := if right ∧ leading < (cs.map (·.1)).length then countTrailingSpaces (cs.map (·.1)) else 0
    ∃ lead trail, cs = lead ++ trimSpec left right cs ++ trail ∧ lead.length = leading
      ∧ trail.length = trailing ∨
      (trimSpec left right cs = [] ∧ leading = cs.length ∧ trailing = 0) := by
  intro leading trailing
  obtain ⟨lead, hlead⟩ : ∃ x, x = (if left then cs.takeWhile (fun c => isWhiteSpace c.1) else []) := ⟨_, rfl⟩
  obtain ⟨rest, hrest⟩ : ∃ x, x = (if left then cs.dropWhile (fun c => isWhiteSpace c.1) else cs) := ⟨_, rfl⟩
  have hcs : cs = lead ++ rest := by
    cases left <;> simp [hlead, hrest]
  have hll : leading = lead.length := by
    simp only [leading, hlead]; cases left <;> simp [countLeadingSpaces_map]
  have hsp : trimSpec left right cs
      = if right then (rest.reverse.dropWhile (fun c => isWhiteSpace c.1)).reverse else rest := by
    simp [trimSpec, hrest]
  by_cases hr0 : rest = []
  · refine ⟨[], [], Or.inr ?_⟩
    have hl : leading = cs.length := by rw [hll, hcs, hr0]; simp
    refine ⟨?_, hl, ?_⟩
    · rw [hsp, hr0]; cases right <;> simp
    · simp only [trailing]; rw [if_neg]; simp; omega
  · refine ⟨lead, if right then (rest.reverse.takeWhile (fun c => isWhiteSpace c.1)).reverse else [],
      Or.inl ⟨?_, hll.symm, ?_⟩⟩
    · rw [hsp]
      cases right
      · simp [← hcs]
      · simp only [if_true]
        rw [List.append_assoc, ← List.reverse_append, List.takeWhile_append_dropWhile,
          List.reverse_reverse]
        exact hcs
    · cases right
      · simp [trailing]
      · have hlt : leading < (cs.map (·.1)).length := by
          rw [hll]; conv => rhs; rw [hcs]
          have := List.length_pos_iff.2 hr0
          simp; omega
        have : trailing = countTrailingSpaces (cs.map (·.1)) := by
          simp only [trailing]; rw [if_pos ⟨by simp, hlt⟩]
        rw [this, countTrailingSpaces, ← List.map_reverse, countLeadingSpaces_map]
        simp only [if_true, List.length_reverse]
        by_cases hl0 : lead = []
        · rw [hcs, hl0]; simp
        · rw [hcs, List.reverse_append, takeWhile_append_of_exists]
          have hleft : left = true := by
            cases left
            · simp [hlead] at hl0
            · rfl
          subst hleft
          simp only [if_true] at hrest
          cases hrc : rest with
          | nil => exact absurd hrc hr0
          | cons d ds =>
            refine ⟨d, by simp, ?_⟩
            have := List.head?_dropWhile_not (fun c : Ch => isWhiteSpace c.1) cs
            rw [← hrest, hrc] at this
            simpa using this

theorem trimChanges_eq (lead core trail : List Ch) :
    NS.trimChanges ((lead ++ core ++ trail).map (·.1)) lead.length trail.length
      = (core.map (·.1)).mapIdx fun i r =>
          ⟨r, if i + 1 = core.length then -(trail.length : Int) else 0⟩ := by
  unfold NS.trimChanges
  have : (((lead ++ core ++ trail).map (·.1)).drop lead.length).take
      (((lead ++ core ++ trail).map (·.1)).length - trail.length - lead.length)
      = core.map (·.1) := by
    have e1 : ((lead ++ core ++ trail).map (·.1)).drop lead.length
        = core.map (·.1) ++ trail.map (·.1) := by
      rw [List.append_assoc, List.map_append]
      rw [List.drop_append_of_le_length (by simp)]
      simp
    have e2 : ((lead ++ core ++ trail).map (·.1)).length - trail.length - lead.length
        = (core.map (·.1)).length := by simp; omega
    rw [e1, e2, List.take_left]
  rw [this]
  simp

/-- **C07 (partial).** `TrimLeftRight` removes exactly the outer white space and every
remaining rune keeps its alignment, *provided the leading white space that is removed is
ASCII* (or only white space is there, or the left side is not trimmed).  Missing: the
general case is false, see `C07_counterexample_align` and `C07_counterexample_panic`. -/
theorem C07_trim_partial {ns : NS} {cs : List Ch} (h : Repr ns cs) (left right : Bool)
    (hlead : left = false ∨ (∀ c ∈ cs, isWhiteSpace c.1 = true)
      ∨ AsciiChars (cs.takeWhile fun c => isWhiteSpace c.1)) :
    ∃ ns', ns.trimLeftRight left right = .ok ns' ∧ Repr ns' (trimSpec left right cs)
      ∧ ns'.original = ns.original ∧ ns'.originalShift = ns.originalShift := by
  unfold NS.trimLeftRight
  rw [h.runes]
  obtain ⟨lead, trail, hd⟩ := trim_decomp left right cs
  simp only at hd ⊢
  generalize hleading : (if left = true then countLeadingSpaces (cs.map (·.1)) else 0) = leading at hd ⊢
  generalize htrailing : (if right = true ∧ leading < (cs.map (·.1)).length then
      countTrailingSpaces (cs.map (·.1)) else 0) = trailing at hd ⊢
  rcases hd with ⟨h1, h2, h3⟩ | ⟨h1, h2, h3⟩
  · have hvl : ValidChars lead := by
      intro c hc; apply h.valid; rw [h1]; simp [hc]
    have hvc : ValidChars (trimSpec left right cs) := by
      intro c hc; apply h.valid; rw [h1]; simp [hc]
    by_cases hz : leading = 0 ∧ trailing = 0
    · rw [if_pos hz]
      have hl0 : lead = [] := by apply List.length_eq_zero_iff.1; omega
      have ht0 : trail = [] := by apply List.length_eq_zero_iff.1; omega
      rw [hl0, ht0] at h1
      have : trimSpec left right cs = cs := by simpa using h1.symm
      exact ⟨ns, rfl, by rw [this]; exact h, rfl, rfl⟩
    · rw [if_neg hz]
      by_cases hcore : trimSpec left right cs = []
      · -- everything removed: no changes, any in-range initial offset is fine
        have hch : NS.trimChanges (cs.map (·.1)) leading trailing = [] := by
          have := trimChanges_eq lead (trimSpec left right cs) trail
          rw [← h1, h2, h3, hcore] at this
          simpa using this
        rw [hch, hcore]
        have hle : leading ≤ ns.normalized.length := by
          have h4 : lead.length ≤ cs.length := by rw [h1]; simp
          have := length_le_text cs
          rw [h.text_eq]; omega
        exact ⟨_, transform_nil h leading hle, ⟨rfl, rfl, by simp⟩, rfl, rfl⟩
      · have hle : lead = if left then cs.takeWhile (fun c => isWhiteSpace c.1) else [] := by
          have : lead = cs.take leading := by
            rw [h1, List.append_assoc, ← h2, List.take_left]
          rw [this, ← hleading]
          cases left
          · simp
          · simp only [if_true]
            rw [countLeadingSpaces_map]
            exact take_takeWhile_length _ _
        have hasc : AsciiChars lead := by
          rw [hle]
          rcases hlead with hh | hh | hh
          · simp [hh, AsciiChars]
          · cases left
            · simp [AsciiChars]
            · exfalso; apply hcore
              simp [trimSpec, dropWhile_all (p := fun c : Ch => isWhiteSpace c.1) hh]
          · cases left
            · simp [AsciiChars]
            · simpa using hh
        have hrep : Repr ns (lead ++ (trimSpec left right cs ++ trail)) := by
          rw [← List.append_assoc, ← h1]; exact h
        have := transform_spec (ns := ns) (skip := lead) (mid := trimSpec left right cs ++ trail) hrep
          (NS.trimChanges (cs.map (·.1)) leading trailing) (io := (leading : Int))
          (by rw [text_length_of_ascii hvl hasc, h2])
        have hch := trimChanges_eq lead (trimSpec left right cs) trail
        rw [← h1, h2, h3] at hch
        rw [hch, specTransform_trim _ trailing _ trail h3 hvc] at this
        rw [hch]
        exact this
  · have hle : leading ≤ ns.normalized.length := by
      have := length_le_text cs
      rw [h.text_eq]; omega
    by_cases hz : leading = 0 ∧ trailing = 0
    · rw [if_pos hz]
      have : cs = [] := by apply List.length_eq_zero_iff.1; omega
      subst this
      exact ⟨ns, rfl, by rw [h1]; exact h, rfl, rfl⟩
    · rw [if_neg hz]
      have hch : NS.trimChanges (cs.map (·.1)) leading trailing = [] := by
        simp [NS.trimChanges, h2, h3]
      rw [hch, h1]
      exact ⟨_, transform_nil h leading hle, ⟨rfl, rfl, by simp⟩, rfl, rfl⟩

/-- C07 fails: U+3000 is three bytes, the kept 'a' gets the alignment of the space. -/
theorem C07_counterexample_align :
    Repr (NS.fromString b!"　a") [(0x3000, ⟨0, 3⟩), (u!"a", ⟨3, 4⟩)]
      ∧ (NS.fromString b!"　a").trimLeftRight true true = .ok ⟨b!"　a", b!"a", [⟨0, 3⟩], 0⟩ := by
  decide +kernel

/-- C07 fails: with U+00A0 (two bytes) in front, trimming panics. -/
theorem C07_counterexample_panic :
    Repr (NS.fromString b!"\u00a0ab") [(0xA0, ⟨0, 2⟩), (u!"a", ⟨2, 3⟩), (u!"b", ⟨3, 4⟩)]
      ∧ (NS.fromString b!"\u00a0ab").trimLeftRight true true = .panic := by
  decide +kernel

/-- Non-vacuity: ASCII spaces in front, a three-byte one behind. -/
example : (NS.fromString b!" \té b　").trimLeftRight true true
    = .ok ⟨b!" \té b　", b!"é b", [⟨2, 4⟩, ⟨2, 4⟩, ⟨4, 5⟩, ⟨5, 6⟩], 0⟩ := by decide +kernel
example : trimSpec true true [(u!" ", ⟨0, 1⟩), (u!"é", ⟨1, 3⟩), (0x3000, ⟨3, 6⟩)]
    = [(u!"é", ⟨1, 3⟩)] := by decide +kernel

/-! ## C08 -/

theorem specTransform_ones (prev : Align) (rs : List Rune) (rest : List RuneChange) (cs : List Ch) :
    specTransform prev ((rs.map fun r => ⟨r, 1⟩) ++ rest) cs
      = (specTransform prev rest cs).map ((rs.map fun r => (sanitize r, prev)) ++ ·) := by
  induction rs with
  | nil => simp
  | cons r rs ih =>
    simp only [List.map_cons, List.cons_append, specTransform]
    rw [if_pos (by simp), ih, Option.map_map]
    congr 1

theorem rangeAux_index_pos (s : Str) (i k : Nat) (hi : 0 < i) : ∀ p ∈ rangeAux s i k, 0 < p.1 := by
  induction s generalizing i k with
  | nil => simp [rangeAux]
  | cons b bs ih =>
    cases k with
    | zero =>
      intro p hp
      simp only [rangeAux, List.mem_cons] at hp
      rcases hp with rfl | hp
      · exact hi
      · exact ih _ _ (by omega) p hp
    | succ k => exact ih _ _ (by omega)

/-- The changes of `Prepend`: the first rune replaces, the others are insertions. -/
theorem prependChanges_eq (s : Str) (hs : s ≠ []) :
    ∃ r rs, runesOf s = r :: rs ∧ NS.prependChanges s = ⟨r, 0⟩ :: rs.map fun r => ⟨r, 1⟩ := by
  cases s with
  | nil => exact absurd rfl hs
  | cons b bs =>
    refine ⟨(decodeRune (b :: bs)).1, (rangeAux bs (0 + 1) ((decodeRune (b :: bs)).2 - 1)).map (·.2),
      by simp only [runesOf, rangeStr, rangeAux, List.map_cons], ?_⟩
    simp only [NS.prependChanges, rangeStr, rangeAux, List.map_cons, List.map_map]
    congr 1
    apply List.map_congr_left
    intro p hp
    have := rangeAux_index_pos _ _ _ (by omega) p hp
    simp [this]

/-- **C08 (partial).** `Prepend(s)` for a non-empty `s` on a valid non-empty state puts the
runes of `s` in front, aligned to the first character, and keeps every existing character
with its alignment; the text becomes `s` + old text when `s` is valid UTF-8 (`C08_text`).
Missing: `s = ""` changes the alignment of the first rune, see `C08_counterexample_empty`. -/
theorem C08_prepend_partial {ns : NS} {c : Ch} {cs : List Ch} (h : Repr ns (c :: cs)) (s : Str)
    (hs : s ≠ []) :
    ∃ ns', ns.prepend s = .ok ns'
      ∧ Repr ns' ((runesOf s).map (fun r => (r, c.2)) ++ c :: cs)
      ∧ ns'.original = ns.original ∧ ns'.originalShift = ns.originalShift := by
  have hn : ns.normalized.length ≠ 0 := by
    rw [h.text_eq]; simp [encodeRune_ne_nil]
  have hf : goIndex (runesOf ns.normalized) 0 = .ok c.1 := by
    rw [h.runes]; simp [goIndex]
  obtain ⟨r, rs, hrs, hpc⟩ := prependChanges_eq s hs
  have hvs := runesOf_valid s
  rw [hrs] at hvs
  unfold NS.prepend
  simp only [hn, if_false, hf, GoM.bind_ok]
  have := C04_transformRange (ns := ns) (pre := []) (skip := []) (mid := [c]) (post := cs)
    (r := .normalized 0 ((encodeRune c.1).length : Int)) (a := 0) (b := ((encodeRune c.1).length : Int))
    (io := 0) (by simpa using h) (NS.prependChanges s ++ [⟨c.1, 1⟩]) rfl (by simp) (by simp) (by simp)
  have hsp : specTransform (lastAlign ([] ++ [])) (NS.prependChanges s ++ [⟨c.1, 1⟩]) [c]
      = some ((runesOf s).map (fun r => (r, c.2)) ++ [c]) := by
    rw [hpc, hrs]
    simp only [List.cons_append, specTransform]
    rw [if_neg (by simp)]
    simp only [Int.neg_zero, Int.toNat_zero, List.take_zero, List.drop_zero, List.length_nil,
      specTransform_ones]
    have hc : sanitize c.1 = c.1 := sanitize_of_valid (h.valid c (by simp))
    simp only [specTransform, lastAlign]
    have h1 : sanitize r = r := sanitize_of_valid (hvs r (by simp))
    have h2 : (rs.map fun r => (sanitize r, c.2)) = rs.map fun r => (r, c.2) := by
      apply List.map_congr_left; intro x hx; rw [sanitize_of_valid (hvs x (by simp [hx]))]
    simp [hc, h1, h2]
  rw [hsp] at this
  simpa using this

theorem C08_text {s : Str} (hs : ValidUtf8 s) (a : Align) (cs : List Ch) :
    text ((runesOf s).map (fun r => (r, a)) ++ cs) = s ++ text cs := by
  rw [text_append]
  congr 1
  simp only [text, List.map_map]
  have : ((fun x : Ch => x.1) ∘ fun r : Int => (r, a)) = id := rfl
  rw [this, List.map_id, hs.runes]

/-- On an empty normalized string `Prepend` and `Append` do nothing. -/
theorem C08_prepend_empty {ns : NS} (h : ns.normalized = []) (s : Str) : ns.prepend s = .ok ns := by
  simp [NS.prepend, h]

/-- C08 fails for the empty string: the alignment of the first rune is overwritten by (0,0). -/
theorem C08_counterexample_empty :
    (NS.fromString b!"ab").prepend [] = .ok ⟨b!"ab", b!"ab", [⟨0, 0⟩, ⟨1, 2⟩], 0⟩ := by decide +kernel

example : exNS.prepend b!"世x" = .ok ⟨b!"aé世", b!"世xaé世",
    [⟨0, 1⟩, ⟨0, 1⟩, ⟨0, 1⟩, ⟨0, 1⟩, ⟨0, 1⟩, ⟨1, 3⟩, ⟨1, 3⟩, ⟨3, 6⟩, ⟨3, 6⟩, ⟨3, 6⟩], 0⟩ := by decide +kernel

/-! ## C09 -/

/-- **C09 (partial).** `Append(s)` puts the runes of `s` behind, aligned to the last character,
and keeps every existing character with its alignment, *provided all characters before the
last one are ASCII*.  Missing: the general case is false, see `C09_counterexample_corrupt` and
`C09_counterexample_loss`. -/
theorem C09_append_partial {ns : NS} {c : Ch} {cs : List Ch} (h : Repr ns (cs ++ [c]))
    (hasc : AsciiChars cs) (s : Str) :
    ∃ ns', ns.append s = .ok ns'
      ∧ Repr ns' (cs ++ c :: (runesOf s).map (fun r => (r, c.2)))
      ∧ ns'.original = ns.original ∧ ns'.originalShift = ns.originalShift := by
  have hn : ns.normalized.length ≠ 0 := by
    rw [h.text_eq]; simp [encodeRune_ne_nil]
  have hv := validChars_append.1 h.valid
  have hi : ((runesOf ns.normalized).length : Int) - 1 = (cs.length : Int) := by
    rw [h.runes]; simp
  have hf : goIndex (runesOf ns.normalized) (((runesOf ns.normalized).length : Int) - 1) = .ok c.1 := by
    rw [hi, h.runes, List.map_append]
    exact goIndex_mid _ _ _ (by simp)
  have hvs := runesOf_valid s
  unfold NS.append
  simp only [hn, if_false, hf, GoM.bind_ok]
  have := C04_transformRange (ns := ns) (pre := cs) (skip := []) (mid := [c]) (post := [])
    (r := .normalized (((runesOf ns.normalized).length : Int) - 1) ns.len)
    (a := ((runesOf ns.normalized).length : Int) - 1) (b := ns.len)
    (io := 0) (by simpa using h) (⟨c.1, 0⟩ :: (runesOf s).map fun r => ⟨r, 1⟩) rfl
    (by rw [hi, text_length_of_ascii hv.1 hasc]) (by simp [NS.len, h.text_eq]) (by simp)
  have hsp : specTransform (lastAlign (cs ++ [])) (⟨c.1, 0⟩ :: (runesOf s).map fun r => ⟨r, 1⟩) [c]
      = some (c :: (runesOf s).map (fun r => (r, c.2))) := by
    have e := specTransform_ones (lastAlign [c]) (runesOf s) [] []
    simp only [List.append_nil] at e
    simp only [specTransform]
    rw [if_neg (by simp)]
    simp only [Int.neg_zero, Int.toNat_zero, List.take_zero, List.drop_zero, List.length_nil, e]
    have hc : sanitize c.1 = c.1 := sanitize_of_valid (h.valid c (by simp))
    have h2 : ((runesOf s).map fun r => (sanitize r, c.2)) = (runesOf s).map fun r => (r, c.2) := by
      apply List.map_congr_left; intro x hx; rw [sanitize_of_valid (hvs x hx)]
    simp [specTransform, hc, h2, lastAlign]
  rw [hsp] at this
  simpa using this

theorem C09_text {s : Str} (hs : ValidUtf8 s) (c : Ch) (cs : List Ch) :
    text (cs ++ c :: (runesOf s).map (fun r => (r, c.2))) = text (cs ++ [c]) ++ s := by
  have := C08_text hs c.2 []
  simp only [List.append_nil, text_nil] at this
  simp [this]

theorem C09_append_empty {ns : NS} (h : ns.normalized = []) (s : Str) : ns.append s = .ok ns := by
  simp [NS.append, h]

/-- C09 fails: appending to "éa" panics, and appending nothing corrupts the text (the second
byte of é is lost). -/
theorem C09_counterexample_corrupt :
    (NS.fromString b!"éa").append b!"x" = .panic ∧
    (NS.fromString b!"éa").append [] = .ok ⟨b!"éa", [0xC3, 0x61], [⟨0, 2⟩, ⟨0, 2⟩], 0⟩ := by
  decide +kernel

/-- C09 fails: appending to "ééé" loses a character. -/
theorem C09_counterexample_loss :
    (NS.fromString b!"ééé").append b!"x"
      = .ok ⟨b!"ééé", b!"ééx", [⟨0, 2⟩, ⟨0, 2⟩, ⟨2, 4⟩, ⟨2, 4⟩, ⟨2, 4⟩], 0⟩ := by decide +kernel

example : (NS.fromString b!"ab世").append b!"éx" = .ok ⟨b!"ab世", b!"ab世éx",
    [⟨0, 1⟩, ⟨1, 2⟩, ⟨2, 5⟩, ⟨2, 5⟩, ⟨2, 5⟩, ⟨2, 5⟩, ⟨2, 5⟩, ⟨2, 5⟩], 0⟩ := by decide +kernel

end Verif
