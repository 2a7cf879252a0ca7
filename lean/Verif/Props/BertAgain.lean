import Verif.Props.BertDecode
import Verif.Props.Unicode

/-! Encoding with the BERT tokenizer what has been normalized or read back (C103). -/

set_option autoImplicit false

namespace Verif

open Ref Json

/-! ## Normalizing rune by rune -/

theorem bertText_nil (u : Uni) (c : BertCfg) : bertText u c [] = [] := by
  unfold bertText
  simp

theorem bertText_append (u : Uni) (c : BertCfg) (as bs : List Rune) : bertText u c (as ++ bs) = bertText u c as ++ bertText u c bs := by
  unfold bertText
  dsimp only
  cases c.textCleaning <;> cases c.chineseCharsHandling <;> cases c.accentsStripping <;> cases c.lowerCaseEnabled <;> simp

theorem bertText_runes (u : Uni) (c : BertCfg) : ∀ rs : List Rune, bertText u c rs = rs.flatMap fun r => bertText u c [r]
  | [] => bertText_nil u c
  | r :: rs => by
    rw [List.flatMap_cons, ← bertText_runes u c rs, ← bertText_append]
    rfl

/-- What the normalizer makes of a rune is stable: lower-casing changes neither the class of a rune nor its own result. -/
structure StableCase (u : Uni) : Prop where
  space : u.toLower 0x20 = 0x20
  twice : ∀ r, ValidRune r → u.toLower (u.toLower r) = u.toLower r
  valid : ∀ r, ValidRune r → ValidRune (u.toLower r)
  marks : ∀ r, ValidRune r → u.isMn (u.toLower r) = u.isMn r
  dropped : ∀ r, ValidRune r → bertDropped u (u.toLower r) = bertDropped u r
  white : ∀ r, ValidRune r → isWhiteSpace (u.toLower r) = isWhiteSpace r
  chinese : ∀ r, ValidRune r → isChinese (u.toLower r) = isChinese r
  keepSpace : bertDropped u 0x20 = false ∧ u.isMn 0x20 = false

/-- A rune that the normalizer leaves, but for spaces around it. -/
def Settled (u : Uni) (c : BertCfg) (x : Rune) : Prop :=
  ValidRune x ∧ (c.textCleaning = true → bertDropped u x = false ∧ (isWhiteSpace x = true → x = 0x20))
    ∧ (c.accentsStripping = true → u.isMn x = false) ∧ (c.lowerCaseEnabled = true → u.toLower x = x)

theorem chinese_not_white {r : Rune} (h : isChinese r = true) : isWhiteSpace r = false := by
  cases hw : isWhiteSpace r with
  | false => rfl
  | true =>
    simp only [isChinese, isWhiteSpace, Bool.or_eq_true, Bool.and_eq_true, decide_eq_true_eq, beq_iff_eq] at h hw
    omega

theorem settled_space {u : Uni} (hu : StableCase u) (c : BertCfg) : Settled u c 0x20 :=
  ⟨by decide, fun _ => ⟨hu.keepSpace.1, fun _ => rfl⟩, fun _ => hu.keepSpace.2, fun _ => hu.space⟩

theorem Settled.text {u : Uni} {c : BertCfg} (hu : StableCase u) {x : Rune} (h : Settled u c x) :
    bertText u c [x] = if c.chineseCharsHandling && isChinese x then [0x20, x, 0x20] else [x] := by
  obtain ⟨h1, h2, h3, h4⟩ := h
  have a1 : (if c.textCleaning then ([x].filter fun r => !bertDropped u r).map fun r => if isWhiteSpace r then 0x20 else r else [x]) = [x] := by
    split
    · rename_i hc
      rw [List.filter_cons_of_pos (by simp [(h2 hc).1])]
      by_cases hw : isWhiteSpace x = true
      · simp [((h2 hc).2 hw)]
      · simp [hw]
    · rfl
  unfold bertText
  simp only [a1]
  generalize hl : (if c.chineseCharsHandling then [x].flatMap fun r => if isChinese r then [0x20, r, 0x20] else [r] else [x]) = l
  have hl' : l = if c.chineseCharsHandling && isChinese x then [0x20, x, 0x20] else [x] := by
    rw [← hl]
    cases c.chineseCharsHandling <;> cases hx : isChinese x <;> simp [hx]
  have hm : ∀ y ∈ l, y = 0x20 ∨ y = x := by
    intro y hy
    rw [hl'] at hy
    split at hy
    · simp at hy; grind
    · simp at hy; exact .inr hy
  have a2 : (if c.accentsStripping then l.filter fun r => !u.isMn r else l) = l := by
    split
    · rename_i hc
      rw [List.filter_eq_self]
      intro y hy
      rcases hm y hy with rfl | rfl
      · simp [hu.keepSpace.2]
      · simp [h3 hc]
    · rfl
  rw [a2, ← hl']
  split
  · rename_i hc
    have : ∀ y ∈ l, sanitize (u.toLower y) = y := by
      intro y hy
      rcases hm y hy with rfl | rfl
      · rw [hu.space]; decide
      · rw [h4 hc, sanitize_of_valid h1]
    rw [List.map_congr_left this, List.map_id']
  · rfl

/-- What the normalizer makes of one rune. -/
theorem bertText_cases {u : Uni} (hu : StableCase u) (c : BertCfg) {r : Rune} (hr : ValidRune r) :
    bertText u c [r] = [] ∨ bertText u c [r] = [0x20, 0x20]
      ∨ (∃ x, bertText u c [r] = [x] ∧ Settled u c x ∧ (c.chineseCharsHandling && isChinese x) = false)
      ∨ ∃ x, bertText u c [r] = [0x20, x, 0x20] ∧ Settled u c x ∧ (c.chineseCharsHandling && isChinese x) = true := by
  have key : ∀ y : Rune, ValidRune y → (c.textCleaning = true → bertDropped u y = false ∧ (isWhiteSpace y = true → y = 0x20)) →
      (c.accentsStripping = true → u.isMn y = false) →
      Settled u c (if c.lowerCaseEnabled then sanitize (u.toLower y) else y)
        ∧ isChinese (if c.lowerCaseEnabled then sanitize (u.toLower y) else y) = isChinese y := by
    intro y h1 h2 h3
    split
    · rename_i hc
      rw [sanitize_of_valid (hu.valid y h1)]
      refine ⟨⟨hu.valid y h1, fun ht => ⟨by rw [hu.dropped y h1]; exact (h2 ht).1, fun hw => ?_⟩, fun ha => by rw [hu.marks y h1]; exact h3 ha,
        fun _ => hu.twice y h1⟩, hu.chinese y h1⟩
      rw [hu.white y h1] at hw
      rw [(h2 ht).2 hw, hu.space]
    · rename_i hc
      exact ⟨⟨h1, h2, h3, fun h => absurd h hc⟩, rfl⟩
  -- cleaning
  have s1 : (if c.textCleaning then ([r].filter fun r => !bertDropped u r).map fun r => if isWhiteSpace r then 0x20 else r else [r]) = []
      ∨ ∃ y, (if c.textCleaning then ([r].filter fun r => !bertDropped u r).map fun r => if isWhiteSpace r then 0x20 else r else [r]) = [y]
        ∧ ValidRune y ∧ (c.textCleaning = true → bertDropped u y = false ∧ (isWhiteSpace y = true → y = 0x20)) := by
    split
    · by_cases hd : bertDropped u r = true
      · left; simp [hd]
      · right
        rw [Bool.not_eq_true] at hd
        by_cases hw : isWhiteSpace r = true
        · exact ⟨0x20, by simp [hd, hw], by decide, fun _ => ⟨hu.keepSpace.1, fun _ => rfl⟩⟩
        · exact ⟨r, by simp [hd, hw], hr, fun _ => ⟨hd, fun h => absurd h hw⟩⟩
    · rename_i hc
      exact .inr ⟨r, rfl, hr, fun h => absurd h hc⟩
  unfold bertText
  dsimp only
  rcases s1 with e | ⟨y, e, y1, y2⟩
  · left
    rw [e]
    simp
  · rw [e]
    by_cases hcc : (c.chineseCharsHandling && isChinese y) = true
    · have hc1 : c.chineseCharsHandling = true := by revert hcc; cases c.chineseCharsHandling <;> simp
      have hc2 : isChinese y = true := by revert hcc; cases isChinese y <;> simp
      simp only [hc1, if_true, List.flatMap_cons, List.flatMap_nil, List.append_nil, hc2]
      by_cases hm : c.accentsStripping = true ∧ u.isMn y = true
      · right; left
        simp [hm.1, hm.2, hu.keepSpace.2, hu.space, sanitize_of_valid (show ValidRune 0x20 by decide)]
      · right; right; right
        obtain ⟨k1, k2⟩ := key y y1 y2 (fun h => by
          cases hx : u.isMn y with
          | false => rfl
          | true => exact absurd ⟨h, hx⟩ hm)
        refine ⟨_, ?_, k1, by simp [k2, hc2]⟩
        have e2 : (if c.accentsStripping then [0x20, y, 0x20].filter fun r => !u.isMn r else [0x20, y, 0x20]) = [0x20, y, 0x20] := by
          split
          · rename_i h
            have : u.isMn y = false := by
              cases hx : u.isMn y with
              | false => rfl
              | true => exact absurd ⟨h, hx⟩ hm
            simp [this, hu.keepSpace.2]
          · rfl
        rw [e2]
        split <;> simp [hu.space, sanitize_of_valid (show ValidRune 0x20 by decide)]
    · have e1 : (if c.chineseCharsHandling then [y].flatMap fun r => if isChinese r then [0x20, r, 0x20] else [r] else [y]) = [y] := by
        revert hcc
        cases c.chineseCharsHandling <;> cases hx : isChinese y <;> simp [hx]
      rw [e1]
      by_cases hm : c.accentsStripping = true ∧ u.isMn y = true
      · left
        simp [hm.1, hm.2]
      · right; right; left
        obtain ⟨k1, k2⟩ := key y y1 y2 (fun h => by
          cases hx : u.isMn y with
          | false => rfl
          | true => exact absurd ⟨h, hx⟩ hm)
        refine ⟨_, ?_, k1, by rw [k2]; simpa using hcc⟩
        have e2 : (if c.accentsStripping then [y].filter fun r => !u.isMn r else [y]) = [y] := by
          split
          · rename_i h
            have : u.isMn y = false := by
              cases hx : u.isMn y with
              | false => rfl
              | true => exact absurd ⟨h, hx⟩ hm
            simp [this]
          · rfl
        rw [e2]
        split <;> simp

/-! ## The words again -/

theorem settled_text {u : Uni} (hu : StableCase u) (c : BertCfg) {rs : List Rune} (hr : ∀ r ∈ rs, ValidRune r) :
    ∀ x ∈ bertText u c rs, Settled u c x := by
  intro x hx
  rw [bertText_runes] at hx
  obtain ⟨r, h1, h2⟩ := List.mem_flatMap.1 hx
  rcases bertText_cases hu c (hr r h1) with e | e | ⟨y, e, hy, -⟩ | ⟨y, e, hy, -⟩ <;> rw [e] at h2
  · cases h2
  · have : x = 0x20 := by simpa using h2
    exact this ▸ settled_space hu c
  · have : x = y := by simpa using h2
    exact this ▸ hy
  · have : x = 0x20 ∨ x = y := by simp at h2; grind
    rcases this with rfl | rfl
    · exact settled_space hu c
    · exact hy

theorem white_space : isWhiteSpace 0x20 = true := by decide

/-- **C103, normalized text.** The words of the normalized text, normalized once more, are the words.  (Chinese characters get further
spaces around them each time, so the text itself changes.) -/
theorem C103_words {u : Uni} (hu : StableCase u) (c : BertCfg) {rs : List Rune} (hr : ∀ r ∈ rs, ValidRune r) :
    bertWords u c (bertText u c rs) = bertWords u c rs := by
  unfold bertWords
  generalize ([] : List Rune) = cur
  induction rs generalizing cur with
  | nil => simp [bertText_nil]
  | cons r rs ih =>
    have ih := ih fun x hx => hr x (by simp [hx])
    have e0 : bertText u c (r :: rs) = bertText u c [r] ++ bertText u c rs := by rw [← bertText_append]; rfl
    rw [e0, bertText_append]
    have hs : bertText u c [0x20] = [0x20] := by
      rw [(settled_space hu c).text hu, if_neg (by rw [show isChinese 0x20 = false by decide]; simp)]
    rcases bertText_cases hu c (hr r (by simp)) with e | e | ⟨y, e, hy, hn⟩ | ⟨y, e, hy, hn⟩
    · rw [e, bertText_nil]; exact ih cur
    · rw [e, show ([0x20, 0x20] : List Rune) = [0x20] ++ [0x20] from rfl, bertText_append, hs]
      simp [cutWords, white_space, ih]
    · rw [e, hy.text hu, if_neg (by rw [hn]; simp)]
      simp only [List.singleton_append, cutWords, ih]
    · have hw : isWhiteSpace y = false := chinese_not_white (by revert hn; cases isChinese y <;> simp)
      rw [e, show ([0x20, y, 0x20] : List Rune) = [0x20] ++ ([y] ++ [0x20]) from rfl, bertText_append, bertText_append, hs, hy.text hu,
        if_pos hn]
      by_cases hp : u.isPunct y = true
      · simp [cutWords, white_space, hw, hp, ih]
      · simp [cutWords, white_space, hw, hp, ih]

/-- Words with a space between each two. -/
def joinWords {α : Type} (space : α) : List (List α) → List α
  | [] => []
  | [w] => w
  | w :: ws => w ++ space :: joinWords space ws

/-- A word is read back as it is, or it is one Chinese character. -/
def PlainWord (u : Uni) (c : BertCfg) (w : List Rune) : Prop :=
  (∀ x ∈ w, Settled u c x) ∧ ((∀ x ∈ w, (c.chineseCharsHandling && isChinese x) = false) ∨ ∃ x, w = [x])

theorem cutWords_plain {u : Uni} (hu : StableCase u) (c : BertCfg) : ∀ {rs : List Rune} (_ : ∀ r ∈ rs, ValidRune r) {cur : List Rune}
    (_ : ∀ x ∈ cur, Settled u c x ∧ (c.chineseCharsHandling && isChinese x) = false),
    ∀ w ∈ cutWords isWhiteSpace u.isPunct cur (bertText u c rs), PlainWord u c w
  | [], _, cur, hc, w, hw => by
    rw [bertText_nil] at hw
    unfold cutWords at hw
    split at hw
    · cases hw
    · have : w = cur := by simpa using hw
      exact this ▸ ⟨fun x hx => (hc x hx).1, .inl fun x hx => (hc x hx).2⟩
  | r :: rs, hr, cur, hc, w, hw => by
    have hr' : ∀ x ∈ rs, ValidRune x := fun x hx => hr x (by simp [hx])
    have ih0 := cutWords_plain hu c hr' (cur := []) (by simp)
    have hcur : ∀ w ∈ (if cur = [] then [] else [cur]), PlainWord u c w := by
      intro w hw
      split at hw
      · cases hw
      · have : w = cur := by simpa using hw
        exact this ▸ ⟨fun x hx => (hc x hx).1, .inl fun x hx => (hc x hx).2⟩
    have e0 : bertText u c (r :: rs) = bertText u c [r] ++ bertText u c rs := by rw [← bertText_append]; rfl
    rw [e0] at hw
    rcases bertText_cases hu c (hr r (by simp)) with e | e | ⟨y, e, hy, hn⟩ | ⟨y, e, hy, hn⟩ <;> rw [e] at hw
    · exact cutWords_plain hu c hr' hc w hw
    · simp only [List.cons_append, List.nil_append, cutWords, white_space, if_true, List.mem_append] at hw
      rcases hw with hw | hw
      · exact hcur w hw
      · exact ih0 w hw
    · simp only [List.singleton_append, cutWords] at hw
      split at hw
      · rcases List.mem_append.1 hw with hw | hw
        · exact hcur w hw
        · exact ih0 w hw
      · split at hw
        · rcases List.mem_append.1 hw with hw | hw
          · exact hcur w hw
          · rcases List.mem_cons.1 hw with rfl | hw
            · exact ⟨by simpa using hy, .inr ⟨y, rfl⟩⟩
            · exact ih0 w hw
        · refine cutWords_plain hu c hr' ?_ w hw
          intro x hx
          rcases List.mem_append.1 hx with hx | hx
          · exact hc x hx
          · have : x = y := by simpa using hx
            exact this ▸ ⟨hy, hn⟩
    · have hw' : isWhiteSpace y = false := chinese_not_white (by revert hn; cases isChinese y <;> simp)
      simp only [List.cons_append, List.nil_append, cutWords, white_space, hw', if_true, Bool.false_eq_true, if_false] at hw
      rcases List.mem_append.1 hw with hw | hw
      · exact hcur w hw
      · have : w = [y] ∨ w ∈ cutWords isWhiteSpace u.isPunct [] (bertText u c rs) := by
          split at hw <;> simpa using hw
        rcases this with rfl | hw
        · exact ⟨by simpa using hy, .inr ⟨y, rfl⟩⟩
        · exact ih0 w hw

/-- A run of runes of one word is read. -/
theorem cutWords_run (isSep isSolo : Rune → Bool) : ∀ (w cur T : List Rune), (∀ x ∈ w, isSep x = false) → (∀ x ∈ w, isSolo x = false) →
    cutWords isSep isSolo cur (w ++ T) = cutWords isSep isSolo (cur ++ w) T
  | [], cur, T, _, _ => by simp
  | x :: w, cur, T, h1, h2 => by
    rw [List.cons_append, cutWords, if_neg (by simp [h1 x]), if_neg (by simp [h2 x]),
      cutWords_run isSep isSolo w (cur ++ [x]) T (fun y hy => h1 y (by simp [hy])) (fun y hy => h2 y (by simp [hy]))]
    simp

/-- One word in front of a space, or at the end. -/
theorem cut_word {u : Uni} (hu : StableCase u) (c : BertCfg) {w : List Rune} (hp : PlainWord u c w) (h0 : w ≠ [])
    (h1 : w.length = 1 ∨ ∀ x ∈ w, u.isPunct x = false) (h2 : ∀ x ∈ w, isWhiteSpace x = false) {T : List Rune} (hT : T = [] ∨ ∃ T', T = 0x20 :: T') :
    cutWords isWhiteSpace u.isPunct [] (bertText u c w ++ T) = w :: cutWords isWhiteSpace u.isPunct [] T := by
  have plain : cutWords isWhiteSpace u.isPunct [] (w ++ T) = w :: cutWords isWhiteSpace u.isPunct [] T := by
    by_cases hs : ∀ x ∈ w, u.isPunct x = false
    · rw [cutWords_run _ _ _ _ _ h2 hs, List.nil_append]
      rcases hT with rfl | ⟨T', rfl⟩
      · simp [cutWords, h0]
      · simp [cutWords, h0, white_space]
    · rcases h1 with h1 | h1
      · obtain ⟨x, rfl⟩ : ∃ x, w = [x] := List.length_eq_one_iff.1 h1
        have hx : u.isPunct x = true := by simpa using hs
        have hx2 := h2 x (by simp)
        simp [cutWords, hx, hx2]
      · exact absurd h1 hs
  by_cases hch : ∀ x ∈ w, (c.chineseCharsHandling && isChinese x) = false
  · have : bertText u c w = w := by
      rw [bertText_runes]
      have : ∀ x ∈ w, bertText u c [x] = [x] := fun x hx => by rw [(hp.1 x hx).text hu, if_neg (by rw [hch x hx]; simp)]
      rw [show w.flatMap (fun x => bertText u c [x]) = w.flatMap fun x => [x] from by
        rw [List.flatMap_def, List.flatMap_def, List.map_congr_left this]]
      simp
    rw [this]
    exact plain
  · rcases hp.2 with h | ⟨x, rfl⟩
    · exact absurd h hch
    · have hx : (c.chineseCharsHandling && isChinese x) = true := by simpa using hch
      rw [(hp.1 x (by simp)).text hu, if_pos hx]
      have hx2 := h2 x (by simp)
      have : cutWords isWhiteSpace u.isPunct [] T = cutWords isWhiteSpace u.isPunct [] (0x20 :: T) := by simp [cutWords, white_space]
      by_cases hpu : u.isPunct x = true
      · simp [cutWords, white_space, hx2, hpu]
      · simp [cutWords, white_space, hx2, hpu]

theorem cut_joined {u : Uni} (hu : StableCase u) (c : BertCfg) : ∀ {ws : List (List Rune)}, (∀ w ∈ ws, PlainWord u c w ∧ w ≠ []
    ∧ (w.length = 1 ∨ ∀ x ∈ w, u.isPunct x = false) ∧ ∀ x ∈ w, isWhiteSpace x = false) →
    cutWords isWhiteSpace u.isPunct [] (bertText u c (joinWords 0x20 ws)) = ws
  | [], _ => by simp [joinWords, bertText_nil, cutWords]
  | [w], h => by
    obtain ⟨a, b, d, e⟩ := h w (by simp)
    have := cut_word hu c a b d e (T := []) (.inl rfl)
    simpa [joinWords, cutWords] using this
  | w :: w' :: ws, h => by
    obtain ⟨a, b, d, e⟩ := h w (by simp)
    have hs : bertText u c [0x20] = [0x20] := by
      rw [(settled_space hu c).text hu, if_neg (by rw [show isChinese 0x20 = false by decide]; simp)]
    have e1 : joinWords 0x20 (w :: w' :: ws) = w ++ ([0x20] ++ joinWords 0x20 (w' :: ws)) := rfl
    have := cut_joined hu c (ws := w' :: ws) fun x hx => h x (by simp only [List.mem_cons] at hx ⊢; exact .inr hx)
    rw [e1, bertText_append, bertText_append, hs, List.singleton_append, cut_word hu c a b d e (.inr ⟨_, rfl⟩)]
    simp only [cutWords, white_space, if_true, List.nil_append]
    rw [this]

theorem cutWords_no_sep (isSep isSolo : Rune → Bool) : ∀ (rs cur : List Rune), (∀ r ∈ cur, isSep r = false) →
    ∀ w ∈ cutWords isSep isSolo cur rs, ∀ x ∈ w, isSep x = false
  | [], cur, hc, w, hw => by
    unfold cutWords at hw
    split at hw
    · cases hw
    · have : w = cur := by simpa using hw
      exact this ▸ hc
  | r :: rs, cur, hc, w, hw => by
    have ih0 := cutWords_no_sep isSep isSolo rs [] (by simp)
    have hcur : ∀ w ∈ (if cur = [] then [] else [cur]), ∀ x ∈ w, isSep x = false := by
      intro w hw
      split at hw
      · cases hw
      · have : w = cur := by simpa using hw
        exact this ▸ hc
    unfold cutWords at hw
    split at hw
    · rcases List.mem_append.1 hw with hw | hw
      · exact hcur w hw
      · exact ih0 w hw
    · rename_i hs
      split at hw
      · rcases List.mem_append.1 hw with hw | hw
        · exact hcur w hw
        · rcases List.mem_cons.1 hw with rfl | hw
          · simpa using hs
          · exact ih0 w hw
      · refine cutWords_no_sep isSep isSolo rs _ ?_ w hw
        intro x hx
        rcases List.mem_append.1 hx with hx | hx
        · exact hc x hx
        · have : x = r := by simpa using hx
          rw [this]; simpa using hs

/-- **C103, joined words.** The words of a text with a space between each two have the same words. -/
theorem C103_joined {u : Uni} (hu : StableCase u) (c : BertCfg) {rs : List Rune} (hr : ∀ r ∈ rs, ValidRune r) :
    bertWords u c (joinWords 0x20 (bertWords u c rs)) = bertWords u c rs := by
  refine cut_joined hu c fun w hw => ?_
  obtain ⟨a, b⟩ := cutWords_shape isWhiteSpace u.isPunct (bertText u c rs) [] (by simp) w hw
  exact ⟨cutWords_plain hu c hr (by simp) w hw, a, b, cutWords_no_sep _ _ _ _ (by simp) w hw⟩

/-! ## The start of a text that needs no cleaning -/

theorem goodStart_of {drop : Rune → Bool} {rs : List Rune} (h : ∀ r ∈ rs, drop r = false) : GoodStart drop rs := by
  right
  cases rs with
  | nil => simp
  | cons r rs => simp [h r (by simp)]

theorem bertStart_settled {u : Uni} (hu : StableCase u) {c : BertCfg} {rs : List Rune} (h : ∀ x ∈ rs, Settled u c x) : BertStart u c rs := by
  refine ⟨fun hc => goodStart_of fun r hr => ((h r hr).2.1 hc).1, fun hc => goodStart_of fun r hr => ?_⟩
  rw [bertText_runes] at hr
  obtain ⟨x, hx, hr⟩ := List.mem_flatMap.1 hr
  obtain ⟨h1, h2, h3, h4⟩ := h x hx
  have hs : Settled u (spacesOnly c) x := ⟨h1, h2, fun h => by simp [spacesOnly] at h, fun h => by simp [spacesOnly] at h⟩
  rw [hs.text hu] at hr
  have : r = 0x20 ∨ r = x := by
    split at hr
    · simp at hr; grind
    · simp at hr; exact .inr hr
  rcases this with rfl | rfl
  · exact hu.keepSpace.2
  · exact h3 hc

theorem mem_joinWords {α : Type} {space x : α} : ∀ {ws : List (List α)}, x ∈ joinWords space ws → x = space ∨ ∃ w ∈ ws, x ∈ w
  | [], h => by cases h
  | [w], h => .inr ⟨w, by simp, h⟩
  | w :: w' :: ws, h => by
    rcases List.mem_append.1 (show x ∈ w ++ space :: joinWords space (w' :: ws) from h) with h | h
    · exact .inr ⟨w, by simp, h⟩
    · rcases List.mem_cons.1 h with h | h
      · exact .inl h
      · rcases mem_joinWords h with h | ⟨v, hv, h⟩
        · exact .inl h
        · exact .inr ⟨v, List.mem_cons_of_mem _ hv, h⟩

theorem encode_joinWords : ∀ ws : List (List Rune), encodeRunes (joinWords 0x20 ws) = joinWords 0x20 (ws.map encodeRunes)
  | [] => rfl
  | [w] => rfl
  | w :: w' :: ws => by
    have ih := encode_joinWords (w' :: ws)
    have e1 : joinWords 0x20 (w :: w' :: ws) = w ++ ([0x20] ++ joinWords 0x20 (w' :: ws)) := rfl
    rw [e1, encodeRunes_append, encodeRunes_append, ih]
    rfl

/-! ## The encodings -/

/-- **C103, ids of normalized text.** For every vocabulary file, configuration and text: the text and its normalized text are encoded with
the same ids, tokens and word numbers. -/
theorem C103_normalized (m : Machine) (es : List (Str × Int)) (order : GoMap Str Int → List (Str × Int))
    (hv : ∀ e ∈ es, ValidUtf8 e.1) (hi : ∀ e ∈ es, -(m.half : Int) ≤ e.2 ∧ e.2 < m.half) (hk : (es.map (·.1)).Nodup) :
    ∃ v, Vocab.fromJSONFile m (writeVocab es) order = .ok v
      ∧ ∀ (unk mark : Str) (_ : unk ∈ es.map (·.1)) (max : Int) (u : Uni) (_ : StableCase u) (c : BertCfg) (rs : List Rune)
          (_ : ∀ r ∈ rs, ValidRune r) (_ : BertStart u c rs) (w ty : Int),
        ∃ enc enc', BertEncodes u c (WordPiece.mk v unk mark max) w ty (encodeRunes rs) enc
          ∧ BertEncodes u c (WordPiece.mk v unk mark max) w ty (encodeRunes (bertText u c rs)) enc'
          ∧ enc'.ids = enc.ids ∧ enc'.tokens = enc.tokens ∧ enc'.words = enc.words := by
  obtain ⟨v, h1, h2⟩ := C84_bert m es order hv hi hk
  refine ⟨v, h1, ?_⟩
  intro unk mark hunk max u hu c rs hrs hst w ty
  have hrs' := bertText_valid u c rs hrs
  have hst' := bertStart_settled hu (settled_text hu c hrs)
  obtain ⟨p0, p1, p2, enc, k1, k2, k3, k4, k5, -, k7, k8, -⟩ := h2 unk mark hunk max u hu.space c rs hrs hst.1 hst.2 w ty
  obtain ⟨p0', p1', p2', enc', l1, l2, l3, l4, l5, -, l7, l8, -⟩ := h2 unk mark hunk max u hu.space c _ hrs' hst'.1 hst'.2 w ty
  have h : cutWords isWhiteSpace u.isPunct [] (bertText u c (bertText u c rs)) = cutWords isWhiteSpace u.isPunct [] (bertText u c rs) :=
    C103_words hu c hrs
  have ht : enc'.tokens = enc.tokens := by rw [k5, l5, h]
  rw [ht] at l7
  exact ⟨enc, enc', ⟨p0, k1, p1, p2, k2, k3, k4⟩, ⟨p0', l1, p1', p2', l2, l3, l4⟩, l7.ids_eq hk k7, ht, by rw [k8, l8, h]⟩

/-- **C103, encode after decode.** The ids, looked up in the vocabulary, glued at the marks and joined by spaces, are a text with the same
ids, if no word was unknown. -/
theorem C103_decode (m : Machine) (es : List (Str × Int)) (order : GoMap Str Int → List (Str × Int))
    (hv : ∀ e ∈ es, ValidUtf8 e.1) (hi : ∀ e ∈ es, -(m.half : Int) ≤ e.2 ∧ e.2 < m.half) (hk : (es.map (·.1)).Nodup)
    (hid : (es.map (·.2)).Nodup) :
    ∃ v, Vocab.fromJSONFile m (writeVocab es) order = .ok v
      ∧ ∀ (unk : Str) (_ : unk ∈ es.map (·.1)) (max : Int) (u : Uni) (_ : StableCase u) (mk : List Rune)
          (_ : ∀ r ∈ mk, ValidRune r) (_ : 2 ≤ mk.length) (_ : ∀ r ∈ mk.head?, u.isPunct r = true) (c : BertCfg)
          (rs : List Rune) (_ : ∀ r ∈ rs, ValidRune r) (_ : BertStart u c rs) (w ty : Int),
        ∃ enc, BertEncodes u c (WordPiece.mk v unk (encodeRunes mk) max) w ty (encodeRunes rs) enc
          ∧ (unk ∉ enc.tokens →
            ∃ enc', BertEncodes u c (WordPiece.mk v unk (encodeRunes mk) max) w ty
                (joinWords 0x20 (spellWords (encodeRunes mk) (enc.ids.map (termFor es)))) enc'
              ∧ enc'.ids = enc.ids ∧ enc'.tokens = enc.tokens ∧ enc'.words = enc.words) := by
  obtain ⟨v, h1, h2⟩ := C98_same m es order hv hi hk hid
  obtain ⟨v', h1', h2'⟩ := C98_words m es order hv hi hk hid
  obtain rfl : v = v' := by rw [h1] at h1'; injection h1'
  refine ⟨v, h1, ?_⟩
  intro unk hunk max u hu mk hmv hm2 hms c rs hrs hst w ty
  obtain ⟨enc, e1, e2, -⟩ := h2' unk hunk max u hu.space mk hmv hm2 hms c rs hrs hst w ty
  refine ⟨enc, e1, fun hn => ?_⟩
  rw [e2 hn, ← encode_joinWords]
  have hset : ∀ x ∈ joinWords 0x20 (bertWords u c rs), Settled u c x := by
    intro x hx
    rcases mem_joinWords hx with rfl | ⟨w, hw, hx⟩
    · exact settled_space hu c
    · exact (cutWords_plain hu c hrs (by simp) w hw).1 x hx
  obtain ⟨f, f', g1, g2, g3, -⟩ := h2 unk hunk max u hu.space mk hmv hm2 hms c rs (joinWords 0x20 (bertWords u c rs)) hrs
    (fun r hr => (hset r hr).1) hst (bertStart_settled hu hset) w ty
  obtain ⟨a1, a2, a3⟩ := g3 (C103_joined hu c hrs).symm
  have : f = enc := by
    obtain ⟨p0, q1, p1, p2, q2, q3, q4⟩ := g1
    obtain ⟨p0', q1', p1', p2', q2', q3', q4'⟩ := e1
    rw [q1] at q1'; injection q1' with q1'; injection q1' with q1'; subst q1'
    rw [q2] at q2'; injection q2' with q2'; injection q2' with q2'; subst q2'
    rw [q3] at q3'; injection q3' with q3'; injection q3' with q3'; subst q3'
    rw [q4] at q4'; injection q4' with q4'; injection q4' with q4'
  subst this
  exact ⟨f', g2, a1.symm, a2.symm, a3.symm⟩

/-! ## The tables of Unicode -/

/-- The Chinese characters of the BERT normalizer as a table. -/
def tableChinese : List (Nat × Nat) :=
  [(0x3400, 0x4dbf), (0x4e00, 0x9fff), (0xf900, 0xfaff), (0x20000, 0x2a6df), (0x2a700, 0x2b73f), (0x2b740, 0x2b81f), (0x2b920, 0x2ceaf),
   (0x2f800, 0x2fa1f)]

theorem chinese_eq (r : Rune) : isChinese r = Unicode.inTable tableChinese r := by
  rw [Bool.eq_iff_iff]
  simp only [isChinese, Unicode.inTable, tableChinese, List.any_cons, List.any_nil, Bool.or_eq_true, Bool.and_eq_true,
    decide_eq_true_eq, Nat.ble_eq, Bool.or_false]
  omega

theorem one_eq (n : Nat) (r : Rune) : (r == (n : Int)) = Unicode.inTable [(n, n)] r := by
  rw [Bool.eq_iff_iff]
  simp only [Unicode.inTable, List.any_cons, List.any_nil, Bool.and_eq_true, decide_eq_true_eq, Nat.ble_eq, Bool.or_false, beq_iff_eq]
  omega

set_option maxRecDepth 20000

theorem chinese_side : Unicode.sameSide tableChinese = true := by decide +kernel
theorem one_side : ∀ n ∈ [0, 0xFFFD, 9, 10, 13], Unicode.sameSide [(n, n)] = true := by decide +kernel

theorem toLower_one {n : Nat} (h : n ∈ [0, 0xFFFD, 9, 10, 13]) (r : Rune) : (Unicode.toLower r == (n : Int)) = (r == (n : Int)) := by
  rw [one_eq, one_eq]
  exact Unicode.sameSide_spec (one_side n h) r

/-- **C103, Unicode.** What C103 asks holds of the tables of Unicode. -/
theorem C103_unicode : StableCase Unicode.uni where
  space := Unicode.C94_bert_sane.1
  twice r _ := Unicode.C94_toLower_twice r
  valid r h := Unicode.toLower_valid h
  marks r _ := (Unicode.C94_classes r).2.2.1
  dropped r _ := by
    have h0 := toLower_one (n := 0) (by simp) r
    have h1 := toLower_one (n := 0xFFFD) (by simp) r
    have h2 := toLower_one (n := 9) (by simp) r
    have h3 := toLower_one (n := 10) (by simp) r
    have h4 := toLower_one (n := 13) (by simp) r
    have h5 := (Unicode.C94_classes r).2.1
    show bertDropped Unicode.uni (Unicode.toLower r) = bertDropped Unicode.uni r
    unfold bertDropped
    rw [h5]
    simp only [Int.cast_ofNat_Int] at h0 h1 h2 h3 h4
    rw [h0, h1, h2, h3, h4]
  white r _ := (Unicode.C94_classes r).2.2.2.1
  chinese r _ := by
    show isChinese (Unicode.toLower r) = isChinese r
    rw [chinese_eq, chinese_eq]
    exact Unicode.sameSide_spec chinese_side r
  keepSpace := by decide +kernel

/-! ## Examples -/

/-- "É世, x" as BERT sees it, once and twice. -/
example : bertText Unicode.uni ⟨true, true, true, true⟩ (runesOf b!"É世,\tx") = runesOf b!"é 世 , x"
    ∧ bertText Unicode.uni ⟨true, true, true, true⟩ (runesOf b!"é 世 , x") = runesOf b!"é  世  , x"
    ∧ bertWords Unicode.uni ⟨true, true, true, true⟩ (runesOf b!"É世,\tx") = [[u!"é"], [u!"世"], [u!","], [u!"x"]]
    ∧ joinWords 0x20 [[u!"é"], [u!"世"], [u!","], [u!"x"]] = runesOf b!"é 世 , x" := by decide +kernel

/-- With a table in which a capital and an accent are one another's lower case, the words change. -/
example : ∃ u : Uni, bertWords u ⟨false, false, true, true⟩ (bertText u ⟨false, false, true, true⟩ [u!"A"])
    ≠ bertWords u ⟨false, false, true, true⟩ [u!"A"] :=
  ⟨⟨fun _ => false, fun r => r == 0x301, fun _ => false, fun r => if r = u!"A" then 0x301 else r⟩, by decide +kernel⟩

end Verif
