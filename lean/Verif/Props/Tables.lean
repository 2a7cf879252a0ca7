import Verif.Props.ByteLevel
import Verif.Props.Bert
import Verif.Props.MergeFile
import Verif.Props.StrUtils
import Verif.Model.Notation
import Verif.Model.Literal
import Verif.Model.Regexp

/-!
Constants of the code against lists written out again: the UTF-8 codec against the one of
Lean's own `String`, the Chinese blocks, the white space characters, the byte table of GPT-2,
and the marker of comment lines in merges files.  The specifications of the other files use
some of the model's predicates; these theorems say what those predicates are.
-/

set_option autoImplicit false

namespace Verif

/-! ## UTF-8 -/

/-- Valid runes are Lean's characters. -/
theorem validRune_iff_char (r : Rune) : ValidRune r ↔ ∃ c : Char, r = (c.toNat : Int) := by
  constructor
  · intro h
    refine ⟨⟨UInt32.ofNat r.toNat, ?_⟩, ?_⟩
    · have : (UInt32.ofNat r.toNat).toNat = r.toNat := by
        rw [UInt32.toNat_ofNat']
        rcases h with h | h <;> omega
      unfold UInt32.isValidChar Nat.isValidChar
      rw [this]
      rcases h with h | h <;> omega
    · have : (UInt32.ofNat r.toNat).toNat = r.toNat := by
        rw [UInt32.toNat_ofNat']
        rcases h with h | h <;> omega
      show r = ((UInt32.ofNat r.toNat).toNat : Int)
      rw [this]
      rcases h with h | h <;> omega
  · rintro ⟨c, rfl⟩
    have := c.valid
    unfold UInt32.isValidChar Nat.isValidChar at this
    unfold ValidRune
    show (0 ≤ (c.val.toNat : Int) ∧ (c.val.toNat : Int) < 0xD800)
      ∨ (0xDFFF < (c.val.toNat : Int) ∧ (c.val.toNat : Int) ≤ 0x10FFFF)
    omega

/-- A rune is encoded as Lean encodes the character. -/
theorem encodeRune_char (c : Char) : encodeRune (c.toNat : Int) = String.utf8EncodeChar c := by
  have hv : ValidRune (c.toNat : Int) := (validRune_iff_char _).2 ⟨c, rfl⟩
  have hle : c.toNat ≤ 0x10FFFF := by rcases hv with h | h <;> omega
  unfold encodeRune
  rw [sanitize_of_valid hv]
  show encodeNat c.val.toNat = _
  have hle : c.val.toNat ≤ 0x10FFFF := hle
  unfold encodeNat String.utf8EncodeChar
  simp only []
  generalize c.val.toNat = v at *
  have hm : ∀ x y : Nat, x = y → UInt8.ofNat x = UInt8.ofNat y := fun _ _ h => by rw [h]
  by_cases h1 : v < 0x80
  · rw [if_pos h1, if_pos (by omega)]
  rw [if_neg h1, if_neg (show ¬v ≤ 127 by omega)]
  by_cases h2 : v < 0x800
  · rw [if_pos h2, if_pos (show v ≤ 2047 by omega), hm (0xC0 + v / 64) (v / 64 % 32 + 192) (by omega),
      hm (0x80 + v % 64) (v % 64 + 128) (by omega)]
  rw [if_neg h2, if_neg (show ¬v ≤ 2047 by omega)]
  by_cases h3 : v < 0x10000
  · rw [if_pos h3, if_pos (show v ≤ 65535 by omega), hm (0xE0 + v / 4096) (v / 4096 % 16 + 224) (by omega),
      hm (0x80 + v / 64 % 64) (v / 64 % 64 + 128) (by omega), hm (0x80 + v % 64) (v % 64 + 128) (by omega)]
  rw [if_neg h3, if_neg (show ¬v ≤ 65535 by omega), hm (0xF0 + v / 262144) (v / 262144 % 8 + 240) (by omega),
    hm (0x80 + v / 4096 % 64) (v / 4096 % 64 + 128) (by omega),
    hm (0x80 + v / 64 % 64) (v / 64 % 64 + 128) (by omega), hm (0x80 + v % 64) (v % 64 + 128) (by omega)]

/-- What is not a character is written as U+FFFD. -/
theorem encodeRune_other (r : Rune) (h : ¬∃ c : Char, r = (c.toNat : Int)) :
    encodeRune r = String.utf8EncodeChar '�' := by
  have hs : sanitize r = runeError := by
    unfold sanitize
    rw [if_neg (fun hv => h ((validRune_iff_char r).1 hv))]
  unfold encodeRune
  rw [hs]
  decide +kernel

theorem runes_of_chars (rs : List Rune) (h : ∀ r ∈ rs, ValidRune r) :
    ∃ cs : List Char, rs = cs.map fun c => (c.toNat : Int) := by
  induction rs with
  | nil => exact ⟨[], rfl⟩
  | cons r rs ih =>
    obtain ⟨cs, hcs⟩ := ih (fun x hx => h x (by simp [hx]))
    obtain ⟨c, hc⟩ := (validRune_iff_char r).1 (h r (by simp))
    exact ⟨c :: cs, by simp [hc, hcs]⟩

theorem encodeRunes_chars (cs : List Char) :
    encodeRunes (cs.map fun c => (c.toNat : Int)) = cs.flatMap String.utf8EncodeChar := by
  induction cs with
  | nil => rfl
  | cons c cs ih => rw [List.map_cons, encodeRunes_cons, ih, encodeRune_char, List.flatMap_cons]

/-- Valid text is what Lean calls valid UTF-8. -/
theorem validUtf8_iff_lean (s : Str) : ValidUtf8 s ↔ ByteArray.IsValidUTF8 s.toByteArray := by
  constructor
  · rintro ⟨rs, hv, rfl⟩
    obtain ⟨cs, rfl⟩ := runes_of_chars rs hv
    exact ⟨cs, by rw [encodeRunes_chars]; rfl⟩
  · rintro ⟨cs, h⟩
    refine ⟨cs.map fun c => (c.toNat : Int), ?_, ?_⟩
    · intro r hr
      obtain ⟨c, _, rfl⟩ := List.mem_map.1 hr
      exact (validRune_iff_char _).2 ⟨c, rfl⟩
    · rw [encodeRunes_chars]
      have := congrArg (fun b : ByteArray => b.data.toList) h
      simpa [List.utf8Encode] using this.symm

/-- Decoding: the character that the bytes start with, or U+FFFD of width 1 if they start
with none. -/
theorem decodeRune_spec (s : Str) (hs : s ≠ []) :
    (∃ (c : Char) (rest : Str), s = String.utf8EncodeChar c ++ rest
        ∧ decodeRune s = ((c.toNat : Int), (String.utf8EncodeChar c).length))
    ∨ ((∀ (c : Char) (rest : Str), s ≠ String.utf8EncodeChar c ++ rest)
        ∧ decodeRune s = (0xFFFD, 1)) := by
  by_cases h : ∃ (c : Char) (rest : Str), s = String.utf8EncodeChar c ++ rest
  · obtain ⟨c, rest, rfl⟩ := h
    refine .inl ⟨c, rest, rfl, ?_⟩
    rw [← encodeRune_char]
    exact decodeRune_encodeRune ((validRune_iff_char _).2 ⟨c, rfl⟩) rest
  · refine .inr ⟨fun c rest e => h ⟨c, rest, e⟩, ?_⟩
    rcases decodeRune_cases s hs with hi | ⟨rest, hi⟩
    · exact hi
    · obtain ⟨c, hc⟩ := (validRune_iff_char _).1 (decodeRune_valid s)
      rw [hc, encodeRune_char] at hi
      exact absurd ⟨c, rest, hi⟩ h

/-- **C18, the codec.** Text is decoded and encoded as Lean's `String` does it; bytes that
start no character give U+FFFD, one byte at a time, and what is not a character is written as
U+FFFD. -/
theorem C18_codec :
    (∀ c : Char, encodeRune (c.toNat : Int) = String.utf8EncodeChar c)
    ∧ (∀ r : Rune, (¬∃ c : Char, r = (c.toNat : Int)) → encodeRune r = String.utf8EncodeChar '�')
    ∧ (∀ s : Str, ValidUtf8 s ↔ ByteArray.IsValidUTF8 s.toByteArray)
    ∧ (∀ s : Str, s ≠ [] →
        (∃ (c : Char) (rest : Str), s = String.utf8EncodeChar c ++ rest
            ∧ decodeRune s = ((c.toNat : Int), (String.utf8EncodeChar c).length))
        ∨ ((∀ (c : Char) (rest : Str), s ≠ String.utf8EncodeChar c ++ rest) ∧ decodeRune s = (0xFFFD, 1))) :=
  ⟨encodeRune_char, encodeRune_other, validUtf8_iff_lean, decodeRune_spec⟩

/-- The runes of a string are its characters. -/
theorem C18_string (s : String) :
    runesOf s.toUTF8.data.toList = s.toList.map fun c => (c.toNat : Int) := by
  have h1 : s.toUTF8.data.toList = s.toList.flatMap String.utf8EncodeChar := by
    rw [String.toUTF8_eq_toByteArray, ← String.utf8Encode_toList]
    simp [List.utf8Encode]
  rw [h1, ← encodeRunes_chars, runesOf_encodeRunes]
  intro r hr
  obtain ⟨c, _, rfl⟩ := List.mem_map.1 hr
  exact (validRune_iff_char _).2 ⟨c, rfl⟩

/-! ## Chinese characters -/

/-- The blocks of `chineseCharacters`, as (first, last).  The block from U+2B920 starts 256
characters late: the Unicode block starts at U+2B820. -/
def chineseBlocks : List (Rune × Rune) :=
  [(0x3400, 0x4dbf), (0x4e00, 0x9fff), (0xf900, 0xfaff), (0x20000, 0x2a6df), (0x2a700, 0x2b73f),
   (0x2b740, 0x2b81f), (0x2b920, 0x2ceaf), (0x2f800, 0x2fa1f)]

/-- **C34, the Chinese characters** are exactly those of the blocks. -/
theorem C34_chinese (r : Rune) : isChinese r = true ↔ ∃ b ∈ chineseBlocks, b.1 ≤ r ∧ r ≤ b.2 := by
  simp [isChinese, chineseBlocks, or_assoc]

example : isChinese u!"中" = true ∧ isChinese u!"a" = false ∧ isChinese u!"あ" = false := by decide +kernel

/-! ## White space -/

/-- The characters with the Unicode property White_Space. -/
def whiteSpaceRunes : List Rune :=
  [0x09, 0x0A, 0x0B, 0x0C, 0x0D, 0x20, 0x85, 0xA0, 0x1680, 0x2000, 0x2001, 0x2002, 0x2003, 0x2004, 0x2005,
   0x2006, 0x2007, 0x2008, 0x2009, 0x200A, 0x2028, 0x2029, 0x202F, 0x205F, 0x3000]

/-- White space is the list. -/
theorem isWhiteSpace_iff (r : Rune) : isWhiteSpace r = true ↔ r ∈ whiteSpaceRunes := by
  simp [isWhiteSpace, whiteSpaceRunes]
  omega

/-! ## Bytes as runes -/

/-- The bytes GPT-2 does not print as themselves, in order. -/
def hiddenBytes : List Nat := List.range 33 ++ List.range' 127 34 ++ [0xAD]

/-- **C33, the GPT-2 table.** The 68 hidden bytes (controls, space, 0x7F to 0xA0 and the soft
hyphen) become U+0100 and following in order; every other byte becomes the character of
its number. -/
theorem C33_gpt2_table (b : UInt8) :
    (∀ k : Nat, hiddenBytes[k]? = some b.toNat → byteToRune b = 0x100 + k)
    ∧ (b.toNat ∉ hiddenBytes → byteToRune b = b.toNat) := by
  have h1 := byte_forall (fun n => decide ((∀ k ∈ List.range 68, hiddenBytes[k]? = some n → byteTable.getD n 0 = 0x100 + (k : Int))
    ∧ (n ∉ hiddenBytes → byteTable.getD n 0 = (n : Int)))) (by decide +kernel) b
  simp only [decide_eq_true_eq] at h1
  refine ⟨fun k hk => h1.1 k ?_ hk, h1.2⟩
  have := (List.getElem?_eq_some_iff.1 hk).1
  exact List.mem_range.2 this

example : byteToRune 32 = u!"Ġ" ∧ byteToRune 10 = u!"Ċ" ∧ byteToRune 0xAD = 0x143 := by decide +kernel

/-! ## Merges files -/

/-- Comment lines are those starting with `#version`. -/
theorem isVersion_iff (line : Str) : isVersion line = true ↔ ∃ rest, line = b!"#version" ++ rest := by
  unfold isVersion
  rw [List.isPrefixOf_iff_prefix]
  constructor
  · rintro ⟨t, rfl⟩; exact ⟨t, rfl⟩
  · rintro ⟨t, rfl⟩; exact ⟨t, rfl⟩

/-- **C51, comments**: exactly the lines starting with `#version`. -/
theorem C51_version (line : Str) : isVersion line = true ↔ ∃ rest, line = b!"#version" ++ rest :=
  isVersion_iff line

example : scanLines b!"#version: 0.2\na b\nc d" = [b!"#version: 0.2", b!"a b", b!"c d"] := by decide +kernel

/-! ## Offsets -/

/-- **C19, the empty sequence**: everything is converted to (0, 0). -/
theorem C19_empty (o : ByteOffsets) : convertOffsets (newBytesToRuneOffsetConverter []) o = .ok ⟨0, 0⟩ := rfl

theorem encodeRunes_length_eq_iff (rs : List Rune) :
    (encodeRunes rs).length = rs.length ↔ ∀ r ∈ rs, runeLen r = 1 := by
  induction rs with
  | nil => simp [encodeRunes]
  | cons r rs ih =>
    have h1 := encodeRune_length_pos r
    have h2 : rs.length ≤ (encodeRunes rs).length := by
      clear ih
      induction rs with
      | nil => simp
      | cons x xs ih =>
        have := encodeRune_length_pos x
        rw [encodeRunes_cons, List.length_append, List.length_cons]; omega
    rw [encodeRunes_cons, List.length_append, List.length_cons]
    simp only [List.mem_cons, forall_eq_or_imp, ← ih]
    unfold runeLen
    omega

/-- **C19, exactly.** On every valid text and non-empty range of whole runes, the result is the
one asked for iff all runes before the range are ASCII, and all of the range as well, except
the last one if the range ends the text. -/
theorem C19_exact (us ms vs : List Rune) (hv : ∀ x ∈ us ++ ms ++ vs, ValidRune x) (hm : ms ≠ []) :
    convertOffsets (newBytesToRuneOffsetConverter (encodeRunes (us ++ ms ++ vs)))
        ⟨(encodeRunes us).length, (encodeRunes (us ++ ms)).length⟩ = .ok ⟨us.length, (us ++ ms).length⟩
      ↔ ∀ r ∈ us ++ (if vs = [] then ms.dropLast else ms), 0 ≤ r ∧ r < 0x80 := by
  rw [C19_actual us ms vs hv hm]
  have hone : ∀ rs : List Rune, (∀ r ∈ rs, ValidRune r) →
      ((∀ r ∈ rs, 0 ≤ r ∧ r < 0x80) ↔ (encodeRunes rs).length = rs.length) := by
    intro rs hrs
    rw [encodeRunes_length_eq_iff]
    constructor
    · intro h r hr
      exact runeLen_eq_one.2 (h r hr)
    · intro h r hr
      exact runeLen_eq_one.1 (h r hr)
  have hsub : ∀ r ∈ us ++ (if vs = [] then ms.dropLast else ms), ValidRune r := by
    intro r hr
    apply hv
    rcases List.mem_append.1 hr with h | h
    · simp [h]
    · split at h
      · simp [List.dropLast_subset _ h]
      · simp [h]
  have hus : ∀ r ∈ us, ValidRune r := fun r hr => hv r (by simp [hr])
  rw [hone _ hsub]
  have hge : ∀ rs : List Rune, rs.length ≤ (encodeRunes rs).length := by
    intro rs
    induction rs with
    | nil => simp
    | cons x xs ih =>
      have := encodeRune_length_pos x
      rw [encodeRunes_cons, List.length_append, List.length_cons]; omega
  have g1 := hge us
  have hl : ms.length = ms.dropLast.length + 1 := by
    rw [List.length_dropLast]
    have := List.length_pos_iff.2 hm
    omega
  have g2 := hge ms
  have g3 := hge ms.dropLast
  simp only [GoM.ok.injEq, RuneOffsets.mk.injEq]
  split
  · rw [encodeRunes_append, List.length_append, List.length_append, List.length_append]
    omega
  · rw [encodeRunes_append, List.length_append, List.length_append]
    omega

/-- **C19, out of range**: on non-empty text, converting panics iff the start is not the index
of a byte or the end is neither that nor the length. -/
theorem C19_panics (rs : List Rune) (hv : ∀ x ∈ rs, ValidRune x) (hne : rs ≠ []) (o : ByteOffsets) :
    convertOffsets (newBytesToRuneOffsetConverter (encodeRunes rs)) o = .panic
      ↔ ¬((0 ≤ o.start ∧ o.start < (encodeRunes rs).length) ∧ (0 ≤ o.stop ∧ o.stop ≤ (encodeRunes rs).length)) := by
  have hlen : (newBytesToRuneOffsetConverter (encodeRunes rs)).length = (encodeRunes rs).length := by
    rw [converter_encodeRunes _ hv, converter_length]
  have hpos : 0 < (encodeRunes rs).length := by
    obtain ⟨r, rs', rfl⟩ := List.exists_cons_of_ne_nil hne
    have := encodeRune_length_pos r
    rw [encodeRunes_cons, List.length_append]; omega
  generalize newBytesToRuneOffsetConverter (encodeRunes rs) = mp at hlen
  rw [← hlen] at hpos ⊢
  have hout : ∀ i : Int, ¬(0 ≤ i ∧ i < mp.length) → goIndex mp i = .panic := by
    intro i h
    unfold goIndex
    by_cases h0 : 0 ≤ i
    · rw [if_pos h0, List.getElem?_eq_none (by omega)]
    · rw [if_neg h0]
  unfold convertOffsets
  rw [if_neg (by omega)]
  by_cases h1 : 0 ≤ o.start ∧ o.start < mp.length
  · obtain ⟨x, hx⟩ := goIndex_of_lt h1.1 h1.2
    rw [hx]
    simp only [GoM.bind_ok]
    by_cases h2 : o.stop = mp.length
    · rw [if_pos h2]
      obtain ⟨y, hy⟩ := goIndex_of_lt (l := mp) (i := o.stop - 1) (by omega) (by omega)
      rw [hy]
      constructor
      · intro h; simp [GoM.bind_ok] at h
      · intro h; exact absurd ⟨h1, by omega, by omega⟩ h
    · rw [if_neg h2]
      by_cases h3 : 0 ≤ o.stop ∧ o.stop < mp.length
      · obtain ⟨y, hy⟩ := goIndex_of_lt h3.1 h3.2
        rw [hy]
        constructor
        · intro h; cases h
        · intro h; exact absurd ⟨h1, by omega, by omega⟩ h
      · rw [hout _ h3]
        exact ⟨fun _ h => h3 ⟨h.2.1, by omega⟩, fun _ => rfl⟩
  · rw [hout _ h1]
    exact ⟨fun _ h => h1 h.1, fun _ => rfl⟩

example : convertOffsets (newBytesToRuneOffsetConverter b!"ab") ⟨2, 2⟩ = .panic := by decide +kernel

/-! ## Small helpers of the model -/

/-- A literal matches exactly the runes that, lower-cased, are its own, and then all of them. -/
theorem lit_matches_all (lower : Rune → Rune) : ∀ (cs rs : List Rune), (Re.lit lower cs).matches' rs
    = if (rs.take cs.length).map lower = cs then [cs.length] else [] := by
  intro cs
  induction cs with
  | nil => intro rs; cases rs <;> simp [Re.lit, Re.matches']
  | cons c cs ih =>
    intro rs
    cases cs with
    | nil => cases rs <;> simp [Re.lit, Re.matches']
    | cons c' cs =>
      simp only [Re.lit, Re.matches']
      cases rs with
      | nil => simp [Re.matches']
      | cons r rs =>
        by_cases h : lower r = c
        · simp only [Re.matches', h, beq_self_eq_true, if_true, List.flatMap_cons, List.flatMap_nil, List.append_nil,
            List.drop_succ_cons, List.drop_zero, ih]
          by_cases h2 : (rs.take (c' :: cs).length).map lower = c' :: cs
          · rw [if_pos h2, if_pos (by simpa [h] using h2)]
            simp; omega
          · rw [if_neg h2, if_neg (by simpa [h] using h2)]
            rfl
        · simp [Re.matches', h]

/-- `l[i] = x` panics exactly when `i` is not an index of `l`; otherwise that element, and no other, is `x`. -/
theorem goSet_spec {α : Type} (l : List α) (i : Int) (x : α) :
    (goSet l i x = .panic ↔ ¬(0 ≤ i ∧ i < (l.length : Int))) ∧
    ∀ l', goSet l i x = .ok l' → l'.length = l.length ∧
      ∀ k : Nat, l'[k]? = if (k : Int) = i then some x else l[k]? := by
  unfold goSet
  by_cases h : 0 ≤ i ∧ i < (l.length : Int)
  · rw [if_pos h]
    refine ⟨⟨fun e => (nomatch e), fun e => absurd h e⟩, fun l' e => ?_⟩
    simp only [GoM.ok.injEq] at e
    subst e
    refine ⟨by simp, fun k => ?_⟩
    rw [List.getElem?_set]
    by_cases hk : (k : Int) = i
    · rw [if_pos hk, if_pos (by omega), if_pos (by omega)]
    · rw [if_neg hk, if_neg (by omega)]
  · rw [if_neg h]
    exact ⟨⟨fun _ => h, fun _ => rfl⟩, fun l' e => (nomatch e)⟩

/-- No bytes: U+FFFD of width 0, as `utf8.DecodeRuneInString` says. -/
theorem decodeRune_empty : decodeRune [] = (runeError, 0) := rfl

/-- `startsWithWhitespace`: there is a first rune and it is white space. -/
theorem startsWithWhitespace_iff (s : Str) :
    startsWithWhitespace s = true ↔ ∃ r rs, runesOf s = r :: rs ∧ isWhiteSpace r = true := by
  unfold startsWithWhitespace
  cases runesOf s <;> simp

example : (Re.lit id [39, 115]).matches' [39, 115, 120] = [2] ∧ (Re.lit id [39, 115]).matches' [39, 116] = [] := by decide +kernel
example : goSet [1, 2] 2 5 = .panic ∧ goSet [1, 2] 1 5 = .ok [1, 5] := by decide +kernel
example : startsWithWhitespace [] = false ∧ startsWithWhitespace b!" a" = true := by decide +kernel

end Verif
