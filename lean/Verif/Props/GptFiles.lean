import Verif.Props.GptPipeline
import Verif.Props.Reference
import Verif.Model.Notation

/-! Property C83: the GPT-2 tokenizer, from its two files to the encoding. -/

set_option autoImplicit false

namespace Verif

open Ref Json

/-- The bytes of a piece, each as the character of the byte table. -/
def byteLetters (g : List Rune) : List Str := (encodeRunes g).map fun b => encodeRune (byteToRune b)

/-- As many copies of each piece's number as it has tokens. -/
def wordNumbers (w : Int) : Nat → List Nat → List Int
  | _, [] => []
  | i, n :: ns => List.replicate n (if 0 ≤ w then w else (i : Int)) ++ wordNumbers w (i + 1) ns

theorem wordsFrom_numbers (w : Int) (i : Nat) (T : List (List Token)) :
    wordsFrom w i T = wordNumbers w i (T.map (·.length)) := by
  induction T generalizing i with
  | nil => rfl
  | cons ts T ih => simp [wordsFrom, wordNumbers, ih, List.map_const']

/-- **C83.** A vocabulary with all byte characters and rules are written to files and loaded.  Then every valid UTF-8
input is encoded: it is cut into the GPT-2 pieces, and each piece into the texts that the rules make of its bytes; the ids
are those of the vocabulary file, and the offsets select the characters that the bytes of a token touch. -/
theorem C83_gpt2 (m : Machine) (es : List (Str × Int)) (rules : List (Str × Str))
    (order : GoMap Str Int → List (Str × Int)) (ho : IterationOrder order)
    (hv : ∀ e ∈ es, ValidUtf8 e.1 ∧ e.1 ≠ []) (hi : ∀ e ∈ es, -(m.half : Int) ≤ e.2 ∧ e.2 < m.half)
    (hk : (es.map (·.1)).Nodup) (hid : (es.map (·.2)).Nodup) (hw : ∀ r ∈ rules, Writable r)
    (hr : ∀ r ∈ rules, ∀ t ∈ [r.1, r.2, r.1 ++ r.2], t ∈ es.map (·.1))
    (hb : ∀ b : UInt8, encodeRune (byteToRune b) ∈ es.map (·.1)) :
    ∃ v merges, Vocab.fromJSONFile m (writeVocab es) order = .ok v
      ∧ mergeMapFromFile (writeRules rules) v 0 = .ok (.ok merges)
      ∧ ∀ (u : RxUni) (_ : SaneTables u) (capacity : Int) (unk : Str) (_ : unk = [] ∨ unk ∈ es.map (·.1)) (fuse : Bool)
          (rnd : NS → Nat → Bool) (addSpace : Bool) (rs : List Rune) (_ : ∀ r ∈ rs, ValidRune r) (w ty : Int),
        ∃ p1 p2 enc L, byteLevel (splittingRegexp u).findAll addSpace (PTS.fromString (encodeRunes rs)) = .ok (p1, none)
          ∧ p1.tokenize ((plainBPE v merges capacity unk [] fuse).tokenizeNS rnd) = .ok (p2, none)
          ∧ p2.intoEncoding w ty = .ok (.ok enc)
          ∧ GptPieces u [] (spacedRunes addSpace rs) L
          ∧ enc.tokens = L.flatMap (fun x => bpe rules (byteLetters x.2))
          ∧ All2 (fun t i => (t, i) ∈ es) enc.tokens enc.ids
          ∧ enc.words = wordNumbers w 0 (L.map fun x => (bpe rules (byteLetters x.2)).length)
          ∧ All2 (fun t o => ∃ y, y = (runesOf t).map runeToByte ∧ (SelectsTouched (encodeRunes rs) y o
              ∨ (addedBytes addSpace rs = 1 ∧ ∃ y', y = 32 :: y' ∧ y' ≠ [] ∧ SelectsTouched (encodeRunes rs) y' o)
              ∨ (addedBytes addSpace rs = 1 ∧ y = [32]
                  ∧ goSlice (encodeRunes rs) o.start o.stop = .ok (encodeRunes (rs.take 1))))) enc.tokens enc.offsets := by
  obtain ⟨v, merges, h1, h2, h3, h4⟩ := C82_files m es rules order ho (fun e he => (hv e he).1) hi hk hid hw hr
  refine ⟨v, merges, h1, h2, ?_⟩
  intro u hu capacity unk hunk fuse rnd addSpace rs hrs w ty
  have hknown : ∀ t, t ∈ es.map (·.1) → v.getID t ≠ none := by
    intro t ht
    obtain ⟨e, he, rfl⟩ := List.mem_map.1 ht
    rw [(h3 _ _).2 he]; simp
  have hkey : ∀ i last r, (plainBPE v merges capacity unk [] fuse).lookupKey i last r = encodeRune r := by
    intro i last r
    simp [BPE.lookupKey, BPE.hasContinuingSubwordPrefix, BPE.hasEndOfWordSuffix, plainBPE]
  obtain ⟨p1, p2, enc, L, T, yss, g1, g2, g3, g4, g5, g6, -, g8⟩ := C65_gpt hu addSpace rs hrs
    (plainBPE v merges capacity unk [] fuse) rnd
    (fun t i h => by
      have : v.getString i = some t := (h4.inv t i).1 h
      show v.getString i ≠ none
      rw [this]; simp)
    (fun a b x h => by
      obtain ⟨_, _, _, -, -, -, k, -⟩ := (h4.iff _ _ _).1 h
      have := (h4.inv _ _).1 k
      show v.getString x.id ≠ none
      rw [this]; simp)
    (fun h => hknown _ (hunk.resolve_left h))
    (.inr fun b i last => by rw [hkey]; exact hknown _ (hb b)) w ty
  have hpiece : All2 (fun (x : List Rune × List Rune) (ts : List Token) =>
      ts.map (·.value) = bpe rules (byteLetters x.2) ∧ ∀ t ∈ ts, (t.value, t.id) ∈ es) L T := by
    refine g5.imp ?_
    rintro x ts - - ⟨rnd', ht⟩
    have hval : ∀ r ∈ (encodeRunes x.2).map byteToRune, ValidRune r := by
      intro r hr
      obtain ⟨b, -, rfl⟩ := List.mem_map.1 hr
      exact (byteToRune_good b).1
    have hlet : ((encodeRunes x.2).map byteToRune).map encodeRune = byteLetters x.2 := by simp [byteLetters]
    obtain ⟨ts', k1, k2, k3, -⟩ := loaded_tokens hv h2 h3 h4 capacity unk [] fuse rnd' ((encodeRunes x.2).map byteToRune) hunk hval
      (by
        intro y hy
        rw [suffixed_nil, hlet] at hy
        obtain ⟨b, -, rfl⟩ := List.mem_map.1 hy
        exact hb b)
    have e : ts' = ts := by
      have : encodeRunes ((encodeRunes x.2).map byteToRune) = tableText x.2 := rfl
      rw [this, ht] at k1
      simpa using k1.symm
    subst e
    rw [suffixed_nil, hlet] at k2
    exact ⟨k2, k3⟩
  have htok : enc.tokens = L.flatMap (fun x => bpe rules (byteLetters x.2)) := by
    rw [g6.tokens]
    clear g4 g5 g6 g8
    induction hpiece with
    | nil => rfl
    | cons h _ ih => simp only [List.flatten_cons, List.map_append, List.flatMap_cons, ih, h.1]
  have hy := g8 rfl rfl (fun b => hknown _ (hb b)) (fun t i h => (h4.inv t i).1 h)
    (BPE.C45_file (writeRules rules) v h4.inv h2)
  refine ⟨p1, p2, enc, L, g1, g2, g3, g4, htok, ?_, ?_, ?_⟩
  · rw [g6.tokens, g6.ids]
    have : ∀ t ∈ T.flatten, (t.value, t.id) ∈ es := by
      intro t ht
      obtain ⟨ts, hts, ht⟩ := List.mem_flatten.1 ht
      obtain ⟨x, -, -, hx⟩ := hpiece.exists_left hts
      exact hx t ht
    generalize T.flatten = l at this
    induction l with
    | nil => exact .nil
    | cons t l ih => exact .cons (this t (by simp)) (ih fun t ht => this t (by simp [ht]))
  · rw [g6.words, wordsFrom_numbers]
    congr 1
    clear g4 g5 g6 g8 htok hy
    induction hpiece with
    | nil => rfl
    | cons h _ ih =>
      rw [List.map_cons, List.map_cons, ih, ← h.1, List.length_map]
  · have hoff := C65_offsets addSpace rs g6
    rw [hy]
    generalize yss.flatten = ys at hoff
    generalize enc.offsets = os at hoff
    induction hoff with
    | nil => exact .nil
    | cons h _ ih => exact .cons ⟨_, rfl, by rw [tableOf_decode]; exact h⟩ ih

/-- **C83, the reference.** With rules in the order of training the texts are those of the reference implementation. -/
theorem C83_reference {rules : List (Str × Str)} (ho : InOrder rules) (hne : ∀ r ∈ rules, r.1 ≠ [] ∧ r.2 ≠ [])
    (L : List (List Rune × List Rune)) :
    L.flatMap (fun x => bpe rules (byteLetters x.2)) = L.flatMap (fun x => gptBpe rules (byteLetters x.2)) := by
  simp only [gptBpe_eq ho hne]

/-- The byte characters, numbered by their bytes, and the products of four rules. -/
def gptTerms : List (Str × Int) :=
  (List.range 256).map (fun i => (encodeRune (byteToRune (UInt8.ofNat i)), (i : Int)))
    ++ [(b!"Ġt", 256), (b!"he", 257), (b!"Ġthe", 258), (b!"Ã©", 259)]

/-- Rules in the order in which training makes them. -/
def gptRules : List (Str × Str) := [(b!"Ġ", b!"t"), (b!"h", b!"e"), (b!"Ġt", b!"he"), (b!"Ã", b!"©")]

-- the hypotheses of `C83_gpt2` hold of this vocabulary and these rules
example : (∀ e ∈ gptTerms, encodeRunes (runesOf e.1) = e.1 ∧ e.1 ≠ [])
    ∧ (∀ e ∈ gptTerms, -(Machine.go64.half : Int) ≤ e.2 ∧ e.2 < Machine.go64.half)
    ∧ (gptTerms.map (·.1)).Nodup ∧ (gptTerms.map (·.2)).Nodup ∧ gptRules.Nodup
    ∧ (∀ r ∈ gptRules, (∀ b ∈ r.1 ++ r.2, b ≠ 0x20 ∧ b ≠ 0x0A) ∧ r.2.getLast? ≠ some 0x0D ∧ ¬ b!"#version" <+: r.1
        ∧ r.1.length + r.2.length + 1 < 64 * 1024)
    ∧ (∀ r ∈ gptRules, ∀ t ∈ [r.1, r.2, r.1 ++ r.2], t ∈ gptTerms.map (·.1))
    ∧ (List.range 256).all (fun b => gptTerms.any fun e => e.1 == encodeRune (byteToRune (UInt8.ofNat b))) = true := by
  decide +kernel

-- the piece ` thé` is the bytes ` `, `t`, `h`, 0xc3, 0xa9, and the rules make three texts of them
example : bpe gptRules (byteLetters [32, 116, 104, 0xe9]) = [b!"Ġt", b!"h", b!"Ã©"]
    ∧ bpe gptRules (byteLetters [32, 116, 104, 101]) = [b!"Ġthe"]
    ∧ wordNumbers (-1) 0 [3, 1] = [0, 0, 0, 1] ∧ wordNumbers 7 0 [3, 1] = [7, 7, 7, 7] := by decide +kernel

end Verif
