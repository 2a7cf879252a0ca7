import Verif.Model.FileIO
import Verif.Props.MergeFile
import Verif.Model.Notation

/-! Property C97: files are read in pieces, and reading can fail. -/

set_option autoImplicit false

namespace Verif

theorem FileIO.read_spec (f : FileIO) (k : Nat) (rest : Str) {size : Nat} (hs : 0 < size) :
    (rest = [] ∧ f.read k rest size = ([], some f.last))
    ∨ ∃ bs rest', bs ≠ [] ∧ rest = bs ++ rest' ∧ bs.length ≤ size ∧ f.read k rest size = (bs, none) := by
  unfold FileIO.read
  rw [if_neg (by omega)]
  by_cases h : rest = []
  · left; simp [h]
  · right
    have hl : 0 < rest.length := List.length_pos_iff.2 h
    refine ⟨rest.take (min size (f.sizes k + 1)), rest.drop (min size (f.sizes k + 1)), ?_, by simp, ?_, by rw [if_neg h]⟩
    · intro e
      have := congrArg List.length e
      simp only [List.length_take, List.length_nil] at this
      omega
    · simp only [List.length_take]; omega

theorem FileIO.readLoop_eq (f : FileIO) (spare : Nat → Nat) (fuel k : Nat) (rest acc : Str) (h : rest.length < fuel) :
    f.readLoop spare fuel k rest acc = .ok (acc ++ rest, f.readErr.map ReadErr.io) := by
  induction fuel generalizing k rest acc with
  | zero => omega
  | succ fuel ih =>
    unfold FileIO.readLoop
    rcases f.read_spec k rest (size := spare k + 1) (by omega) with ⟨rfl, e⟩ | ⟨bs, rest', hb, rfl, -, e⟩
    · rw [e]
      unfold FileIO.last
      cases f.readErr <;> rfl
    · rw [e]
      have hl : 0 < bs.length := List.length_pos_iff.2 hb
      simp only [List.length_append] at h
      simp only [List.drop_left]
      rw [ih _ _ _ (by omega), List.append_assoc]

/-! ## The scanner -/

theorem scanDropCR_eq (s : Str) : scanDropCR s = stripCR s := by
  unfold scanDropCR stripCR
  rw [List.dropLast_eq_take]

theorem splitLine_line (raw w : Str) (h : 10 ∉ raw) (b : Bool) :
    splitLine (raw ++ 10 :: w) b = (raw.length + 1, some (stripCR raw)) := by
  unfold splitLine
  rw [if_neg (by simp)]
  have : (raw ++ 10 :: w).idxOf? 10 = some raw.length := by
    induction raw with
    | nil => simp [List.idxOf?_cons]
    | cons b raw ih =>
      simp only [List.mem_cons, not_or] at h
      rw [List.cons_append, List.idxOf?_cons, if_neg (by simpa using Ne.symm h.1), ih h.2]
      rfl
  rw [this]
  simp [scanDropCR_eq]

theorem splitLine_none (w : Str) (h : 10 ∉ w) (b : Bool) :
    splitLine w b = if b ∧ w ≠ [] then (w.length, some (stripCR w)) else (0, none) := by
  unfold splitLine
  have : w.idxOf? 10 = none := by
    simpa using h
  rw [this, scanDropCR_eq]
  cases b <;> by_cases hw : w = [] <;> simp [hw]

namespace Scanner

/-- The bytes no line was made of yet. -/
def left (s : Scanner) : Str := s.window ++ s.rest

/-- What holds between calls: the bytes fit, and after an error there is nothing left to read. -/
def Inv (f : FileIO) (s : Scanner) : Prop :=
  s.stop ≤ s.size ∧ s.size ≤ 65536
    ∧ (s.err = none ∨ (s.err = some f.last ∧ s.rest = [] ∧ s.window.length < 65536))

theorem fill_spec (f : FileIO) (n : Nat) (s : Scanner) (he : s.err = none) (h : s.stop < s.size) (hm : s.size ≤ 65536) :
    Inv f (fill f (n + 1) s) ∧ (fill f (n + 1) s).left = s.left
      ∧ ((s.rest = [] ∧ (fill f (n + 1) s).err.isSome) ∨ ((fill f (n + 1) s).err = none ∧ (fill f (n + 1) s).rest.length < s.rest.length)) := by
  unfold fill
  rcases f.read_spec s.reads s.rest (size := s.size - s.stop) (by omega) with ⟨h0, e⟩ | ⟨bs, rest', hb, h0, hl, e⟩
  · rw [e]
    simp only [stop] at h
    refine ⟨⟨?_, hm, Or.inr ⟨rfl, ?_, ?_⟩⟩, ?_, Or.inl ⟨h0, rfl⟩⟩
    · simp only [stop, List.append_nil]; omega
    · simp [h0]
    · simp only [List.append_nil]; omega
    · simp [left, h0]
  · rw [e]
    simp only [hb, ne_eq, not_false_eq_true, if_true]
    have : 0 < bs.length := List.length_pos_iff.2 hb
    simp only [stop] at h hl
    refine ⟨⟨?_, hm, Or.inl he⟩, ?_, Or.inr ⟨he, ?_⟩⟩
    · simp only [stop, List.length_append]; omega
    · simp [left, h0]
    · rw [h0]; simp only [List.drop_left, List.length_append]; omega

theorem scan_spec (f : FileIO) (fuel : Nat) (s : Scanner) (hi : Inv f s)
    (hf : 1 ≤ fuel ∧ (s.err = none → s.rest.length + 2 ≤ fuel)) :
    ∃ t s', s.scan f fuel = .ok (t, s')
      ∧ ((∃ raw l', s.left = raw ++ 10 :: l' ∧ 10 ∉ raw ∧ raw.length < 65536 ∧ t = some (stripCR raw) ∧ Inv f s' ∧ s'.left = l')
        ∨ (s.left ≠ [] ∧ 10 ∉ s.left ∧ s.left.length < 65536 ∧ t = some (stripCR s.left) ∧ Inv f s' ∧ s'.left = [])
        ∨ (s.left = [] ∧ t = none ∧ s'.err = some f.last)
        ∨ (∃ raw l', s.left = raw ++ l' ∧ 10 ∉ raw ∧ raw.length = 65536 ∧ t = none ∧ s'.err = some .tooLong)) := by
  induction fuel generalizing s with
  | zero => omega
  | succ fuel ih =>
    obtain ⟨h1, h2, h3⟩ := hi
    unfold scan
    by_cases hw : 10 ∈ s.window
    · obtain ⟨raw, w, hr, hraw⟩ := List.append_of_mem hw |> fun _ => List.eq_append_cons_of_mem hw
      have e : s.take = (some (stripCR raw), { s with start := s.start + (raw.length + 1), window := w }) := by
        unfold take
        rw [if_pos (Or.inl (by rw [hr]; simp)), hr, splitLine_line raw w hraw]
        simp
      rw [e]
      have hlen := congrArg List.length hr
      simp only [List.length_append, List.length_cons] at hlen
      simp only [stop] at h1
      refine ⟨_, _, rfl, Or.inl ⟨raw, w ++ s.rest, by simp [left, hr], hraw, by omega, rfl, ⟨?_, h2, ?_⟩, rfl⟩⟩
      · simp only [stop]; omega
      · rcases h3 with h | ⟨a, b, c⟩
        · exact Or.inl h
        · exact Or.inr ⟨a, b, by simp only; omega⟩
    · rcases h3 with he | ⟨he, hr, hl⟩
      · have e : s.take = (none, s) := by
          unfold take
          rw [he, splitLine_none _ hw]
          simp only [Option.isSome_none, Bool.false_eq_true, false_and, if_false, List.drop_zero, Nat.add_zero]
          rw [← he]
          split <;> rfl
        rw [e]
        simp only [he, Option.isSome_none, Bool.false_eq_true, if_false]
        have hfu := hf.2 he
        -- what is read next
        have next : ∀ s1 : Scanner, s1.err = none → s1.stop < s1.size → s1.size ≤ 65536 → s1.left = s.left → s1.rest = s.rest →
            ∃ t s', scan f fuel (fill f 101 s1) = .ok (t, s')
              ∧ ((∃ raw l', s.left = raw ++ 10 :: l' ∧ 10 ∉ raw ∧ raw.length < 65536 ∧ t = some (stripCR raw) ∧ Inv f s' ∧ s'.left = l')
                ∨ (s.left ≠ [] ∧ 10 ∉ s.left ∧ s.left.length < 65536 ∧ t = some (stripCR s.left) ∧ Inv f s' ∧ s'.left = [])
                ∨ (s.left = [] ∧ t = none ∧ s'.err = some f.last)
                ∨ (∃ raw l', s.left = raw ++ l' ∧ 10 ∉ raw ∧ raw.length = 65536 ∧ t = none ∧ s'.err = some .tooLong)) := by
          intro s1 a1 a2 a3 a4 a5
          obtain ⟨b1, b2, b3⟩ := fill_spec f 100 s1 a1 a2 a3
          simp only [show 100 + 1 = 101 from rfl] at b1 b2 b3
          have := ih (fill f 101 s1) b1 (by
            rw [a5] at b3
            rcases b3 with ⟨c1, c2⟩ | ⟨c1, c2⟩
            · refine ⟨by omega, fun h => ?_⟩
              rw [h] at c2; cases c2
            · exact ⟨by omega, fun _ => by omega⟩)
          rw [b2, a4] at this
          exact this
        have hs1 : s.shift.err = none ∧ s.shift.size = s.size ∧ s.shift.left = s.left ∧ s.shift.rest = s.rest
            ∧ s.shift.window = s.window ∧ s.shift.stop ≤ s.size ∧ (s.shift.stop = s.size → s.shift.start = 0) := by
          unfold shift
          simp only [stop] at h1
          split
          · refine ⟨he, rfl, rfl, rfl, rfl, ?_, fun _ => rfl⟩
            simp only [stop]; omega
          · rename_i hn
            refine ⟨he, rfl, rfl, rfl, rfl, h1, fun h => ?_⟩
            by_cases h0 : s.start = 0
            · exact h0
            · exact absurd ⟨by omega, Or.inl h⟩ hn
        obtain ⟨g1, g2, g3, g4, g5, g6, g7⟩ := hs1
        rw [g2]
        by_cases hfull : s.shift.stop = s.size
        · rw [if_pos hfull]
          have g0 := g7 hfull
          have hwl : s.window.length = s.size := by
            rw [stop, g0, g5] at hfull; omega
          by_cases hbig : 65536 ≤ s.size
          · rw [if_pos (by simpa [maxScanTokenSize] using hbig)]
            exact ⟨_, _, rfl, Or.inr (Or.inr (Or.inr ⟨s.window, s.rest, rfl, hw, by omega, rfl, rfl⟩))⟩
          · rw [if_neg (by simpa [maxScanTokenSize] using hbig)]
            have hn : s.size < nextSize s.size ∧ nextSize s.size ≤ 65536 := by
              simp only [nextSize, startSize, maxScanTokenSize]
              split <;> omega
            refine next _ g1 ?_ hn.2 (by simpa [left] using g3) g4
            simp only [stop, g5, hwl]
            omega
        · rw [if_neg hfull]
          exact next _ g1 (by rw [g2]; omega) (by rw [g2]; exact h2) g3 g4
      · by_cases hw0 : s.window = []
        · have e : s.take = (none, s) := by
            unfold take
            rw [he, splitLine_none _ hw]
            simp [hw0]
            cases s; simp_all
          rw [e]
          simp only [he, Option.isSome_some, if_true]
          exact ⟨_, _, rfl, Or.inr (Or.inr (Or.inl ⟨by simp [left, hw0, hr], rfl, by simp⟩))⟩
        · have e : s.take = (some (stripCR s.window), { s with start := s.start + s.window.length, window := [] }) := by
            unfold take
            rw [he, splitLine_none _ hw]
            simp [hw0]
          rw [e]
          have hleft : s.left = s.window := by simp [left, hr]
          simp only [stop] at h1
          refine ⟨_, _, rfl, Or.inr (Or.inl ⟨by rw [hleft]; exact hw0, by rw [hleft]; exact hw, by rw [hleft]; exact hl,
            by rw [hleft], ⟨?_, h2, Or.inr ⟨he, hr, by simp⟩⟩, by simp [left, hr]⟩)⟩
          simp only [stop, List.length_nil]; omega

end Scanner

/-- What `mergeMapFromFile` says of the bytes that can be read, and the error after them. -/
def readThen (f : FileIO) (tooLong : Bool) : GoM (Except Err MergeMap) → GoM (Except MergeErr MergeMap)
  | .panic => .panic
  | .ok (.error e) => .ok (.error (.line e))
  | .ok (.ok m) =>
    if tooLong then .ok (.error (.read .tooLong))
    else
      match f.readErr with
      | none => .ok (.ok m)
      | some n => .ok (.error (.read (.io n)))

theorem scanLinesAux_next {raw : Str} (h : 10 ∉ raw) (hl : raw.length < 65536) (l : Str) :
    scanLinesAux (raw ++ 10 :: l) [] = (stripCR raw :: (scanLinesAux l []).1, (scanLinesAux l []).2) :=
  (scanLinesAux_line raw h [] l).trans (by rw [if_neg (by simpa using hl)]; rfl)

theorem scanLinesAux_end {raw : Str} (h : 10 ∉ raw) (h0 : raw ≠ []) (hl : raw.length < 65536) :
    scanLinesAux raw [] = ([stripCR raw], false) :=
  (scanLinesAux_last raw h []).trans (by rw [if_neg (by simpa using h0), if_neg (by simpa using hl)]; rfl)

theorem scanLinesAux_long {raw : Str} (h : 10 ∉ raw) (hl : raw.length = 65536) (l : Str) :
    scanLinesAux (raw ++ l) [] = ([], true) := by
  by_cases hn : 10 ∈ l
  · obtain ⟨x, y, rfl, hx⟩ := List.eq_append_cons_of_mem hn
    rw [← List.append_assoc]
    refine (scanLinesAux_line (raw ++ x) (by simp [h, hx]) [] y).trans ?_
    rw [if_pos]
    simp only [List.reverse_nil, List.nil_append, List.length_append]; omega
  · refine (scanLinesAux_last (raw ++ l) (by simp [h, hn]) []).trans ?_
    rw [if_neg, if_pos]
    · simp only [List.reverse_nil, List.nil_append, List.length_append]; omega
    · intro e
      have := congrArg List.length e
      simp only [List.reverse_nil, List.nil_append, List.length_append, List.length_nil] at this
      omega

theorem mergeScanLoop_eq (f : FileIO) (vocab : Vocab) (p : Int) (fuel : Nat) (s : Scanner) (hi : s.Inv f) (hf : s.left.length < fuel)
    (lc : Nat) (rank : Int) (m : MergeMap) :
    mergeScanLoop f vocab p fuel s lc rank m
      = readThen f (scanLinesAux s.left []).2 (mergeMapLoop vocab p (scanLinesAux s.left []).1 lc rank m) := by
  induction fuel generalizing s lc rank m with
  | zero => omega
  | succ fuel ih =>
    unfold mergeScanLoop
    obtain ⟨t, s', e, h⟩ := Scanner.scan_spec f (s.rest.length + 3) s hi ⟨by omega, fun _ => by omega⟩
    rw [e]
    simp only [GoM.bind_ok]
    have line : ∀ (l : Str) (ls : List Str) (b : Bool), s'.Inv f → s'.left.length < fuel → (scanLinesAux s'.left []).1 = ls →
        (scanLinesAux s'.left []).2 = b → t = some l →
        (match (generalizing := false) t with
          | none =>
            match s'.err with
            | none | some .eof => (pure (.ok m) : GoM (Except MergeErr MergeMap))
            | some e => pure (.error (.read e))
          | some line =>
            if versionPrefix.isPrefixOf line then mergeScanLoop f vocab p fuel s' (lc + 1) rank m
            else do
              match ← parseMergeLine vocab p lc rank line with
              | .error e => pure (.error (.line e))
              | .ok (k, v) => mergeScanLoop f vocab p fuel s' (lc + 1) (rank + 1) (MergeMap.set m k.1 k.2 v))
          = readThen f b (mergeMapLoop vocab p (l :: ls) lc rank m) := by
      intro l ls b i1 i2 i3 i4 i5
      subst i5
      simp only [mergeMapLoop]
      by_cases hv : versionPrefix.isPrefixOf l
      · rw [if_pos hv, if_pos hv, ih s' i1 i2, i3, i4]
      · rw [if_neg hv, if_neg hv]
        cases hp : parseMergeLine vocab p lc rank l with
        | panic => rfl
        | ok r =>
          cases r with
          | error e => rfl
          | ok kv =>
            simp only [GoM.bind_ok]
            rw [ih s' i1 i2, i3, i4]
    rcases h with ⟨raw, l', a1, a2, a3, a4, a5, a6⟩ | ⟨a0, a1, a2, a3, a4, a5⟩ | ⟨a1, rfl, a3⟩ | ⟨raw, l', a1, a2, a3, rfl, a5⟩
    · rw [a1, scanLinesAux_next a2 a3]
      refine line _ _ _ a5 ?_ (by rw [a6]) (by rw [a6]) a4
      rw [a1] at hf
      simp only [List.length_append, List.length_cons] at hf
      rw [a6]; omega
    · rw [scanLinesAux_end a1 a0 a2]
      refine line _ _ _ a4 ?_ (by rw [a5]; rfl) (by rw [a5]; rfl) a3
      have := List.length_pos_iff.2 a0
      rw [a5]; simp only [List.length_nil]; omega
    · rw [a1, a3]
      simp only [scanLinesAux, mergeMapLoop, readThen, FileIO.last]
      cases f.readErr <;> rfl
    · rw [a5, a1, scanLinesAux_long a2 a3]
      rfl

theorem mergeMapLoop_notLong (vocab : Vocab) (p : Int) (ls : List Str) (lc : Nat) (rank : Int) (m : MergeMap) (e : Err)
    (h : mergeMapLoop vocab p ls lc rank m = .ok (.error e)) : e ≠ .tokenTooLong := by
  induction ls generalizing lc rank m with
  | nil => simp [mergeMapLoop] at h
  | cons l ls ih =>
    simp only [mergeMapLoop] at h
    split at h
    · exact ih _ _ _ h
    · cases hp : parseMergeLine vocab p lc rank l with
      | panic => rw [hp] at h; simp at h
      | ok r =>
        rw [hp] at h
        cases r with
        | ok kv => exact ih _ _ _ h
        | error e' =>
          simp only [GoM.ok.injEq, Except.error.injEq] at h
          subst h
          unfold parseMergeLine at hp
          repeat' split at hp
          all_goals first | (simp at hp; done) | (simp only [GoM.ok.injEq, Except.error.injEq] at hp; subst hp; simp)

/-! ## The property -/

/-- **C97, merges.** `MergeMapFromFile`, however the file is delivered in pieces: an error of `Open` is returned; otherwise a
panic or a faulty line is the one of the bytes that can be read; a line that is too long, and else an error of reading, is
returned without a map; else the map is the one of the content, along with the error of `Close`, if any. -/
theorem C97_merges (f : FileIO) (vocab : Vocab) (p : Int) :
    mergeMapFromFileIO f vocab p =
      match f.openErr with
      | some e => .ok (none, some (.read (.io e)))
      | none =>
        match mergeMapFromFile f.data vocab p with
        | .panic => .panic
        | .ok (.error .tokenTooLong) => .ok (none, some (.read .tooLong))
        | .ok (.error e) => .ok (none, some (.line e))
        | .ok (.ok m) =>
          match f.readErr with
          | some n => .ok (none, some (.read (.io n)))
          | none => .ok (some m, f.closeErr.map fun e => .read (.io e)) := by
  unfold mergeMapFromFileIO
  cases ho : f.openErr with
  | some e => rfl
  | none =>
    simp only []
    rw [mergeScanLoop_eq f vocab p _ _ ⟨by simp [Scanner.new, Scanner.stop], by simp [Scanner.new], Or.inl rfl⟩
      (by simp [Scanner.new, Scanner.left]) 1 0 []]
    have hl : (Scanner.new f).left = f.data := rfl
    rw [hl]
    unfold mergeMapFromFile scanLines scanTooLong
    have hnt : ∀ e, mergeMapLoop vocab p (scanLinesAux f.data []).1 1 0 [] = .ok (.error e) → e ≠ .tokenTooLong :=
      fun e h => mergeMapLoop_notLong vocab p _ _ _ _ _ h
    cases hm : mergeMapLoop vocab p (scanLinesAux f.data []).1 1 0 [] with
    | panic => rfl
    | ok r =>
      cases r with
      | error e =>
        have := hnt e hm
        cases e <;> first | exact absurd rfl this | rfl
      | ok m =>
        simp only [readThen]
        cases (scanLinesAux f.data []).2 with
        | true => rfl
        | false =>
          simp only [Bool.false_eq_true, if_false]
          cases f.readErr with
          | some n => rfl
          | none => cases f.closeErr <;> rfl

/-- **C97, a map means the whole file.** -/
theorem C97_merges_whole {f : FileIO} {vocab : Vocab} {p : Int} {m : MergeMap} {err : Option MergeErr}
    (h : mergeMapFromFileIO f vocab p = .ok (some m, err)) :
    f.openErr = none ∧ f.readErr = none ∧ mergeMapFromFile f.data vocab p = .ok (.ok m) := by
  rw [C97_merges] at h
  cases ho : f.openErr with
  | some e => rw [ho] at h; simp at h
  | none =>
    rw [ho] at h
    cases hm : mergeMapFromFile f.data vocab p with
    | panic => rw [hm] at h; simp at h
    | ok r =>
      rw [hm] at h
      cases r with
      | error e => cases e <;> simp at h
      | ok m' =>
        cases hr : f.readErr with
        | some n => rw [hr] at h; simp at h
        | none =>
          rw [hr] at h
          simp only [GoM.ok.injEq, Prod.mk.injEq, Option.some.injEq] at h
          exact ⟨rfl, rfl, by rw [h.1]⟩

/-- **C97, vocabularies.** `FromJSONFile`, however the file is delivered in pieces and whatever the buffer sizes: an error of
`Open` or of reading is returned without a vocabulary; else the result is that of the content. -/
theorem C97_vocabulary (mc : Machine) (f : FileIO) (spare : Nat → Nat) (order : GoMap Str Int → List (Str × Int)) :
    Vocab.fromJSONFileIO mc f spare order =
      match f.openErr, f.readErr with
      | some e, _ => .ok (.error (.read (.io e)))
      | none, some e => .ok (.error (.read (.io e)))
      | none, none =>
        match Vocab.fromJSONFile mc f.data order with
        | .error e => .ok (.error (.json e))
        | .ok v => .ok (.ok v) := by
  unfold Vocab.fromJSONFileIO FileIO.readFile
  cases ho : f.openErr with
  | some e => rfl
  | none =>
    simp only []
    rw [f.readLoop_eq spare _ _ _ _ (by omega)]
    simp only [GoM.bind_ok, List.nil_append]
    cases f.readErr with
    | some e => rfl
    | none =>
      simp only [Option.map_none]
      cases Vocab.fromJSONFile mc f.data order <;> rfl

/-! Concrete cases. -/

private def ioVocab : Vocab := ⟨some [(b!"a", 0), (b!"b", 1), (b!"ab", 2), (b!"aba", 3), (b!"c", 4), (b!"ac", 5)], []⟩

private def ioFile (data : Str) (readErr closeErr : Option Nat) (sizes : Nat → Nat) : FileIO := ⟨none, data, readErr, closeErr, sizes⟩

/-- The whole file, byte by byte or at once. -/
example : mergeMapFromFileIO (ioFile b!"#version: 0.2\na b\r\nab a" none none fun _ => 0) ioVocab 0
    = .ok (some [((0, 1), ⟨0, 2⟩), ((2, 0), ⟨1, 3⟩)], none) := by decide +kernel

example : mergeMapFromFileIO (ioFile b!"#version: 0.2\na b\r\nab a" none none fun _ => 4095) ioVocab 0
    = .ok (some [((0, 1), ⟨0, 2⟩), ((2, 0), ⟨1, 3⟩)], none) := by decide +kernel

/-- The error of `Close` comes with the map. -/
example : mergeMapFromFileIO (ioFile b!"a b\n" none (some 9) fun k => k) ioVocab 0
    = .ok (some [((0, 1), ⟨0, 2⟩)], some (.read (.io 9))) := by decide +kernel

/-- Reading fails at the end of a line: no map although both lines are good. -/
example : mergeMapFromFileIO (ioFile b!"a b\nab a" (some 7) none fun k => k) ioVocab 0
    = .ok (none, some (.read (.io 7))) := by decide +kernel

/-- Reading fails inside a line: the error is about that line, which is good in the file. -/
example : mergeMapFromFileIO (ioFile b!"a b\nab" (some 7) none fun k => k) ioVocab 0
    = .ok (none, some (.line (.malformedMerges 2))) := by decide +kernel

/-- A vocabulary cut off by an error would be a syntax error, but is reported as the error of reading. -/
example : (match Vocab.fromJSONFileIO Machine.go64 (ioFile b!"{\"a\":0," (some 7) none fun _ => 0) (fun _ => 511) (fun m => m) with
      | .ok (.error e) => some e
      | _ => none) = some (.read (.io 7))
    ∧ (match Vocab.fromJSONFileIO Machine.go64 (ioFile b!"{\"a\":0}" none none fun _ => 0) (fun _ => 511) (fun m => m) with
      | .ok (.ok v) => v.getID b!"a"
      | _ => none) = some 0 := by decide +kernel

end Verif
