import Verif.Model.Json
import Verif.Model.Unicode
import Verif.Tests.Others

/-!
The unit tests that are not in the other files of this directory: the accessors, the ranges, the
lower-casing and the sequence of normalizers (with the tables of Go's package `unicode`), the remaining
texts of the pre-tokenizers, the vocabulary file and the model with some merges dropped.
-/

namespace Verif.Tests
open Verif

/-! Accessors -/
def fooBar : NS := ⟨b!"Foo", b!"Bar", [⟨0,1⟩, ⟨1,2⟩, ⟨2,3⟩], 42⟩
def fooBa : NS := ⟨b!"Foo", b!"Ba", [⟨0,1⟩, ⟨1,2⟩], 42⟩
example : fooBar.get = b!"Bar" := by decide +kernel
example : fooBar.getOriginal = b!"Foo" := by decide +kernel
example : fooBa.len = 2 := by decide +kernel
example : (NS.fromString b!"ℝ").len = 3 := by decide +kernel
example : fooBa.originalLen = 3 := by decide +kernel
example : (NS.fromString b!"ℝ").originalLen = 3 := by decide +kernel
example : (NS.mk b!"x" b!"" [] 42).isEmpty = true := by decide +kernel
example : (NS.mk b!"" b!"x" [] 42).isEmpty = false := by decide +kernel
example : (NS.mk b!"" b!"x" [] 0).originalOffsets = ⟨0, 0⟩ := by decide +kernel
example : (NS.mk b!"" b!"x" [] 42).originalOffsets = ⟨42, 42⟩ := by decide +kernel
example : (NS.mk b!"Foo" b!"" [] 0).originalOffsets = ⟨0, 3⟩ := by decide +kernel
example : (NS.mk b!"Foo" b!"" [] 42).originalOffsets = ⟨42, 45⟩ := by decide +kernel
example : (NS.mk b!"ℝ" b!"" [] 0).originalOffsets = ⟨0, 3⟩ := by decide +kernel
example : (NS.mk b!"ℝ" b!"" [] 42).originalOffsets = ⟨42, 45⟩ := by decide +kernel

/-! Ranges -/
example : (Rng.original 1 5).start = 1 ∧ (Rng.normalized 1 5).start = 1 := by decide
example : (Rng.original 1 5).stop = 5 ∧ (Rng.normalized 1 5).stop = 5 := by decide
example : (Rng.original 1 5).len = 4 ∧ (Rng.normalized 1 5).len = 4 := by decide

/-! LowerCaseNormalizer, SequenceNormalizer -/
def textOf (n : NormalizeFunc) (s : Str) : GoM (Str × Option Err) :=
  (fun p => (p.1.get, p.2)) <$> n (NS.fromString s)
example : textOf (lowerCaseNormalize Unicode.uni) b!"Foo Bar SÜẞ" = .ok (b!"foo bar süß", none) := by
  decide +kernel
example : textOf (sequenceNormalize [lowerCaseNormalize Unicode.uni, stripNormalize true true])
    b!"  Foo Bar SÜẞ  " = .ok (b!"foo bar süß", none) := by decide +kernel
example : textOf (sequenceNormalize [stripNormalize true true]) b!"  foo  " = .ok (b!"foo", none) := by
  decide +kernel
example : textOf (sequenceNormalize []) b!"  foo  " = .ok (b!"  foo  ", none) := by decide +kernel
def failing (e : Err) : NormalizeFunc := fun ns => .ok (ns, some e)
example (e : Err) : textOf (sequenceNormalize [lowerCaseNormalize Unicode.uni, failing e, stripNormalize true true])
    b!"Foo" = .ok (b!"foo", some e) := by
  have : lowerCaseNormalize Unicode.uni (NS.fromString b!"Foo") =
      .ok (⟨b!"Foo", b!"foo", [⟨0,1⟩, ⟨1,2⟩, ⟨2,3⟩], 0⟩, none) := by decide +kernel
  simp only [textOf, sequenceNormalize, this]
  rfl

/-! BertNormalizer, with the tables -/
def bertTables (a b c d : Bool) : GoM (Str × Option Err) :=
  textOf (bertNormalize Unicode.uni ⟨a, b, c, d⟩) b!"(\n\t) (\x07\x08) (咖啡) (o\u0302) (BAR)"
example : bertTables true true true true = .ok (b!"(  ) () ( 咖  啡 ) (o) (bar)", none) := by decide +kernel
example : bertTables false false false false = .ok (b!"(\n\t) (\x07\x08) (咖啡) (o\u0302) (BAR)", none) := by decide +kernel
example : bertTables true false false false = .ok (b!"(  ) () (咖啡) (o\u0302) (BAR)", none) := by decide +kernel
example : bertTables false true false false = .ok (b!"(\n\t) (\x07\x08) ( 咖  啡 ) (o\u0302) (BAR)", none) := by decide +kernel
example : bertTables false false true false = .ok (b!"(\n\t) (\x07\x08) (咖啡) (o) (BAR)", none) := by decide +kernel
example : bertTables false false false true = .ok (b!"(\n\t) (\x07\x08) (咖啡) (o\u0302) (bar)", none) := by decide +kernel
example : origSplits (bertPreTokenize Unicode.uni) b!"Hey friend!     How are you?!?" = .ok ([(b!"Hey",0,3),
  (b!"friend",4,10), (b!"!",10,11), (b!"How",16,19), (b!"are",20,23), (b!"you",24,27), (b!"?",27,28),
  (b!"!",28,29), (b!"?",29,30)], none) := by decide +kernel

/-! RuneDelimiterPreTokenizer -/
example : origSplits U b!" " = .ok ([(b!" ",0,1)], none) := by decide +kernel
example : origSplits U b!"x" = .ok ([(b!"x",0,1)], none) := by decide +kernel
example : origSplits U b!"foo" = .ok ([(b!"foo",0,3)], none) := by decide +kernel
example : origSplits U b!"foo bar" = .ok ([(b!"foo bar",0,7)], none) := by decide +kernel

/-! splitpattern -/
example : fromRegexp2 (fun _ => .ok [(0,3),(4,3),(8,3)]) b!"   a   b   "
  = caps [(0,3,true),(3,4,false),(4,7,true),(7,8,false),(8,11,true)] := by decide +kernel
example : fromRegexp2 (fun _ => .ok []) b!"" = caps [(0,0,false)] := by decide +kernel
example : fromRegexp2 (fun _ => .ok []) b!"aaa" = caps [(0,3,false)] := by decide +kernel

/-! Vocabulary -/
example : Vocab.new.size = 0 := by decide
def vocabJson : Str := b!"{\n  \"foo\": 0,\n  \"bar\": 1,\n  \"baz\": 2\n}\n"
example : (Vocab.fromJSONFile Machine.go64 vocabJson id).toOption.map (fun v => (v.size,
    [b!"foo", b!"bar", b!"baz"].map v.getID, [0, 1, 2].map v.getString))
  = some (3, [some 0, some 1, some 2], [some b!"foo", some b!"bar", some b!"baz"]) := by decide +kernel

/-! BPE: whichever merges are dropped, some tokens come out, and no more than there are runes. -/
def dropping (n : Nat) : Nat → Bool := fun i => n.testBit i
example : ∀ n ∈ List.range 64, ((bpe true).tokenize (dropping n) b!"unrelated").bind
    (fun r => match r with
      | .ok (some ts) => .ok (decide (0 < ts.length ∧ ts.length ≤ 9))
      | _ => .ok false) = .ok true := by decide +kernel

end Verif.Tests
