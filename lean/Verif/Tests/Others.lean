import Verif.Model.PreTokenizers
import Verif.Model.WordPiece
import Verif.Model.Notation

/-!
The unit tests of the other packages, transcribed.  These are tests of the model
(finite, concrete), not proofs about it.  Regular expression engines are
replaced by the matches they return on the test inputs.
-/

namespace Verif.Tests
open Verif

/-! strutils -/
def leo : Str := b!"Löwe 老虎 Léopard"
example : isRuneBoundary leo 0 = true := by decide +kernel
example : isRuneBoundary leo leo.length = true := by decide +kernel
example : isRuneBoundary leo (-1) = false := by decide +kernel
example : isRuneBoundary leo 1000 = false := by decide +kernel
example : isRuneBoundary leo 6 = true := by decide +kernel
example : isRuneBoundary leo 2 = false := by decide +kernel
example : isRuneBoundary leo 8 = false := by decide +kernel

/-! splitpattern -/
def caps (l : List (Int × Int × Bool)) : GoM (Except Err (List Capture)) :=
  .ok (.ok (l.map fun p => ⟨⟨p.1, p.2.1⟩, p.2.2⟩))
def isB : SplitPattern := fromFunc fun r => r == u!"b"
example : isB b!"aba" = caps [(0,1,false),(1,2,true),(2,3,false)] := by decide +kernel
example : isB b!"aaaab" = caps [(0,4,false),(4,5,true)] := by decide +kernel
example : isB b!"bbaaa" = caps [(0,1,true),(1,2,true),(2,5,false)] := by decide +kernel
example : isB b!"" = caps [(0,0,false)] := by decide +kernel
example : isB b!"aaa" = caps [(0,3,false)] := by decide +kernel
example : invert (fromRune u!"a") b!"aba" = caps [(0,1,false),(1,2,true),(2,3,false)] := by decide +kernel
example : fromRune u!"a" b!"aba" = caps [(0,1,true),(1,2,false),(2,3,true)] := by decide +kernel
example : fromRegexp (fun _ => [(1,4)]) b!"a   b" = caps [(0,1,false),(1,4,true),(4,5,false)] := by decide +kernel
example : fromRegexp (fun _ => [(0,3),(4,7),(8,11)]) b!"   a   b   "
  = caps [(0,3,true),(3,4,false),(4,7,true),(7,8,false),(8,11,true)] := by decide +kernel
example : fromRegexp (fun _ => []) b!"" = caps [(0,0,false)] := by decide +kernel
example : fromRegexp (fun _ => []) b!"aaa" = caps [(0,3,false)] := by decide +kernel
example : fromRegexp2 (fun _ => .ok [(1,3)]) b!"a   b" = caps [(0,1,false),(1,4,true),(4,5,false)] := by decide +kernel
example : fromRegexp2 (fun _ => .ok [(4,1)]) b!"𝔾𝕠𝕠𝕕 𝕞𝕠𝕣𝕟𝕚𝕟𝕘"
  = caps [(0,16,false),(16,17,true),(17,45,false)] := by decide +kernel
example : fromStringPattern b!"a" b!"aba" = caps [(0,1,true),(1,2,false),(2,3,true)] := by decide +kernel
example : fromStringPattern b!"a" b!"bbbba" = caps [(0,4,false),(4,5,true)] := by decide +kernel
example : fromStringPattern b!"a" b!"aabbb" = caps [(0,1,true),(1,2,true),(2,5,false)] := by decide +kernel
example : fromStringPattern b!"ab" b!"aabbb" = caps [(0,1,false),(1,3,true),(3,5,false)] := by decide +kernel
example : fromStringPattern b!"ab" b!"aabbab" = caps [(0,1,false),(1,3,true),(3,4,false),(4,6,true)] := by decide +kernel
example : fromStringPattern b!"" b!"" = caps [(0,0,false)] := by decide +kernel
example : fromStringPattern b!"" b!"aaa" = caps [(0,3,false)] := by decide +kernel
example : fromStringPattern b!"b" b!"aaa" = caps [(0,3,false)] := by decide +kernel

/-! vocabulary, merges -/
def vocabOf (ts : List Str) : GoM Vocab := goFor ts Vocab.new Vocab.addTerm
def merges : Str := b!"#version: 0.2\nab cd\nefg hij\nklmn opqr\n"
example : (vocabOf [b!"ab", b!"cd", b!"efg", b!"hij", b!"klmn", b!"opqr", b!"abcd", b!"efghij", b!"klmnopqr"]
    >>= fun v => mergeMapFromFile merges v 0)
  = .ok (.ok [((0,1),⟨0,6⟩),((2,3),⟨1,7⟩),((4,5),⟨2,8⟩)]) := by decide +kernel
example : (vocabOf [b!"ab", b!"cd", b!"efg", b!"hij", b!"klmn", b!"opqr", b!"abd", b!"efgij", b!"klmnpqr"]
    >>= fun v => mergeMapFromFile merges v 1)
  = .ok (.ok [((0,1),⟨0,6⟩),((2,3),⟨1,7⟩),((4,5),⟨2,8⟩)]) := by decide +kernel

/-! word -/
example : WordSymbol.mergeWith ⟨1,2,3,4⟩ ⟨10,20,30,40⟩ 100 = ⟨100,22,3,40⟩ := by decide
example : Word.add [] 11 2 = [⟨11,2,-1,-1⟩] := by decide
example : (Word.add [] 11 2).add 22 3 = [⟨11,2,-1,1⟩, ⟨22,3,0,-1⟩] := by decide
example : ((Word.add [] 11 2).add 22 3).add 33 4 = [⟨11,2,-1,1⟩, ⟨22,3,0,2⟩, ⟨33,4,1,-1⟩] := by decide

/-! bpe -/
def bpeVocab : Vocab :=
  match vocabOf [b!"u", b!"n", b!"r", b!"e", b!"l", b!"a", b!"t", b!"d", b!"re", b!"at", b!"ed", b!"un",
    b!"ated", b!"rel", b!"related", b!"unrelated"] with
  | .ok v => v
  | .panic => Vocab.new
def bpeMerges : MergeMap := [((2,3),⟨1,8⟩),((5,6),⟨2,9⟩),((3,7),⟨3,10⟩),((0,1),⟨4,11⟩),((9,10),⟨5,12⟩),
  ((8,4),⟨6,13⟩),((13,12),⟨7,14⟩),((11,14),⟨8,15⟩)]
def bpe (dropout : Bool) : BPE := ⟨bpeVocab, bpeMerges, ⟨10000⟩, dropout, [], [], [], false⟩
example : (bpe false).tokenize (fun _ => false) b!"unrelated"
  = .ok (.ok (some [⟨15, b!"unrelated", ⟨0,9⟩⟩])) := by decide +kernel
example : (bpe true).tokenize (fun _ => true) b!"unrelated"
  = .ok (.ok (some [⟨0, b!"u", ⟨0,1⟩⟩, ⟨1, b!"n", ⟨1,2⟩⟩, ⟨2, b!"r", ⟨2,3⟩⟩, ⟨3, b!"e", ⟨3,4⟩⟩,
      ⟨4, b!"l", ⟨4,5⟩⟩, ⟨5, b!"a", ⟨5,6⟩⟩, ⟨6, b!"t", ⟨6,7⟩⟩, ⟨3, b!"e", ⟨7,8⟩⟩, ⟨7, b!"d", ⟨8,9⟩⟩])) := by
  decide +kernel

/-! wordpiece -/
def wpVocab : Vocab :=
  match vocabOf [b!"[UNK]", b!"foo", b!"##foo", b!"bar", b!"##bar", b!"baz", b!"##baz", b!"alpha", b!"##alpha",
    b!"gamma", b!"##gamma", b!"veryverylongterm"] with
  | .ok v => v
  | .panic => Vocab.new
def wp : WordPiece := ⟨wpVocab, b!"[UNK]", b!"##", 15⟩
example : wp.tokenize b!"foo" = .ok [⟨1, b!"foo", ⟨0,3⟩⟩] := by decide +kernel
example : wp.tokenize b!"barbaz" = .ok [⟨3, b!"bar", ⟨0,3⟩⟩, ⟨6, b!"##baz", ⟨3,6⟩⟩] := by decide +kernel
example : wp.tokenize b!"alphabetagamma" = .ok [⟨0, b!"[UNK]", ⟨0,14⟩⟩] := by decide +kernel
example : wp.tokenize b!"foobarbaz"
  = .ok [⟨1, b!"foo", ⟨0,3⟩⟩, ⟨4, b!"##bar", ⟨3,6⟩⟩, ⟨6, b!"##baz", ⟨6,9⟩⟩] := by decide +kernel
example : wp.tokenize b!"qux" = .ok [⟨0, b!"[UNK]", ⟨0,3⟩⟩] := by decide +kernel
example : wp.tokenize b!"veryverylongterm" = .ok [⟨0, b!"[UNK]", ⟨0,16⟩⟩] := by decide +kernel

/-! normalizers; the Unicode tables are cut down to the runes of the tests -/
def uni : Uni where
  isOther r := (0 ≤ r && r < 32) || (127 ≤ r && r < 160) || r == 0xFEFF
  isMn r := 0x300 ≤ r && r ≤ 0x36F
  isPunct r := r == u!"!" || r == u!"?" || r == u!"," || r == u!"(" || r == u!")"
  toLower r := if 65 ≤ r ∧ r ≤ 90 then r + 32 else r
def bertOn (a b c d : Bool) : GoM (Str × Option Err) :=
  (fun p => (p.1.get, p.2)) <$> bertNormalize uni ⟨a, b, c, d⟩
    (NS.fromString b!"(\n\t) (\x07\x08) (咖啡) (ô) (BAR)")
example : bertOn true true true true = .ok (b!"(  ) () ( 咖  啡 ) (o) (bar)", none) := by decide +kernel
example : bertOn false false false false = .ok (b!"(\n\t) (\x07\x08) (咖啡) (ô) (BAR)", none) := by decide +kernel
example : bertOn true false false false = .ok (b!"(  ) () (咖啡) (ô) (BAR)", none) := by decide +kernel
example : bertOn false true false false = .ok (b!"(\n\t) (\x07\x08) ( 咖  啡 ) (ô) (BAR)", none) := by decide +kernel
example : bertOn false false true false = .ok (b!"(\n\t) (\x07\x08) (咖啡) (o) (BAR)", none) := by decide +kernel
example : bertOn false false false true = .ok (b!"(\n\t) (\x07\x08) (咖啡) (ô) (bar)", none) := by decide +kernel

def stripOn (l r : Bool) : GoM (Str × Option Err) :=
  (fun p => (p.1.get, p.2)) <$> stripNormalize l r (NS.fromString b!" \n\tfoo\t\n ")
example : stripOn true false = .ok (b!"foo\t\n ", none) := by decide +kernel
example : stripOn false true = .ok (b!" \n\tfoo", none) := by decide +kernel
example : stripOn true true = .ok (b!"foo", none) := by decide +kernel
example : stripOn false false = .ok (b!" \n\tfoo\t\n ", none) := by decide +kernel

/-! pre-tokenizers -/
abbrev Splits := GoM (List (Str × Int × Int) × Option Err)
def origSplits (pt : PreTokenizer) (s : Str) : Splits :=
  (fun p => (p.1.getOriginalByteSplits.map fun b => (b.string, b.offsets.start, b.offsets.stop), p.2))
    <$> pt (PTS.fromString s)
def normSplits (pt : PreTokenizer) (s : Str) : Splits :=
  (fun p => (p.1.getNormalizedByteSplits.map fun b => (b.string, b.offsets.start, b.offsets.stop), p.2))
    <$> pt (PTS.fromString s)

example : origSplits (bertPreTokenize uni) b!"Hey friend!     How are you?!?" = .ok ([(b!"Hey",0,3),
  (b!"friend",4,10), (b!"!",10,11), (b!"How",16,19), (b!"are",20,23), (b!"you",24,27), (b!"?",27,28),
  (b!"!",28,29), (b!"?",29,30)], none) := by decide +kernel
def cjkChanges (r : Rune) : List RuneChange :=
  if r > 0x4E00 then [⟨32, 0⟩, ⟨r, 1⟩, ⟨32, 1⟩] else [⟨r, 0⟩]
example : ((NS.fromString b!"野口里佳 Noguchi Rika").transform ((runesOf b!"野口里佳 Noguchi Rika").flatMap cjkChanges) 0
    >>= fun ns => (fun p => p.1.getOriginalByteSplits.map fun b => (b.string, b.offsets.start, b.offsets.stop))
    <$> bertPreTokenize uni (PTS.fromNormalizedString ns))
  = .ok [(b!"野",0,3), (b!"口",3,6), (b!"里",6,9), (b!"佳",9,12), (b!"Noguchi",13,20), (b!"Rika",21,25)] := by
  decide +kernel

def U := runeDelimiter u!"Ʊ"
example : origSplits U b!"" = .ok ([], none) := by decide +kernel
example : origSplits U b!"Ʊ" = .ok ([], none) := by decide +kernel
example : origSplits U b!"ƱƱ" = .ok ([], none) := by decide +kernel
example : origSplits U b!" \n\t" = .ok ([(b!" \n\t",0,3)], none) := by decide +kernel
example : origSplits U b!"fooƱbarƱbaz" = .ok ([(b!"foo",0,3),(b!"bar",5,8),(b!"baz",10,13)], none) := by decide +kernel
example : origSplits U b!"Ʊfoo" = .ok ([(b!"foo",2,5)], none) := by decide +kernel
example : origSplits U b!"fooƱ" = .ok ([(b!"foo",0,3)], none) := by decide +kernel
example : origSplits U b!"ƱSüßƱCafé!?Ʊ" = .ok ([(b!"Süß",2,7),(b!"Café!?",9,16)], none) := by decide +kernel

example : origSplits whiteSpaceSplit b!"Hey man!" = .ok ([(b!"Hey",0,3),(b!"man!",4,8)], none) := by decide +kernel
example : origSplits whiteSpaceSplit b!"Hey, man, Good?"
  = .ok ([(b!"Hey,",0,4),(b!"man,",5,9),(b!"Good?",10,15)], none) := by decide +kernel

example : origSplits (whiteSpacePreTokenize fun _ => .ok [(0,3),(4,3),(7,1)]) b!"Hey man!"
  = .ok ([(b!"Hey",0,3),(b!"man",4,7),(b!"!",7,8)], none) := by decide +kernel

example : origSplits (metaSpace u!"▁" true) b!"Hey friend!"
  = .ok ([(b!"▁Hey",0,3),(b!"▁friend!",3,11)], none) := by decide +kernel
example : normSplits (metaSpace u!"▁" true) b!"Hey friend!"
  = .ok ([(b!"▁Hey",0,6),(b!"▁friend!",6,16)], none) := by decide +kernel
example : origSplits (metaSpace u!"▁" true) b!"Hey   friend!"
  = .ok ([(b!"▁Hey",0,3),(b!"▁",3,4),(b!"▁",4,5),(b!"▁friend!",5,13)], none) := by decide +kernel
example : normSplits (metaSpace u!"▁" true) b!"Hey   friend!"
  = .ok ([(b!"▁Hey",0,6),(b!"▁",6,9),(b!"▁",9,12),(b!"▁friend!",12,22)], none) := by decide +kernel

example : origSplits (byteLevel (fun _ => .ok [(0,5),(5,6),(11,6),(17,5)]) false) b!"Hello there       dear"
  = .ok ([(b!"Hello",0,5),(b!"Ġthere",5,11),(b!"ĠĠĠĠĠĠ",11,17),(b!"Ġdear",17,22)], none) := by decide +kernel
example : origSplits (byteLevel (fun _ => .ok [(0,1),(1,1),(2,1)]) false) b!"i⭢j"
  = .ok ([(b!"i",0,1),(b!"âŃ¢",1,4),(b!"j",4,5)], none) := by decide +kernel
example : normSplits (byteLevel (fun _ => .ok [(0,1),(1,1),(2,1)]) false) b!"i⭢j"
  = .ok ([(b!"i",0,1),(b!"âŃ¢",1,7),(b!"j",7,8)], none) := by decide +kernel
example : normSplits (byteLevel (fun _ => .ok [(0,6),(6,3),(9,1)]) true) b!"Hello my?"
  = .ok ([(b!"ĠHello",0,7),(b!"Ġmy",7,11),(b!"?",11,12)], none) := by decide +kernel
example : normSplits (byteLevel (fun _ => .ok [(0,6),(6,3),(9,1)]) true) b!" Hello my?"
  = .ok ([(b!"ĠHello",0,7),(b!"Ġmy",7,11),(b!"?",11,12)], none) := by decide +kernel
example : origSplits (byteLevel (fun _ => .ok [(0,5),(5,6),(11,1),(12,5),(17,6)]) false) b!"Hello there\nHello there"
  = .ok ([(b!"Hello",0,5),(b!"Ġthere",5,11),(b!"Ċ",11,12),(b!"Hello",12,17),(b!"Ġthere",17,23)], none) := by
  decide +kernel

end Verif.Tests
