import Verif.Model.NormalizedString
import Verif.Model.Notation

/-!
The unit tests of normalizedstring/normalizedstring_test.go, transcribed.  These are
tests of the model (finite, concrete), not proofs about it.
-/

namespace Verif.Tests
open Verif

def als (l : List (Int × Int)) : List Align := l.map fun p => ⟨p.1, p.2⟩
def rcs (l : List (Rune × Int)) : List RuneChange := l.map fun p => ⟨p.1, p.2⟩

example : NS.fromString b!"" = ⟨b!"", b!"", als [], 0⟩ := by decide +kernel
example : NS.fromString b!"a" = ⟨b!"a", b!"a", als [(0,1)], 0⟩ := by decide +kernel
example : NS.fromString b!"Foo" = ⟨b!"Foo", b!"Foo", als [(0,1), (1,2), (2,3)], 0⟩ := by decide +kernel
example : NS.fromString b!"ß" = ⟨b!"ß", b!"ß", als [(0,2), (0,2)], 0⟩ := by decide +kernel
example : NS.fromString b!"ß" = ⟨b!"ß", b!"ß", als [(0,2), (0,2)], 0⟩ := by decide +kernel
example : NS.fromString b!"ℝ" = ⟨b!"ℝ", b!"ℝ", als [(0,3), (0,3), (0,3)], 0⟩ := by decide +kernel
example : NS.fromString b!"💣" = ⟨b!"💣", b!"💣", als [(0,4), (0,4), (0,4), (0,4)], 0⟩ := by decide +kernel
example : NS.fromString b!"aßz" = ⟨b!"aßz", b!"aßz", als [(0,1), (1,3), (1,3), (3,4)], 0⟩ := by decide +kernel
example : NS.fromString b!"ßxß" = ⟨b!"ßxß", b!"ßxß", als [(0,2), (0,2), (2,3), (3,5), (3,5)], 0⟩ := by decide +kernel

/-- TransformRange: Removing at the beginning -/
def tr1 : NS := ⟨b!"Hello friend", b!"Yo friend", als [(3,4), (4,5), (5,6), (6,7), (7,8), (8,9), (9,10), (10,11), (11,12)], 0⟩
example : (NS.fromString b!"Hello friend").transformRange (.original 0 4) (rcs [(u!"Y", 0)]) 3 = .ok tr1 := by decide +kernel
example : tr1.originalAlignments = .ok (als [(0,0), (0,0), (0,0), (0,1), (1,2), (2,3), (3,4), (4,5), (5,6), (6,7), (7,8), (8,9)]) := by decide +kernel

/-- TransformRange: Removing in the middle -/
def tr2 : NS := ⟨b!"Hello friend", b!"Hel_FRnd", als [(0,1), (1,2), (2,3), (5,6), (6,7), (7,8), (10,11), (11,12)], 0⟩
example : (NS.fromString b!"Hello friend").transformRange (.original 3 10) (rcs [(u!"_", 0), (u!"F", 0), (u!"R", -2)]) 2 = .ok tr2 := by decide +kernel
example : tr2.originalAlignments = .ok (als [(0,1), (1,2), (2,3), (3,3), (3,3), (3,4), (4,5), (5,6), (6,6), (6,6), (6,7), (7,8)]) := by decide +kernel

/-- TransformRange: Removing at the end -/
def tr3 : NS := ⟨b!"Hello friend", b!"Hello_F", als [(0,1), (1,2), (2,3), (3,4), (4,5), (5,6), (6,7)], 0⟩
example : (NS.fromString b!"Hello friend").transformRange (.original 5 12) (rcs [(u!"_", 0), (u!"F", -5)]) 0 = .ok tr3 := by decide +kernel
example : tr3.originalAlignments = .ok (als [(0,1), (1,2), (2,3), (3,4), (4,5), (5,6), (6,7), (7,7), (7,7), (7,7), (7,7), (7,7)]) := by decide +kernel

/-- TransformRange: Adding at the beginning -/
def tr4 : NS := ⟨b!"Hello friend", b!"HHello friend", als [(0,0), (0,1), (1,2), (2,3), (3,4), (4,5), (5,6), (6,7), (7,8), (8,9), (9,10), (10,11), (11,12)], 0⟩
example : (NS.fromString b!"Hello friend").transformRange (.original 0 1) (rcs [(u!"H", 1), (u!"H", 0)]) 0 = .ok tr4 := by decide +kernel
example : tr4.originalAlignments = .ok (als [(1,2), (2,3), (3,4), (4,5), (5,6), (6,7), (7,8), (8,9), (9,10), (10,11), (11,12), (12,13)]) := by decide +kernel

/-- TransformRange: Adding at the beginning - alternative -/
def tr5 : NS := ⟨b!"Hello friend", b!"HHello friend", als [(0,0), (0,1), (1,2), (2,3), (3,4), (4,5), (5,6), (6,7), (7,8), (8,9), (9,10), (10,11), (11,12)], 0⟩
example : (NS.fromString b!"Hello friend").transformRange (.original 0 0) (rcs [(u!"H", 1)]) 0 = .ok tr5 := by decide +kernel
example : tr5.originalAlignments = .ok (als [(1,2), (2,3), (3,4), (4,5), (5,6), (6,7), (7,8), (8,9), (9,10), (10,11), (11,12), (12,13)]) := by decide +kernel

/-- TransformRange: Adding as part of the first character -/
def tr6 : NS := ⟨b!"Hello friend", b!"HHello friend", als [(0,1), (0,1), (1,2), (2,3), (3,4), (4,5), (5,6), (6,7), (7,8), (8,9), (9,10), (10,11), (11,12)], 0⟩
example : (NS.fromString b!"Hello friend").transformRange (.original 0 1) (rcs [(u!"H", 0), (u!"H", 1)]) 0 = .ok tr6 := by decide +kernel
example : tr6.originalAlignments = .ok (als [(0,2), (2,3), (3,4), (4,5), (5,6), (6,7), (7,8), (8,9), (9,10), (10,11), (11,12), (12,13)]) := by decide +kernel

/-- TransformRange: Adding in the middle -/
def tr7 : NS := ⟨b!"Hello friend", b!"Hello_my_friend", als [(0,1), (1,2), (2,3), (3,4), (4,5), (5,6), (5,6), (5,6), (5,6), (6,7), (7,8), (8,9), (9,10), (10,11), (11,12)], 0⟩
example : (NS.fromString b!"Hello friend").transformRange (.original 5 6) (rcs [(u!"_", 0), (u!"m", 1), (u!"y", 1), (u!"_", 1)]) 0 = .ok tr7 := by decide +kernel
example : tr7.originalAlignments = .ok (als [(0,1), (1,2), (2,3), (3,4), (4,5), (5,9), (9,10), (10,11), (11,12), (12,13), (13,14), (14,15)]) := by decide +kernel

/-- TransformRange: Adding at the end -/
def tr8 : NS := ⟨b!"Hello friend", b!"Hello friend_!", als [(0,1), (1,2), (2,3), (3,4), (4,5), (5,6), (6,7), (7,8), (8,9), (9,10), (10,11), (11,12), (11,12), (11,12)], 0⟩
example : (NS.fromString b!"Hello friend").transformRange (.original 11 12) (rcs [(u!"d", 0), (u!"_", 1), (u!"!", 1)]) 0 = .ok tr8 := by decide +kernel
example : tr8.originalAlignments = .ok (als [(0,1), (1,2), (2,3), (3,4), (4,5), (5,6), (6,7), (7,8), (8,9), (9,10), (10,11), (11,14)]) := by decide +kernel

/-- TransformRange: Removing at the beginning -/
def tr9 : NS := ⟨b!"𝔾𝕠𝕠𝕕", b!"G𝕠𝕕", als [(0,4), (8,12), (8,12), (8,12), (8,12), (12,16), (12,16), (12,16), (12,16)], 0⟩
example : (NS.fromString b!"𝔾𝕠𝕠𝕕").transformRange (.original 0 9) (rcs [(u!"G", -1)]) 0 = .ok tr9 := by decide +kernel
example : tr9.originalAlignments = .ok (als [(0,1), (0,1), (0,1), (0,1), (1,1), (1,1), (1,1), (1,1), (1,5), (1,5), (1,5), (1,5), (5,9), (5,9), (5,9), (5,9)]) := by decide +kernel
example : tr9.getRange (.original 0 8) = .ok (some b!"G") := by decide +kernel
example : tr9.getRange (.original 0 4) = .ok (some b!"G") := by decide +kernel
example : tr9.getOriginalRange (.original 0 4) = .ok (some b!"𝔾") := by decide +kernel
example : tr9.getOriginalRange (.original 0 8) = .ok (some b!"𝔾𝕠") := by decide +kernel

/-- TransformRange: Removing in the middle -/
def tr10 : NS := ⟨b!"𝔾𝕠𝕠𝕕", b!"𝔾o𝕕", als [(0,4), (0,4), (0,4), (0,4), (4,8), (12,16), (12,16), (12,16), (12,16)], 0⟩
example : (NS.fromString b!"𝔾𝕠𝕠𝕕").transformRange (.original 4 12) (rcs [(u!"o", -1)]) 0 = .ok tr10 := by decide +kernel
example : tr10.originalAlignments = .ok (als [(0,4), (0,4), (0,4), (0,4), (4,5), (4,5), (4,5), (4,5), (5,5), (5,5), (5,5), (5,5), (5,9), (5,9), (5,9), (5,9)]) := by decide +kernel

/-- TransformRange: Removing at the end -/
def tr11 : NS := ⟨b!"𝔾𝕠𝕠𝕕", b!"𝔾𝕠𝕠d!", als [(0,4), (0,4), (0,4), (0,4), (4,8), (4,8), (4,8), (4,8), (8,12), (8,12), (8,12), (8,12), (12,16), (12,16)], 0⟩
example : (NS.fromString b!"𝔾𝕠𝕠𝕕").transformRange (.original 12 16) (rcs [(u!"d", 0), (u!"!", 1)]) 0 = .ok tr11 := by decide +kernel

/-- TransformRange: Adding at the beginning -/
def tr12 : NS := ⟨b!"𝔾𝕠𝕠𝕕", b!"_𝔾𝕠𝕠𝕕", als [(0,0), (0,4), (0,4), (0,4), (0,4), (4,8), (4,8), (4,8), (4,8), (8,12), (8,12), (8,12), (8,12), (12,16), (12,16), (12,16), (12,16)], 0⟩
example : (NS.fromString b!"𝔾𝕠𝕠𝕕").transformRange (.original 0 4) (rcs [(u!"_", 1), (u!"𝔾", 0)]) 0 = .ok tr12 := by decide +kernel
example : tr12.originalAlignments = .ok (als [(1,5), (1,5), (1,5), (1,5), (5,9), (5,9), (5,9), (5,9), (9,13), (9,13), (9,13), (9,13), (13,17), (13,17), (13,17), (13,17)]) := by decide +kernel
example : tr12.getRange (.original 0 8) = .ok (some b!"𝔾𝕠") := by decide +kernel
example : tr12.getRange (.original 0 4) = .ok (some b!"𝔾") := by decide +kernel
example : tr12.getOriginalRange (.original 0 4) = .ok (some b!"𝔾") := by decide +kernel
example : tr12.getOriginalRange (.original 0 8) = .ok (some b!"𝔾𝕠") := by decide +kernel

/-- TransformRange: Adding at the beginning - alternative -/
def tr13 : NS := ⟨b!"𝔾𝕠𝕠𝕕", b!"_𝔾𝕠𝕠𝕕", als [(0,0), (0,4), (0,4), (0,4), (0,4), (4,8), (4,8), (4,8), (4,8), (8,12), (8,12), (8,12), (8,12), (12,16), (12,16), (12,16), (12,16)], 0⟩
example : (NS.fromString b!"𝔾𝕠𝕠𝕕").transformRange (.original 0 0) (rcs [(u!"_", 1)]) 0 = .ok tr13 := by decide +kernel
example : tr13.originalAlignments = .ok (als [(1,5), (1,5), (1,5), (1,5), (5,9), (5,9), (5,9), (5,9), (9,13), (9,13), (9,13), (9,13), (13,17), (13,17), (13,17), (13,17)]) := by decide +kernel
example : tr13.getRange (.original 0 8) = .ok (some b!"𝔾𝕠") := by decide +kernel
example : tr13.getRange (.original 0 4) = .ok (some b!"𝔾") := by decide +kernel
example : tr13.getOriginalRange (.original 0 4) = .ok (some b!"𝔾") := by decide +kernel
example : tr13.getOriginalRange (.original 0 8) = .ok (some b!"𝔾𝕠") := by decide +kernel

/-- TransformRange: Adding as part of the first character -/
def tr14 : NS := ⟨b!"𝔾𝕠𝕠𝕕", b!"𝔾o𝕠𝕠𝕕", als [(0,4), (0,4), (0,4), (0,4), (0,4), (4,8), (4,8), (4,8), (4,8), (8,12), (8,12), (8,12), (8,12), (12,16), (12,16), (12,16), (12,16)], 0⟩
example : (NS.fromString b!"𝔾𝕠𝕠𝕕").transformRange (.original 0 4) (rcs [(u!"𝔾", 0), (u!"o", 1)]) 0 = .ok tr14 := by decide +kernel
example : tr14.originalAlignments = .ok (als [(0,5), (0,5), (0,5), (0,5), (5,9), (5,9), (5,9), (5,9), (9,13), (9,13), (9,13), (9,13), (13,17), (13,17), (13,17), (13,17)]) := by decide +kernel
example : tr14.getRange (.original 0 8) = .ok (some b!"𝔾o𝕠") := by decide +kernel
example : tr14.getRange (.original 0 4) = .ok (some b!"𝔾o") := by decide +kernel
example : tr14.getOriginalRange (.original 0 4) = .ok (some b!"𝔾") := by decide +kernel
example : tr14.getOriginalRange (.original 0 8) = .ok (some b!"𝔾𝕠") := by decide +kernel

/-- TransformRange: Adding in the middle -/
def tr15 : NS := ⟨b!"𝔾𝕠𝕠𝕕", b!"𝔾𝕠ooo𝕠𝕕", als [(0,4), (0,4), (0,4), (0,4), (4,8), (4,8), (4,8), (4,8), (4,8), (4,8), (4,8), (8,12), (8,12), (8,12), (8,12), (12,16), (12,16), (12,16), (12,16)], 0⟩
example : (NS.fromString b!"𝔾𝕠𝕠𝕕").transformRange (.original 4 8) (rcs [(u!"𝕠", 0), (u!"o", 1), (u!"o", 1), (u!"o", 1)]) 0 = .ok tr15 := by decide +kernel
example : tr15.originalAlignments = .ok (als [(0,4), (0,4), (0,4), (0,4), (4,11), (4,11), (4,11), (4,11), (11,15), (11,15), (11,15), (11,15), (15,19), (15,19), (15,19), (15,19)]) := by decide +kernel

/-- TransformRange: Adding at the end -/
def tr16 : NS := ⟨b!"𝔾𝕠𝕠𝕕", b!"𝔾𝕠𝕠𝕕!", als [(0,4), (0,4), (0,4), (0,4), (4,8), (4,8), (4,8), (4,8), (8,12), (8,12), (8,12), (8,12), (12,16), (12,16), (12,16), (12,16), (12,16)], 0⟩
example : (NS.fromString b!"𝔾𝕠𝕠𝕕").transformRange (.original 16 16) (rcs [(u!"!", 1)]) 0 = .ok tr16 := by decide +kernel
example : tr16.originalAlignments = .ok (als [(0,4), (0,4), (0,4), (0,4), (4,8), (4,8), (4,8), (4,8), (8,12), (8,12), (8,12), (8,12), (12,17), (12,17), (12,17), (12,17)]) := by decide +kernel

/-! Prepend, Append -/
example : (NS.fromString b!"there").prepend b!"Hey " = .ok ⟨b!"there", b!"Hey there",
    als [(0,1),(0,1),(0,1),(0,1),(0,1),(1,2),(2,3),(3,4),(4,5)], 0⟩ := by decide +kernel
example : ((NS.fromString b!"there").prepend b!"Hey " >>= fun ns => ns.coerceRangeToOriginal (.normalized 0 4))
    = .ok (some (0, 1)) := by decide +kernel
example : (NS.fromString b!"Hey").append b!" there" = .ok ⟨b!"Hey", b!"Hey there",
    als [(0,1),(1,2),(2,3),(2,3),(2,3),(2,3),(2,3),(2,3),(2,3)], 0⟩ := by decide +kernel
example : ((NS.fromString b!"Hey").append b!" there" >>= fun ns => ns.coerceRangeToOriginal (.normalized 3 6))
    = .ok (some (2, 3)) := by decide +kernel

/-! Filter -/
def noN : NS := ⟨b!"élégant", b!"élégat",
    als [(0,2),(0,2),(2,3),(3,5),(3,5),(5,6),(6,7),(8,9)], 0⟩
example : (NS.fromString b!"élégant").filter (fun r => r != u!"n") = .ok noN := by decide +kernel
example : noN.originalAlignments
    = .ok (als [(0,2),(0,2),(2,3),(3,5),(3,5),(5,6),(6,7),(7,7),(7,8)]) := by decide +kernel

def noSpace (s : Str) : GoM NS := (NS.fromString s).filter fun r => !isWhiteSpace r
example : NS.get <$> noSpace b!"     Hello" = .ok b!"Hello" := by decide +kernel
example : (noSpace b!"     Hello" >>= fun ns => ns.getOriginalRange (.normalized 1 5)) = .ok (some b!"ello") := by
  decide +kernel
example : (noSpace b!"     Hello" >>= fun ns => ns.getOriginalRange (.normalized 0 5)) = .ok (some b!"Hello") := by
  decide +kernel
example : NS.get <$> noSpace b!"Hello    " = .ok b!"Hello" := by decide +kernel
example : (noSpace b!"Hello    " >>= fun ns => ns.getOriginalRange (.normalized 0 4)) = .ok (some b!"Hell") := by
  decide +kernel
example : (noSpace b!"Hello    " >>= fun ns => ns.getOriginalRange (.normalized 0 5)) = .ok (some b!"Hello") := by
  decide +kernel
example : (noSpace b!"  Hello  " >>= fun ns => ns.getOriginalRange (.normalized 0 5)) = .ok (some b!"Hello") := by
  decide +kernel
example : (noSpace b!"  Hello  " >>= fun ns => ns.getOriginalRange (.normalized 0 4)) = .ok (some b!"Hell") := by
  decide +kernel

/-! Range conversion -/
def asciiLower (r : Rune) : Rune := if 65 ≤ r ∧ r ≤ 90 then r + 32 else r
def rc : GoM NS := noSpace b!"    __Hello__   " >>= NS.toLower asciiLower
example : rc.bind (fun ns => .ok (ns.coerceRangeToNormalized (.original 6 11))) = .ok (some (2, 7)) := by decide +kernel
example : rc.bind (fun ns => ns.getRange (.normalized 2 7)) = .ok (some b!"hello") := by decide +kernel
example : rc.bind (fun ns => ns.getOriginalRange (.normalized 2 7)) = .ok (some b!"Hello") := by decide +kernel
example : rc.bind (fun ns => ns.getRange (.original 6 11)) = .ok (some b!"hello") := by decide +kernel
example : rc.bind (fun ns => ns.getOriginalRange (.original 6 11)) = .ok (some b!"Hello") := by decide +kernel
example : rc.bind (fun ns => .ok (ns.coerceRangeToNormalized (.original 0 0))) = .ok (some (0, 0)) := by decide +kernel
example : rc.bind (fun ns => .ok (ns.coerceRangeToNormalized (.original 3 3))) = .ok (some (3, 3)) := by decide +kernel
example : rc.bind (fun ns => .ok (ns.coerceRangeToNormalized (.original 15 16))) = .ok (some (9, 9)) := by decide +kernel
example : rc.bind (fun ns => .ok (ns.coerceRangeToNormalized (.original 16 16))) = .ok (some (16, 16)) := by decide +kernel
example : rc.bind (fun ns => .ok (ns.coerceRangeToNormalized (.original 17 16))) = .ok none := by decide +kernel
example : rc.bind (fun ns => ns.coerceRangeToOriginal (.normalized 0 0)) = .ok (some (0, 0)) := by decide +kernel
example : rc.bind (fun ns => ns.coerceRangeToOriginal (.normalized 3 3)) = .ok (some (3, 3)) := by decide +kernel
example : rc.bind (fun ns => ns.coerceRangeToOriginal (.normalized 9 9)) = .ok (some (9, 9)) := by decide +kernel
example : rc.bind (fun ns => ns.coerceRangeToOriginal (.normalized 10 9)) = .ok none := by decide +kernel

def orng : GoM NS :=
  (NS.fromString b!"Hello_______ World!").filter (fun r => r != u!"_") >>= NS.toLower asciiLower
example : orng.bind (fun ns => ns.getRange (.normalized 6 11)) = .ok (some b!"world") := by decide +kernel
example : orng.bind (fun ns => ns.getOriginalRange (.normalized 6 11)) = .ok (some b!"World") := by decide +kernel
example : orng.bind (fun ns => ns.coerceRangeToOriginal (.normalized 6 11)) = .ok (some (13, 18)) := by decide +kernel
example : orng.bind (fun ns => ns.getRange (.original 13 18)) = .ok (some b!"world") := by decide +kernel
example : orng.bind (fun ns => ns.getOriginalRange (.original 13 18)) = .ok (some b!"World") := by decide +kernel

/-! Transform -/
def cjk (r : Rune) : List RuneChange :=
  if r > 0x4E00 then [⟨32, 0⟩, ⟨r, 1⟩, ⟨32, 1⟩] else [⟨r, 0⟩]
def noguchi : NS := ⟨b!"野口 No", b!" 野  口  No",
  als [(0,3),(0,3),(0,3),(0,3),(0,3),(3,6),(3,6),(3,6),(3,6),(3,6),(6,7),(7,8),(8,9)], 0⟩
example : (NS.fromString b!"野口 No").transform ((runesOf b!"野口 No").flatMap cjk) 0 = .ok noguchi := by decide +kernel
example : noguchi.originalAlignments
    = .ok (als [(0,5),(0,5),(0,5),(5,10),(5,10),(5,10),(10,11),(11,12),(12,13)]) := by decide +kernel
def around : GoM NS := (NS.fromString b!"Hello").transform
  (rcs [(32,1),(u!"H",0),(u!"e",0),(u!"l",0),(u!"l",0),(u!"o",0),(32,1)]) 0
example : NS.get <$> around = .ok b!" Hello " := by decide +kernel
example : around.bind (fun ns => ns.getOriginalRange (.normalized 1 6)) = .ok (some b!"Hello") := by decide +kernel

/-! Split -/
def pieces (b : Behavior) : GoM (Except Err (List Str)) :=
  (NS.fromString b!"The-final--countdown").split (fromRune u!"-") b >>= fun r => .ok (r.map (·.map NS.get))
example : pieces .removed = .ok (.ok [b!"The", b!"final", b!"countdown"]) := by decide +kernel
example : pieces .isolated = .ok (.ok [b!"The", b!"-", b!"final", b!"-", b!"-", b!"countdown"]) := by decide +kernel
example : pieces .mergedWithPrevious = .ok (.ok [b!"The-", b!"final-", b!"-", b!"countdown"]) := by decide +kernel
example : pieces .mergedWithNext = .ok (.ok [b!"The", b!"-final", b!"-", b!"-countdown"]) := by decide +kernel
example : pieces .contiguous = .ok (.ok [b!"The", b!"-", b!"final", b!"--", b!"countdown"]) := by decide +kernel

/-! Replace -/
def repl (s : Str) (p : SplitPattern) (c : Str) : GoM (Except Err Str) :=
  (NS.fromString s).replace p c >>= fun r => .ok (r.map NS.get)
example : repl b!" Hello   friend " (fromRune 32) b!"_" = .ok (.ok b!"_Hello___friend_") := by decide +kernel
example : repl b!"aaaab" (fromRune u!"a") b!"b" = .ok (.ok b!"bbbbb") := by decide +kernel
example : repl b!"aaaab" (fromStringPattern b!"aaa") b!"b" = .ok (.ok b!"bab") := by decide +kernel
example : repl b!" Hello   friend " (fromRegexp fun _ => [(0,1),(6,9),(15,16)]) b!"_"
    = .ok (.ok b!"_Hello_friend_") := by decide +kernel

end Verif.Tests
