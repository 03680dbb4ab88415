import Verif.Model.Regexp
import Verif.Spec.Sequence

/-! # Specification: character classes and regular expressions -/

namespace Verif

/-- The character lies in one of the ranges, both ends included. -/
def InRanges (ranges : List (Nat × Nat)) (c : Nat) : Prop := ∃ r ∈ ranges, r.1 ≤ c ∧ c ≤ r.2

/-- The ranges ascend and do not overlap, as in every class of a parsed expression. -/
def Apart (ranges : List (Nat × Nat)) : Prop :=
  (∀ r ∈ ranges, r.1 ≤ r.2) ∧ ranges.Pairwise fun r r' => r.2 < r'.1

instance (ranges : List (Nat × Nat)) (c : Nat) : Decidable (InRanges ranges c) :=
  inferInstanceAs (Decidable (∃ _, _))
instance (ranges : List (Nat × Nat)) : Decidable (Apart ranges) :=
  inferInstanceAs (Decidable (_ ∧ _))

/-- A lexer map with one symbol per class, in which the ranges of a class are apart. -/
def LexerMap.Proper (m : LexerMap) : Prop :=
  (m.classes.map Prod.snd).Nodup ∧ ∀ e ∈ m.classes, Apart e.1

instance (m : LexerMap) : Decidable m.Proper := inferInstanceAs (Decidable (_ ∧ _))

/-- The first list of ranges comes before the second in lexicographic order. -/
def ClassLt (as bs : List (Nat × Nat)) : Prop :=
  (∃ b bs', bs = as ++ b :: bs') ∨
  ∃ pre a as' b bs', as = pre ++ a :: as' ∧ bs = pre ++ b :: bs' ∧
    (a.1 < b.1 ∨ a.1 = b.1 ∧ a.2 < b.2)

/-- A code point of a character: not a surrogate, not too large. -/
def IsChar (c : Nat) : Prop := c < 0x110000 ∧ ¬ (0xD800 ≤ c ∧ c ≤ 0xDFFF)

instance (c : Nat) : Decidable (IsChar c) := inferInstanceAs (Decidable (_ ∧ _))

/-- The letters of an expression: literal bytes and classes. -/
inductive Letter where
  | byte (b : Nat)
  | cls (ranges : List (Nat × Nat))
  deriving DecidableEq, Repr

/-- The class under which a letter is stored in the lexer map: a byte is stored as the range of
two characters. -/
def Letter.ranges : Letter → List (Nat × Nat)
  | .byte b => [(b, b + 1)]
  | .cls ranges => ranges

mutual

/-- The strings of letters described by an expression. -/
def Hir.Matches : Hir → List Letter → Prop
  | .empty, w => w = []
  | .literal bytes, w => w = bytes.map .byte
  | .cls ranges, w => w = [.cls ranges]
  | .look, _ => False
  | .repetition min max sub, w =>
    ∃ parts : List (List Letter), min ≤ parts.length ∧ (∀ e, max = some e → parts.length ≤ e) ∧
      (∀ v ∈ parts, Hir.Matches sub v) ∧ w = parts.flatten
  | .capture sub, w => Hir.Matches sub w
  | .concat exprs, w => Hir.MatchesAll exprs w
  | .alternation exprs, w => Hir.MatchesAny exprs w

/-- One string of each expression, one after the other. -/
def Hir.MatchesAll : List Hir → List Letter → Prop
  | [], w => w = []
  | e :: es, w => ∃ u v, w = u ++ v ∧ Hir.Matches e u ∧ Hir.MatchesAll es v

/-- A string of one of the expressions. -/
def Hir.MatchesAny : List Hir → List Letter → Prop
  | [], _ => False
  | e :: es, w => Hir.Matches e w ∨ Hir.MatchesAny es w

end

mutual

/-- An expression as the parser makes it, without look-around: no empty alternation, ascending
ranges, non-inverted bounds of repetition that the sequence rules can handle, no byte 255. -/
def Hir.Plain : Hir → Prop
  | .empty => True
  | .literal bytes => ∀ b ∈ bytes, b < 255
  | .cls ranges => Apart ranges
  | .look => False
  | .repetition min max sub => (⟨0, 0, min, max, .null, none⟩ : Sequence).InU32 ∧
    (⟨0, 0, min, max, .null, none⟩ : Sequence).Fits ∧ Hir.Plain sub
  | .capture sub => Hir.Plain sub
  | .concat exprs => Hir.PlainAll exprs
  | .alternation exprs => exprs ≠ [] ∧ Hir.PlainAll exprs

/-- All expressions are plain. -/
def Hir.PlainAll : List Hir → Prop
  | [] => True
  | e :: es => Hir.Plain e ∧ Hir.PlainAll es

end

mutual

/-- An expression as the parser makes it: no empty alternation, ascending ranges, bounds of
repetition that fit 32 bits. -/
def Hir.Parsed : Hir → Prop
  | .empty => True
  | .literal _ => True
  | .cls ranges => Apart ranges
  | .look => True
  | .repetition min max sub => (min < 2 ^ 32 ∧ ∀ e, max = some e → e < 2 ^ 32) ∧ Hir.Parsed sub
  | .capture sub => Hir.Parsed sub
  | .concat exprs => Hir.ParsedAll exprs
  | .alternation exprs => exprs ≠ [] ∧ Hir.ParsedAll exprs

/-- All expressions are as the parser makes them. -/
def Hir.ParsedAll : List Hir → Prop
  | [] => True
  | e :: es => Hir.Parsed e ∧ Hir.ParsedAll es

end

mutual

/-- The parts of an expression that the translation cannot handle: look-around, the byte 255 and
repetition bounds that are inverted or too large for the sequence rules. -/
def Hir.Trouble : Hir → Prop
  | .empty => False
  | .literal bytes => ∃ b ∈ bytes, 255 ≤ b
  | .cls _ => False
  | .look => True
  | .repetition min max sub =>
    (¬ (⟨0, 0, min, max, .null, none⟩ : Sequence).Fits) ∨ Hir.Trouble sub
  | .capture sub => Hir.Trouble sub
  | .concat exprs => Hir.TroubleIn exprs
  | .alternation exprs => Hir.TroubleIn exprs

/-- One of the expressions has a part that the translation cannot handle. -/
def Hir.TroubleIn : List Hir → Prop
  | [] => False
  | e :: es => Hir.Trouble e ∨ Hir.TroubleIn es

end

mutual

/-- The letters that occur in an expression. -/
def Hir.letters : Hir → List Letter
  | .empty => []
  | .literal bytes => bytes.map .byte
  | .cls ranges => [.cls ranges]
  | .look => []
  | .repetition _ _ sub => Hir.letters sub
  | .capture sub => Hir.letters sub
  | .concat exprs => Hir.lettersAll exprs
  | .alternation exprs => Hir.lettersAll exprs

/-- The letters that occur in some of the expressions. -/
def Hir.lettersAll : List Hir → List Letter
  | [] => []
  | e :: es => Hir.letters e ++ Hir.lettersAll es

end

mutual

/-- The texts described by an expression. A literal is the UTF-8 encoding of its text. -/
def Hir.MatchesText : Hir → List Char → Prop
  | .empty, w => w = []
  | .literal bytes, w => w.flatMap String.utf8EncodeChar = bytes.map UInt8.ofNat
  | .cls ranges, w => ∃ c, w = [c] ∧ InRanges ranges c.toNat
  | .look, _ => False
  | .repetition min max sub, w =>
    ∃ parts : List (List Char), min ≤ parts.length ∧ (∀ e, max = some e → parts.length ≤ e) ∧
      (∀ v ∈ parts, Hir.MatchesText sub v) ∧ w = parts.flatten
  | .capture sub, w => Hir.MatchesText sub w
  | .concat exprs, w => Hir.MatchesTextAll exprs w
  | .alternation exprs, w => Hir.MatchesTextAny exprs w

/-- One text of each expression, one after the other. -/
def Hir.MatchesTextAll : List Hir → List Char → Prop
  | [], w => w = []
  | e :: es, w => ∃ u v, w = u ++ v ∧ Hir.MatchesText e u ∧ Hir.MatchesTextAll es v

/-- A text of one of the expressions. -/
def Hir.MatchesTextAny : List Hir → List Char → Prop
  | [], _ => False
  | e :: es, w => Hir.MatchesText e w ∨ Hir.MatchesTextAny es w

end

end Verif
