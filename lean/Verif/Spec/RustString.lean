import Verif.Model.Load

/-! # Specification: string literals of Rust

After the chapter on tokens of the Rust reference. -/

namespace Verif.Macro

/-- A digit of a hexadecimal number, with its value. -/
def hexValue (c : Char) : Option Nat :=
  if '0' ≤ c ∧ c ≤ '9' then some (c.toNat - '0'.toNat)
  else if 'a' ≤ c ∧ c ≤ 'f' then some (c.toNat - 'a'.toNat + 10)
  else if 'A' ≤ c ∧ c ≤ 'F' then some (c.toNat - 'A'.toNat + 10)
  else none

/-- `HexDigits s n`: up to six digits for the number, with underscores after the first digit. -/
inductive HexDigits : Text → Nat → Nat → Prop
  | one {c : Char} {n : Nat} : hexValue c = some n → HexDigits [c] 1 n
  | digit {s : Text} {c : Char} {k m n : Nat} : HexDigits s k m → k < 6 → hexValue c = some n →
      HexDigits (s ++ [c]) (k + 1) (16 * m + n)
  | underscore {s : Text} {k m : Nat} : HexDigits s k m → HexDigits (s ++ ['_']) k m

/-- `Escape e c`: after a backslash, `e` stands for the character `c`. -/
inductive Escape : Text → Char → Prop
  | newline : Escape ['n'] '\n'
  | carriageReturn : Escape ['r'] '\r'
  | tab : Escape ['t'] '\t'
  | null : Escape ['0'] (Char.ofNat 0)
  | backslash : Escape ['\\'] '\\'
  | quote : Escape ['\''] '\''
  | doubleQuote : Escape ['"'] '"'
  | ascii {c d : Char} {m n : Nat} : hexValue c = some m → hexValue d = some n → m < 8 →
      Escape ['x', c, d] (Char.ofNat (16 * m + n))
  | unicode {s : Text} {k n : Nat} : HexDigits s k n → n.isValidChar →
      Escape ('u' :: '{' :: (s ++ ['}'])) (Char.ofNat n)

/-- `StringBody s v`: between double quotes, `s` is a string literal with the value `v`. A backslash at
the end of a line removes the line break and the blanks after it. -/
inductive StringBody : Text → Text → Prop
  | nil : StringBody [] []
  | char {c : Char} {s v : Text} : c ≠ '"' → c ≠ '\\' → c ≠ '\r' → StringBody s v →
      StringBody (c :: s) (c :: v)
  | escape {e s v : Text} {c : Char} : Escape e c → StringBody s v →
      StringBody ('\\' :: (e ++ s)) (c :: v)
  | lineBreak {ws s v : Text} : (∀ c ∈ ws, c = ' ' ∨ c = '\t' ∨ c = '\n') →
      (∀ c ∈ s.head?, c ≠ ' ' ∧ c ≠ '\t' ∧ c ≠ '\n') → StringBody s v →
      StringBody ('\\' :: '\n' :: (ws ++ s)) v

/-- The source text is a call of `compile_error!` with the message as its only argument. -/
def Shows (source message : Text) : Prop :=
  ∃ body, source = "compile_error!(\"".toList ++ body ++ "\")".toList ∧ StringBody body message

end Verif.Macro
