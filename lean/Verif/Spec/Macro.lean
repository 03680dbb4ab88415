import Verif.Model.Macro
import Verif.Spec.LoadAdvanced

/-! # Specification: the text that a macro call stands for -/

namespace Verif.Macro

open Advanced

/-- A piece of source text. -/
structure Piece where
  text : Text
  span : Span
  /-- A colon that is punctuation. -/
  colon : Bool
  deriving DecidableEq, Repr

/-- The delimiters of a group. -/
def Delimiter.texts : Delimiter → Option (Text × Text)
  | .parenthesis => some (['('], [')'])
  | .brace => some (['{'], ['}'])
  | .bracket => some (['['], [']'])
  | .none => Option.none

mutual

/-- The pieces of a tree of tokens in the order in which they are written. -/
def TokenTree.pieces : TokenTree → List Piece
  | .group d stream spanOpen spanClose =>
    match d.texts with
    | some (o, c) => ⟨o, spanOpen, false⟩ :: (pieces stream ++ [⟨c, spanClose, false⟩])
    | none => pieces stream
  | .ident text span => [⟨text, span, false⟩]
  | .punct ch span => [⟨[ch], span, ch == ':'⟩]
  | .literal text span => [⟨text, span, false⟩]

/-- The pieces of some trees of tokens. -/
def pieces : List TokenTree → List Piece
  | [] => []
  | t :: ts => t.pieces ++ pieces ts

end

/-- The pieces written on lines: every piece has a line of its own, only a colon is written in front
of the piece that follows it without a gap. A line has the span of its last piece. -/
inductive Lines : List Piece → List (Text × Span) → Prop
  | nil : Lines [] []
  | piece {x : Piece} {ps : List Piece} {ls : List (Text × Span)} : x.colon = false → Lines ps ls →
      Lines (x :: ps) ((x.text, x.span) :: ls)
  | lone {x : Piece} {ps : List Piece} {ls : List (Text × Span)} : x.colon = true →
      (∀ y ∈ ps.head?, x.span.stop ≠ y.span.start) → Lines ps ls →
      Lines (x :: ps) ((x.text, x.span) :: ls)
  | joined {x y : Piece} {ps : List Piece} {t : Text} {s : Span} {ls : List (Text × Span)} :
      x.colon = true → x.span.stop = y.span.start → Lines (y :: ps) ((t, s) :: ls) →
      Lines (x :: y :: ps) ((x.text ++ t, s) :: ls)

/-- The text of some lines. -/
def code (ls : List (Text × Span)) : Text := ls.flatMap fun l => l.1 ++ ['\n']

/-- How many line breaks some tokens have in them. -/
def breaks (ls : List (Text × Span)) : Nat := (ls.map fun l => l.1.count '\n').sum

/-- A line that is one token. -/
inductive Reads : Text → Token → Prop
  | punct {s : Text} {t : Token} : Punct s t → Reads s t
  | word {s : Text} : IsWord s → Reads s (wordToken s)
  | string {s v : Text} : Quoted s v → Reads ('"' :: (s ++ ['"'])) (.string v)

end Verif.Macro
