import Verif.Model.Load
import Verif.Spec.Earley
import Verif.Spec.Grammar

/-! # Specification: BNF texts -/

namespace Verif

/-! ## Lexical structure -/

/-- A letter or an underscore. -/
def WordStart (c : Char) : Prop := c.isAlpha = true ∨ c = '_'

/-- A letter, a digit or an underscore. -/
def WordChar (c : Char) : Prop := c.isAlphanum = true ∨ c = '_'

instance (c : Char) : Decidable (WordStart c) := inferInstanceAs (Decidable (_ ∨ _))
instance (c : Char) : Decidable (WordChar c) := inferInstanceAs (Decidable (_ ∨ _))

/-- An identifier: word characters, the first of which is no digit. -/
def IsWord (s : Text) : Prop := (∃ c t, s = c :: t ∧ WordStart c) ∧ ∀ c ∈ s, WordChar c

/-- The rest of a text does not continue an identifier. -/
def WordEnd (rest : Text) : Prop := ∀ c t, rest = c :: t → ¬ WordChar c

/-- Blanks. -/
def Blank (c : Char) : Prop := c = ' ' ∨ c = '\n' ∨ c = '\t'

/-- The line on which the text after `pre` starts, counted from one. -/
def lineAfter (pre : Text) : Nat := 1 + pre.count '\n'

/-- The column at which the text after `pre` starts, counted from one: the characters since the
last newline. -/
def colAfter (pre : Text) : Nat := 1 + (pre.reverse.takeWhile (· ≠ '\n')).length

namespace Basic

/-- The spelling of the punctuation. -/
inductive Punct : Text → Token → Prop
  | bnfOp : Punct [':', ':', '='] .bnfOp
  | semicolon : Punct [';'] .semicolon
  | pipe : Punct ['|'] .pipe
  | plus : Punct ['+'] .plus
  | mul : Punct ['*'] .mul
  | lparen : Punct ['('] .lparen
  | rparen : Punct [')'] .rparen

/-- `Lexed text tokens rest`: the text before `rest` consists of the tokens and blanks, and every
identifier is as long as possible. -/
inductive Lexed : Text → List Token → Text → Prop
  | done (rest : Text) : Lexed rest [] rest
  | blank {c : Char} {text rest : Text} {ts : List Token} : Blank c → Lexed text ts rest →
      Lexed (c :: text) ts rest
  | punct {s text rest : Text} {t : Token} {ts : List Token} : Punct s t → Lexed text ts rest →
      Lexed (s ++ text) (t :: ts) rest
  | word {s text rest : Text} {ts : List Token} : IsWord s → WordEnd text → Lexed text ts rest →
      Lexed (s ++ text) (.ident s :: ts) rest

/-- No token and no blank starts here. -/
def Stuck (rest : Text) : Prop :=
  ∃ c t, rest = c :: t ∧ ¬ Blank c ∧ ¬ WordStart c ∧ ∀ s t, Punct s t → ¬ s <+: rest

/-! ## Syntax -/

/-- An element of an alternative: a name, possibly repeated, or `()`. -/
inductive Elem where
  | name (s : Text) (rep : Rep)
  | unit
  deriving DecidableEq, Repr

/-- How an element is written. -/
def Elem.tokens : Elem → List Token
  | .name s .none => [.ident s]
  | .name s .zeroOrMore => [.ident s, .mul]
  | .name s .oneOrMore => [.ident s, .plus]
  | .unit => [.lparen, .rparen]

/-- A rule of a BNF text, with its alternatives. -/
structure Stmt where
  lhs : Text
  alts : List (List Elem)
  deriving DecidableEq, Repr

/-- How a rule is written: the alternatives are separated by bars. -/
def Stmt.tokens (s : Stmt) : List Token :=
  .ident s.lhs :: .bnfOp ::
    ((s.alts.map fun alt => alt.flatMap Elem.tokens).intersperse [.pipe]).flatten ++ [.semicolon]

/-- A rule is well-formed if none of its alternatives is blank; it may have none at all. -/
def Stmt.Ok (s : Stmt) : Prop := ∀ alt ∈ s.alts, alt ≠ []

/-- A BNF text is at least one rule. -/
def IsBnf (stmts : List Stmt) (tokens : List Token) : Prop :=
  stmts ≠ [] ∧ (∀ s ∈ stmts, s.Ok) ∧ tokens = stmts.flatMap Stmt.tokens

/-- The alternatives of a rule; a rule without alternatives has an empty one. -/
def Stmt.choices (s : Stmt) : List (List Elem) := if s.alts = [] then [[]] else s.alts

/-! ## Meaning -/

/-- The names in an alternative. -/
def Elem.names : Elem → List Text
  | .name s _ => [s]
  | .unit => []

/-- The names in a rule. -/
def Stmt.names (s : Stmt) : List Text := s.lhs :: s.alts.flatten.flatMap Elem.names

/-- The strings of symbols that an element stands for. -/
def Elem.Means (sym : Text → Sym) : Elem → List Sym → Prop
  | .name s .none, α => α = [sym s]
  | .name s .zeroOrMore, α => ∃ n, α = List.replicate n (sym s)
  | .name s .oneOrMore, α => ∃ n, 1 ≤ n ∧ α = List.replicate n (sym s)
  | .unit, α => α = []

/-- The strings of symbols that an alternative stands for. -/
def altMeans (sym : Text → Sym) (alt : List Elem) (α : List Sym) : Prop :=
  ∃ parts, List.Forall₂ (Elem.Means sym) alt parts ∧ α = parts.flatten

/-- The productions that a BNF text stands for. -/
def bnfProd (stmts : List Stmt) (sym : Text → Sym) : Productions := fun A α =>
  ∃ s ∈ stmts, A = sym s.lhs ∧ ∃ alt ∈ s.choices, altMeans sym alt α

/-- The terminals of a BNF text: the names without a rule. -/
def bnfTerm (stmts : List Stmt) (sym : Text → Sym) (a : Sym) : Prop :=
  ∃ n ∈ stmts.flatMap Stmt.names, a = sym n ∧ ∀ s ∈ stmts, s.lhs ≠ n

/-! ## Printed grammars -/

/-- The elements of a list in the order of their first occurrences. -/
def _root_.Verif.firstUses {α : Type} [DecidableEq α] (l : List α) : List α :=
  l.foldl (fun seen s => if s ∈ seen then seen else seen ++ [s]) []

/-- The symbols in the rules of a grammar, in the order in which they are printed. -/
def _root_.Verif.Cfg.printed (g : Cfg) : List Sym := g.rules.flatMap fun r => r.lhs :: r.rhs

end Basic

end Verif
