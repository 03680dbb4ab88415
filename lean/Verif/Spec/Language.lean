import Mathlib.Logic.Relation

/-!
# Specification: derivations and languages

Independent of the model. A set of productions is just a relation between a symbol and a
list of symbols. One derivation step rewrites one occurrence of a symbol; `Derives` is its
reflexive transitive closure.
-/

namespace Verif

/-- A grammar symbol, identified by its number. -/
notation "Sym" => Nat

/-- A set of productions `A ::= α`. -/
abbrev Productions := Sym → List Sym → Prop

/-- One rewriting step: some occurrence of `A` is replaced by `α` for a production `A ::= α`. -/
def Step (P : Productions) (u v : List Sym) : Prop :=
  ∃ A α p s, P A α ∧ u = p ++ A :: s ∧ v = p ++ α ++ s

/-- Any number of rewriting steps. -/
def Derives (P : Productions) : List Sym → List Sym → Prop :=
  Relation.ReflTransGen (Step P)

/-- One or more rewriting steps. -/
def DerivesPlus (P : Productions) : List Sym → List Sym → Prop :=
  Relation.TransGen (Step P)

/-- `w` is a string of terminals (symbols in `T`) derivable from `A`. -/
def InLang (P : Productions) (T : Sym → Prop) (A : Sym) (w : List Sym) : Prop :=
  Derives P [A] w ∧ ∀ a ∈ w, T a

/-- `A` derives some string of terminals. -/
def Productive (P : Productions) (T : Sym → Prop) (A : Sym) : Prop :=
  ∃ w, InLang P T A w

/-- `A` derives the empty string. -/
def Nullable (P : Productions) (A : Sym) : Prop :=
  Derives P [A] []

/-- `B` occurs in some string derivable from `A` (possibly in zero steps). -/
def Reaches (P : Productions) (A B : Sym) : Prop :=
  ∃ p s, Derives P [A] (p ++ B :: s)

/-- `B` occurs in some string derivable from `A` in one or more steps. -/
def ReachesPlus (P : Productions) (A B : Sym) : Prop :=
  ∃ p s, DerivesPlus P [A] (p ++ B :: s)

end Verif
