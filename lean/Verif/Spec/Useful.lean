import Verif.Spec.Grammar

/-! # Specification: useful rules -/

namespace Verif

/-- Some root derives a string containing `s`. -/
def ReachableFrom (P : Productions) (roots : List Sym) (s : Sym) : Prop :=
  ∃ root ∈ roots, Reaches P root s

/-- A useful rule `A ::= α`: some root derives a string containing `A`, and every symbol of `α`
derives some string of terminals. -/
def UsefulRule (P : Productions) (T : Sym → Prop) (roots : List Sym) (A : Sym) (α : List Sym) :
    Prop :=
  ReachableFrom P roots A ∧ ∀ s ∈ α, Productive P T s

end Verif
