import Verif.Spec.Language

/-! # Specification: weights of strings -/

namespace Verif

/-- Total weight of a string: the sum of the weights of its symbols, if they all have one. -/
def weight (value : Sym → Option Nat) : List Sym → Option Nat
  | [] => some 0
  | s :: w => match value s, weight value w with
    | some a, some b => some (a + b)
    | _, _ => none

/-- The productions with a non-empty right side. -/
def NonEmptyProds (P : Productions) : Productions := fun A α => P A α ∧ α ≠ []

/-- `c` is the weight of some string derivable from `A`. -/
def HasWeight (P : Productions) (value : Sym → Option Nat) (A : Sym) (c : Nat) : Prop :=
  ∃ w, Derives P [A] w ∧ weight value w = some c

end Verif
