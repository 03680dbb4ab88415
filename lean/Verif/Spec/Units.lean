import Verif.Spec.Language

/-! # Specification: unit derivations and cycles -/

namespace Verif

/-- There is a one-symbol rule `A ::= B` with `A` and `B` different. -/
def UnitStep (P : Productions) (A B : Sym) : Prop := P A [B] ∧ A ≠ B

/-- A chain of one or more one-symbol rules between different symbols. -/
def UnitChain (P : Productions) : Sym → Sym → Prop := Relation.TransGen (UnitStep P)

/-- No symbol derives itself through a chain of one-symbol rules between different symbols. -/
def CycleFree (P : Productions) : Prop := ∀ A, ¬ UnitChain P A A

/-- A rule `A ::= B` that lies on a cycle: a chain of one-symbol rules between different symbols
leads from `B` back to `A`. -/
def CycleRule (P : Productions) (A : Sym) (α : List Sym) : Prop :=
  ∃ B, α = [B] ∧ UnitChain P B A

/-- `A` and `B` lie on a common cycle. -/
def SameCycle (P : Productions) (A B : Sym) : Prop := UnitChain P A B ∧ UnitChain P B A

end Verif
