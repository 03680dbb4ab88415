import Verif.Spec.Language

/-! # Specification: sets of symbols closed under the rules -/

namespace Verif

/-- Every rule with a non-empty right side all of whose symbols are in `S` has its left side
in `S`. -/
def ClosedAll (P : Productions) (S : Sym → Prop) : Prop :=
  ∀ A α, P A α → α ≠ [] → (∀ s ∈ α, S s) → S A

/-- Every rule with some symbol of the right side in `S` has its left side in `S`. -/
def ClosedAny (P : Productions) (S : Sym → Prop) : Prop :=
  ∀ A α, P A α → (∃ s ∈ α, S s) → S A

/-- `R` is the least set that contains `I` and is closed in the sense of `C`. -/
def IsLeast (C : (Sym → Prop) → Prop) (I R : Sym → Prop) : Prop :=
  (∀ s, I s → R s) ∧ C R ∧ ∀ S, (∀ s, I s → S s) → C S → ∀ s, R s → S s

end Verif
