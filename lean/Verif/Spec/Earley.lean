import Verif.Model.Earley

/-! # Specification: parse trees -/

namespace Verif

variable {T N : Type}

mutual

/-- The tree derives the scanned terminals from the symbol. -/
def Tree.Derives (rules : Syntax T N) : Tree T → GSym T N → List (T × Nat) → Prop
  | .leaf t i, s, w => s = .t t ∧ w = [(t, i)]
  | .node a args, s, w => ∃ A rhs, s = .n A ∧ (a, A, rhs) ∈ rules ∧ Tree.DeriveAll rules args rhs w

/-- The trees derive the scanned terminals from the symbols, one after the other. -/
def Tree.DeriveAll (rules : Syntax T N) : List (Tree T) → List (GSym T N) → List (T × Nat) → Prop
  | [], rhs, w => rhs = [] ∧ w = []
  | t :: ts, rhs, w => ∃ s rhs' u v, rhs = s :: rhs' ∧ w = u ++ v ∧ Tree.Derives rules t s u ∧
    Tree.DeriveAll rules ts rhs' v

end

/-- The assumption on the external recognizer: after each scan it reports whether the terminals so
far begin a sentence, and at the end it has a tree for the whole input if there is one. -/
structure Recognizer.Correct (R : Recognizer T) (rules : Syntax T N) (start : N) : Prop where
  viable : ∀ w, R.viable w = true ↔ ∃ v t, Tree.Derives rules t (.n start) (w ++ v)
  sound : ∀ w t, R.tree w = some t → Tree.Derives rules t (.n start) w
  complete : ∀ w t, Tree.Derives rules t (.n start) w → (R.tree w).isSome

end Verif
