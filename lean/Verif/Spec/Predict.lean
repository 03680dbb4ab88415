import Verif.Spec.Language

/-! # Specification: FIRST, LAST and FOLLOW -/

namespace Verif

/-- The terminal `a` can begin a string derived from `α`. -/
def FirstOf (P : Productions) (T : Sym → Prop) (α : List Sym) (a : Sym) : Prop :=
  T a ∧ ∃ γ, Derives P α (a :: γ)

/-- The terminal `a` can end a string derived from `α`. -/
def LastOf (P : Productions) (T : Sym → Prop) (α : List Sym) (a : Sym) : Prop :=
  T a ∧ ∃ γ, Derives P α (γ ++ [a])

/-- The terminal `a` can stand immediately after `A` in a string derived from some symbol. -/
def FollowOf (P : Productions) (T : Sym → Prop) (A a : Sym) : Prop :=
  T a ∧ ∃ B α γ, Derives P [B] (α ++ A :: a :: γ)

/-- The nullable symbols at the front of `α` derive only the empty string: a symbol with only nullable
symbols before it is not nullable, or begins with no terminal. -/
def LeadsEmpty (P : Productions) (T : Sym → Prop) (α : List Sym) : Prop :=
  ∀ pre s post, α = pre ++ s :: post → Derives P pre [] → Nullable P s → ∀ b, ¬ FirstOf P T [s] b

end Verif
