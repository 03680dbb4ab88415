import Verif.Spec.Language
import Verif.Model.Cfg

/-!
# Specification: reading a modelled grammar as a set of productions

These views only look at the public data of a grammar (its rules, roots and number of
symbols).
-/

namespace Verif

namespace Cfg

/-- The productions of a grammar. -/
def prod (g : Cfg) : Productions := fun A α => ∃ r ∈ g.rules, r.lhs = A ∧ r.rhs = α

/-- Well-formed: every rule mentions only symbols of the grammar's own source. -/
def WF (g : Cfg) : Prop :=
  ∀ r ∈ g.rules, r.lhs < g.numSyms ∧ ∀ s ∈ r.rhs, s < g.numSyms

/-- `a` is a terminal: a symbol of the grammar that is no rule's left side. -/
def Term (g : Cfg) (a : Sym) : Prop := a < g.numSyms ∧ ∀ r ∈ g.rules, r.lhs ≠ a

/-- `a` occurs on some side of some rule. -/
def Used (g : Cfg) (a : Sym) : Prop := ∃ r ∈ g.rules, r.lhs = a ∨ a ∈ r.rhs

instance (g : Cfg) (A : Sym) (α : List Sym) : Decidable (g.prod A α) :=
  inferInstanceAs (Decidable (∃ _, _))
instance (g : Cfg) : Decidable g.WF := inferInstanceAs (Decidable (∀ _ ∈ _, _ ∧ _))
instance (g : Cfg) (a : Sym) : Decidable (g.Term a) := inferInstanceAs (Decidable (_ ∧ _))
instance (g : Cfg) (a : Sym) : Decidable (g.Used a) := inferInstanceAs (Decidable (∃ _, _))

/-- `L(A)`: the strings of terminals derivable from `A`. -/
def Lang (g : Cfg) (A : Sym) (w : List Sym) : Prop := InLang g.prod g.Term A w

end Cfg

/-- Membership in a bit set. -/
def Has (b : List Bool) (s : Sym) : Prop := b[s]? = some true

instance (b : List Bool) (s : Sym) : Decidable (Has b s) :=
  inferInstanceAs (Decidable (_ = _))

end Verif
