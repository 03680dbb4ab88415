import Verif.Model.Lr0
import Verif.Spec.Language

/-!
# Specification: viable prefixes

Rightmost derivations, and the items that are valid for a prefix, as in textbooks on LR parsing.
Independent of closures.
-/

namespace Verif

/-- One step of a rightmost derivation: only terminals (`T`) follow the symbol that is replaced. -/
def RightStep (P : Productions) (T : Sym → Prop) (u v : List Sym) : Prop :=
  ∃ A ω α z, P A ω ∧ (∀ s ∈ z, T s) ∧ u = α ++ A :: z ∧ v = α ++ ω ++ z

/-- A rightmost derivation. -/
def RightDerives (P : Productions) (T : Sym → Prop) : List Sym → List Sym → Prop :=
  Relation.ReflTransGen (RightStep P T)

/-- The `i`-th rule `A ::= β δ` with the dot after `β`, `d` symbols long, is valid for the string
`α β` if a rightmost derivation leads from the start symbol to `α A z`, with terminals `z`. -/
def ValidItem (rules : List CfgRule) (T : Sym → Prop) (start : Sym) (γ : List Sym) (i d : Nat) :
    Prop :=
  ∃ r α z, rules[i]? = some r ∧ d ≤ r.rhs.length ∧ (∀ s ∈ z, T s) ∧
    RightDerives (fun A ω => ∃ r ∈ rules, r.lhs = A ∧ r.rhs = ω) T [start] (α ++ r.lhs :: z) ∧
    γ = α ++ r.rhs.take d

/-- The links of the machine lead from the first node to the `k`-th node by reading `γ`. -/
inductive Walk (nodes : List Lr0Node) : List Sym → Nat → Prop
  | nil : Walk nodes [] 0
  | step {γ j n a k} : Walk nodes γ j → nodes[j]? = some n → (a, k) ∈ n.link →
      Walk nodes (γ ++ [a]) k

end Verif
