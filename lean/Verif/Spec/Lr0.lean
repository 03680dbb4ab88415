import Verif.Model.Lr0
import Verif.Spec.BMap

/-!
# Specification: LR(0) items

An item `(i, d)` is the `i`-th rule of a grammar with a dot before the `d`-th symbol of its right
side.
-/

namespace Verif

/-- The closure of a set of items: with an item, all rules of the symbol after its dot, with the dot
at the start. -/
inductive ItemClosure (rules : List CfgRule) (K : Nat → Nat → Prop) : Nat → Nat → Prop
  | kernel {i d} : K i d → ItemClosure rules K i d
  | predict {i d r j s} : ItemClosure rules K i d → rules[i]? = some r →
      rules[j]? = some s → r.rhs[d]? = some s.lhs → ItemClosure rules K j 0

/-- The items after moving the dot over a symbol. -/
def Moved (rules : List CfgRule) (K : Nat → Nat → Prop) (a : Sym) (i d : Nat) : Prop :=
  ∃ e r, d = e + 1 ∧ K i e ∧ rules[i]? = some r ∧ r.rhs[e]? = some a

/-- The symbols predicted by a closure that does not look into rules which are in the kernel
already, except through their kernel items. -/
inductive Expanded (rules : List CfgRule) (K : Nat → Nat → Prop) : Sym → Prop
  | kernel {i d r A} : K i d → rules[i]? = some r → r.rhs[d]? = some A →
      (∃ s ∈ rules, s.lhs = A) → Expanded rules K A
  | step {i r A} : Expanded rules K r.lhs → rules[i]? = some r → (∀ d, ¬ K i d) →
      r.rhs[0]? = some A → (∃ s ∈ rules, s.lhs = A) → Expanded rules K A

/-- A closure with at most one item for each rule: a predicted rule has its dot at the start, even
if it is in the kernel. -/
def OneItemClosure (rules : List CfgRule) (K : Nat → Nat → Prop) (i d : Nat) : Prop :=
  ∃ r, rules[i]? = some r ∧
    (Expanded rules K r.lhs ∧ d = 0 ∨ ¬ Expanded rules K r.lhs ∧ K i d)

/-- A map of items is one of items of the rules. -/
def ItemsOk (rules : List CfgRule) (m : Lr0Items) : Prop :=
  BMap.Sorted m ∧ ∀ i it, (i, it) ∈ m → ∃ r, rules[i]? = some r ∧ it.rhs = r.rhs

/-- The items of a map, as a relation. -/
def ItemSet (m : Lr0Items) (i d : Nat) : Prop := ∃ it, (i, it) ∈ m ∧ it.dot = d

end Verif
