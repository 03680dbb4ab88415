import Verif.Spec.Grammar
import Mathlib.Logic.Equiv.Defs

/-!
# Specification: parse trees

A forest is a list of trees, written with the first tree in front: a tree is a symbol that is left as
it is, or an application of the rule with a certain number to a forest. Two rules that look the same
make different trees.
-/

namespace Verif

/-- Lists of parse trees. -/
inductive Forest where
  | nil
  /-- The first tree is a symbol. -/
  | leaf (s : Sym) (rest : Forest)
  /-- The first tree has rule number `i` at its root. -/
  | node (i : Nat) (children rest : Forest)
  deriving DecidableEq, Repr

/-- `f` is a forest with the roots `α` and the leaves `w`. The symbols in `T` are not expanded. -/
inductive IsForest (rules : List (Sym × List Sym)) (T : Sym → Prop) : List Sym → Forest → List Sym → Prop
  | nil : IsForest rules T [] .nil []
  | leaf {s : Sym} {α : List Sym} {f : Forest} {w : List Sym} :
      T s → IsForest rules T α f w → IsForest rules T (s :: α) (.leaf s f) (s :: w)
  | node {i : Nat} {A : Sym} {c f : Forest} {β u v α : List Sym} :
      rules[i]? = some (A, β) → ¬ T A → IsForest rules T β c u → IsForest rules T α f v →
      IsForest rules T (A :: α) (.node i c f) (u ++ v)

/-- The rules of a grammar as pairs of a left and a right side. -/
def Cfg.pairs (g : Cfg) : List (Sym × List Sym) := g.rules.map fun r => (r.lhs, r.rhs)

/-- The parse trees of a string of terminals with the root `A`. -/
def Cfg.Trees (g : Cfg) (A : Sym) (w : List Sym) : Type :=
  { f : Forest // IsForest g.pairs g.Term [A] f w }

/-- Two sets of parse trees have the same number of elements. -/
def SameNumber (X Y : Type) : Prop := Nonempty (X ≃ Y)

/-- A set of parse trees has at most as many elements as another. -/
def NoMore (X Y : Type) : Prop := ∃ f : X → Y, ∀ x x', f x = f x' → x = x'

/-- A string has at most one parse tree. -/
def Cfg.Unambiguous (g : Cfg) (A : Sym) : Prop := ∀ w, Subsingleton (g.Trees A w)

end Verif
