import Verif.Spec.Grammar

/-! # Specification: renaming of symbols -/

namespace Verif

/-- A rule with renamed symbols. -/
def CfgRule.rename (σ : Sym → Sym) (r : CfgRule) : CfgRule :=
  { r with lhs := σ r.lhs, rhs := r.rhs.map σ }

/-- A wrapped root with renamed symbols. -/
def WrappedRoot.rename (σ : Sym → Sym) (w : WrappedRoot) : WrappedRoot :=
  ⟨σ w.startOfInput, σ w.innerRoot, σ w.endOfInput, σ w.root⟩

/-- The symbols in the roots and wrapped roots satisfy `U`. -/
def Cfg.RootsIn (g : Cfg) (U : Sym → Prop) : Prop :=
  (∀ a ∈ g.roots, U a) ∧ ∀ w ∈ g.wrappedRoots, U w.startOfInput ∧ U w.innerRoot ∧
    U w.endOfInput ∧ U w.root

instance (g : Cfg) (U : Sym → Prop) [DecidablePred U] : Decidable (g.RootsIn U) :=
  inferInstanceAs (Decidable (_ ∧ _))

/-- The rules are within the length limit, and the limit is one that rules can be split to. -/
def Cfg.Limited (g : Cfg) : Prop :=
  ∀ n, g.rhsLenInvariant = some n → 2 ≤ n ∧ ∀ r ∈ g.rules, r.rhs.length ≤ n

/-- A comparison that is a total preorder. -/
structure TotalCmp (f : Sym → Sym → Ordering) : Prop where
  swap : ∀ a b, f b a = (f a b).swap
  trans : ∀ a b c, f a b ≠ .gt → f b c ≠ .gt → f a c ≠ .gt

/-- `g'` is `g` with its symbols from `U` renamed by `σ`, which is a bijection from `U` onto the
symbols of `g'`. -/
structure Cfg.Renaming (U : Sym → Prop) (σ : Sym → Sym) (g g' : Cfg) : Prop where
  onto : ∀ x, x < g'.numSyms ↔ ∃ a, U a ∧ σ a = x
  inj : ∀ a b, U a → U b → σ a = σ b → a = b
  rules : g'.rules.Perm (g.rules.map (·.rename σ))
  roots : g'.roots = g.roots.map σ
  wrappedRoots : g'.wrappedRoots = g.wrappedRoots.map (·.rename σ)
  limit : g'.rhsLenInvariant = g.rhsLenInvariant
  names : ∀ a, U a → g'.src.originalNameOf (σ a) = g.src.originalNameOf a

/-- The languages correspond: a renamed symbol derives exactly the renamed strings. -/
def Cfg.SameLang (U : Sym → Prop) (σ : Sym → Sym) (g g' : Cfg) : Prop :=
  ∀ A, U A → ∀ w, g'.Lang (σ A) w ↔ ∃ v, w = v.map σ ∧ g.Lang A v

end Verif
