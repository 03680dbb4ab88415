import Verif.Spec.Grammar
import Verif.Model.Generate

/-!
# Specification: random strings of a grammar

Independent of the loop of the generator: what a string with negative symbols is.
-/

namespace Verif

/-- The rules of a symbol, in order. -/
def Cfg.alternatives (g : Cfg) (A : Sym) : List CfgRule := g.rules.filter fun r => r.lhs = A

/-- The weight of a rule, in thousandths. -/
def CfgRule.millis (r : CfgRule) : Nat := r.history.weight.getD 1000

/-- The sum of the weights of the first `k` alternatives. -/
def cumulative {W : Type} [Zero W] [Add W] (ofMillis : Nat → W) (alts : List CfgRule) (k : Nat) : W :=
  ((alts.take k).map fun r => ofMillis r.millis).foldl (· + ·) 0

/-- The text forbidden at a negative symbol: that of the last negative rule for it. -/
def Forbids (neg : List NegativeRule) (s : Sym) (f : List Char) : Prop :=
  ∃ a b, neg = a ++ ⟨s, f⟩ :: b ∧ ∀ n ∈ b, n.sym ≠ s

namespace Cfg

/-- A negative symbol with rules. (One without rules is a terminal like others.) -/
def Negative (g : Cfg) (neg : List NegativeRule) (s : Sym) : Prop := ¬ g.Term s ∧ ∃ f, Forbids neg s f

/-- The productions of all symbols but the negative ones. -/
def plain (g : Cfg) (neg : List NegativeRule) : Productions :=
  fun A α => g.prod A α ∧ ¬ g.Negative neg A

/-- An output: terminals, each with the character made from it if there is one, and marks where
negative symbols were expanded. -/
abbrev Marked := List (Sym × Option Char)

/-- The text of an output. -/
def Marked.text (out : Marked) : List Char := out.filterMap Prod.snd

/-- The terminals of an output. -/
def Marked.terminals (g : Cfg) (out : Marked) : List Sym :=
  (out.filter fun x => decide (g.Term x.1)).map Prod.fst

/-- The characters are made from the terminals, and the marks have none. -/
def Entry {R : Type} (g : Cfg) (neg : List NegativeRule) (toChar : Sym → R → Option Char × R)
    (x : Sym × Option Char) : Prop :=
  (g.Term x.1 ∧ ∃ r, (toChar x.1 r).1 = x.2) ∨ (g.Negative neg x.1 ∧ x.2 = none)

/-- No forbidden text starts at a mark. -/
def Respects (g : Cfg) (neg : List NegativeRule) (out : Marked) : Prop :=
  ∀ u s o v f, out = u ++ (s, o) :: v → g.Negative neg s → Forbids neg s f → ¬ f <+: Marked.text v

/-- Between two negative symbols there is at least as much text as the first one forbids. -/
def Spaced {R : Type} (g : Cfg) (neg : List NegativeRule) (toChar : Sym → R → Option Char × R)
    (start : Sym) : Prop :=
  ∀ u s v s' β f, Derives (g.plain neg) [start] (u ++ s :: (v.map Prod.fst ++ s' :: β)) →
    g.Negative neg s → g.Negative neg s' → Forbids neg s f →
    (∀ x ∈ v, g.Term x.1 ∧ ∃ r, (toChar x.1 r).1 = x.2) → f.length ≤ (Marked.text v).length

end Cfg

end Verif
