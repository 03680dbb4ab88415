import Verif.Proofs.TreesSplit
import Verif.Props.Binarize

/-!
# Properties of parse trees (C101)
-/

namespace Verif

open Cfg

/-! ## C101 -/

/-- **C101**: the strings with a parse tree are those of the language. -/
theorem C101_sentences (g : Cfg) (A : Sym) (w : List Sym) :
    g.Lang A w ↔ Nonempty (g.Trees A w) := g.lang_iff_trees A w

/-- A parse tree of `exLong`: `0 ::= 1 2 3 4 5`, `1 ::= 2 2 2`, `2 ::= 3`. -/
def exLongTree : Forest :=
  .node 0 (.node 2 (.node 3 (.leaf 3 .nil) (.node 3 (.leaf 3 .nil) (.node 3 (.leaf 3 .nil) .nil)))
    (.node 3 (.leaf 3 .nil) (.leaf 3 (.leaf 4 (.leaf 5 .nil))))) .nil

theorem exLongTree_is : IsForest exLong.pairs exLong.Term [0] exLongTree [3, 3, 3, 3, 3, 4, 5] := by
  have t3 : exLong.Term 3 := by decide +kernel
  have t4 : exLong.Term 4 := by decide +kernel
  have t5 : exLong.Term 5 := by decide +kernel
  have h2 : IsForest exLong.pairs exLong.Term [3] (.leaf 3 .nil) [3] := .leaf t3 .nil
  have n2 : ¬ exLong.Term 2 := by decide +kernel
  refine .node (i := 0) (A := 0) (β := [1, 2, 3, 4, 5]) (u := [3, 3, 3, 3, 3, 4, 5]) (v := []) rfl
    (by decide +kernel) ?_ .nil
  refine .node (i := 2) (A := 1) (β := [2, 2, 2]) (u := [3, 3, 3]) (v := [3, 3, 4, 5]) rfl
    (by decide +kernel) ?_ ?_
  · exact .node (i := 3) (A := 2) (u := [3]) rfl n2 h2 (.node (i := 3) (A := 2) (u := [3]) rfl n2 h2
      (.node (i := 3) (A := 2) (u := [3]) rfl n2 h2 .nil))
  · exact .node (i := 3) (A := 2) (u := [3]) rfl n2 h2 (.leaf t3 (.leaf t4 (.leaf t5 .nil)))

example : exLong.Lang 0 [3, 3, 3, 3, 3, 4, 5] := (C101_sentences _ _ _).2 ⟨⟨_, exLongTree_is⟩⟩

/-- **C101**: `limit_rhs_len` keeps the number of parse trees of every string. -/
theorem C101_limit (g : Cfg) (hwf : g.WF) (limit : Option Nat) (hn : ∀ n, limit = some n → 2 ≤ n) :
    ∃ g', g.limitRhsLen limit = .ok g' ∧
      (∀ A, A < g.numSyms → ∀ w, SameNumber (g'.Trees A w) (g.Trees A w)) ∧
      ∀ A, A < g.numSyms → (g'.Unambiguous A ↔ g.Unambiguous A) := by
  obtain ⟨g', h1, h2⟩ := Folded.addRules (O := (· < g.numSyms)) (old := [])
    (g := { g with rhsLenInvariant := limit, rules := [] }) g.rules (Folded.nil _) hn hwf
  have h3 : ∀ A, A < g.numSyms → ∀ w, SameNumber (g'.Trees A w) (g.Trees A w) :=
    fun A hA w => Folded.trees h2 A hA w
  refine ⟨g', h1, h3, fun A hA => forall_congr' fun w => ?_⟩
  obtain ⟨e⟩ := h3 A hA w
  exact ⟨fun h => e.symm.subsingleton, fun h => e.subsingleton⟩

/-- The hypotheses of C101 are met, and there are rules to split. -/
example : exLong.WF ∧
    (fun g => g.rules.length) <$> exLong.limitRhsLen (some 2) = .ok 8 := by decide +kernel

example : ∃ g', exLong.limitRhsLen (some 2) = .ok g' ∧
    Nonempty (g'.Trees 0 [3, 3, 3, 3, 3, 4, 5]) := by
  obtain ⟨g', h1, h2, -⟩ := C101_limit exLong (by decide +kernel) (some 2) (by simp)
  obtain ⟨e⟩ := h2 0 (by decide +kernel) [3, 3, 3, 3, 3, 4, 5]
  exact ⟨g', h1, ⟨e.symm ⟨_, exLongTree_is⟩⟩⟩

/-- **C101**: `add_rule` makes as many parse trees as adding the rule unsplit. -/
theorem C101_add (g : Cfg) (hwf : g.WF) (hlim : ∀ n, g.rhsLenInvariant = some n → 2 ≤ n)
    (rule : CfgRule) (hl : rule.lhs < g.numSyms) (hr : ∀ x ∈ rule.rhs, x < g.numSyms) :
    ∃ g' k, g.addRule rule = .ok (g', k) ∧ ∀ A, A < g.numSyms → ∀ w,
      SameNumber (g'.Trees A w) (({ g with rules := g.rules ++ [rule] } : Cfg).Trees A w) := by
  obtain ⟨g', k, h1, h2, -⟩ := (Folded.refl g hwf).addRule hlim rule hl hr
  refine ⟨g', k, h1, fun A hA w => ?_⟩
  refine Folded.trees (g := { g with rules := g.rules ++ [rule] }) ?_ A hA w
  simpa [pairs, CfgRule.pair, numSyms] using h2

example : exLong.WF ∧ Prod.snd <$> ({ exLong with rhsLenInvariant := some 2 } : Cfg).addRule
    ⟨0, [1, 1, 1, 1], {}⟩ = .ok 3 := by decide +kernel

end Verif
