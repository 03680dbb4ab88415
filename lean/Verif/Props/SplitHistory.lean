import Verif.Props.Binarize

/-! # Property C123: histories of the parts of a split rule -/

namespace Verif

open Cfg

/-- The trace of a dot that stands for no position. -/
def noTrace : ExternalDottedRule := ⟨2 ^ 32 - 1, 2 ^ 32 - 1⟩

/-- The left sides in a chain: fresh symbols in order, then the left side of the rule. -/
theorem Cfg.Chain.lhs_eq {n : Nat} {lhs : Sym} {f : Nat} {rhs : List Sym} {rs : List CfgRule}
    (h : Chain n lhs f rhs rs) : ∀ (i : Nat) r, rs[i]? = some r →
      r.lhs = if i + 1 = rs.length then lhs else f + i := by
  induction h with
  | last _ h2 _ =>
    intro i r hi
    rcases i with _ | i
    · cases hi
      simpa using h2
    · simp at hi
  | more _ h2 _ h4 ih =>
    intro i r hi
    have := h4.ne_nil
    rcases i with _ | i
    · cases hi
      rw [if_neg (by rw [List.length_cons]; omega), h2, Nat.add_zero]
    · rw [List.getElem?_cons_succ] at hi
      rw [ih i r hi, List.length_cons]
      rename_i _ _ _ rs0 _ _
      by_cases hl : i + 1 = rs0.length
      · rw [if_pos hl, if_pos (by omega)]
      · rw [if_neg hl, if_neg (by omega)]
        omega

/-- **C123** (partial: under limit 2 only). When a rule is split under limit 2, the last part, which
has its left side, is the only one with its origin; the other parts have no origin. The dots of the
last part name positions of the rule, and so does the middle dot of each other part; all further
dots name nothing. The rest of the history is kept in all parts. -/
theorem C123_limit_two_partial (g : Cfg) (hg : g.rhsLenInvariant = some 2) (rule : CfgRule)
    (hm : 3 ≤ rule.rhs.length) (hm' : rule.rhs.length < 2 ^ 32) :
    ∃ g' rs, g.addRule rule = .ok (g', rs.length) ∧ g'.rules = g.rules ++ rs ∧
      rs.length = rule.rhs.length - 1 ∧
      ∀ (i : Nat) r, rs[i]? = some r →
        (r.history.origin = if i + 1 = rs.length then rule.history.origin else 2 ^ 32 - 1) ∧
        (r.lhs = if i + 1 = rs.length then rule.lhs else g.numSyms + i) ∧
        r.history.weight = rule.history.weight ∧ r.history.nullable = rule.history.nullable ∧
        r.history.sequence = rule.history.sequence ∧
        ∀ k : Nat, (r.history.dot k).event = 0 ∧ (r.history.dot k).distance = 2 ^ 32 - 1 ∧
          if k < 3 ∧ i + 1 = rs.length ∨ k = 1 then
            ∃ q < rule.rhs.length, (r.history.dot k).trace = ⟨rule.history.origin, q⟩
          else (r.history.dot k).trace = noTrace := by
  obtain ⟨rs, h1, h2, -, h4⟩ := addRule_spec g rule 2 (by omega) hg
  obtain ⟨b1, b2⟩ := h2.count (by omega) (by omega)
  have hlen : rs.length = rule.rhs.length - 1 := by omega
  refine ⟨_, rs, h1, rfl, hlen, ?_⟩
  intro i r hir
  have hi : i < rs.length := (List.getElem?_eq_some_iff.1 hir).1
  have h5 := h4 i r hir
  rw [if_neg (by omega), Nat.zero_add] at h5
  unfold processLinked History.binarize at h5
  have hlhs := h2.lhs_eq i r hir
  by_cases hl : i + 1 = rs.length
  · have hd : decide (i + 1 = rs.length) = true := decide_eq_true hl
    rw [hd] at h5
    simp only [if_true, show ¬ rule.rhs.length = 2 by omega, if_false, hm, Res.ok.injEq] at h5
    rw [if_pos hl] at hlhs
    rw [if_pos hl, if_pos hl]
    refine ⟨by rw [← h5], hlhs, by rw [← h5], by rw [← h5], by rw [← h5], ?_⟩
    rw [← h5]
    intro k
    rcases k with _ | _ | _ | k
    · exact ⟨rfl, rfl, by rw [if_pos (by omega)]; exact ⟨0, by omega, rfl⟩⟩
    · refine ⟨rfl, rfl, ?_⟩
      rw [if_pos (by omega)]
      refine ⟨rule.rhs.length - 2, by omega, ?_⟩
      simp only [History.dot, History.atDot, RuleDot.new]
      rw [Nat.mod_eq_of_lt (by omega)]
    · refine ⟨rfl, rfl, ?_⟩
      rw [if_pos (by omega)]
      refine ⟨rule.rhs.length - 1, by omega, ?_⟩
      simp only [History.dot, History.atDot, RuleDot.new]
      rw [Nat.mod_eq_of_lt (by omega)]
    · exact ⟨rfl, rfl, by rw [if_neg (by omega)]; rfl⟩
  · have hd : decide (i + 1 = rs.length) = false := decide_eq_false hl
    rw [hd] at h5
    simp only [Bool.false_eq_true, if_false, show ¬ rule.rhs.length < 2 + i by omega,
      Res.ok.injEq] at h5
    rw [if_neg hl] at hlhs
    rw [if_neg hl, if_neg hl]
    refine ⟨by rw [← h5]; rfl, hlhs, by rw [← h5], by rw [← h5], by rw [← h5], ?_⟩
    rw [← h5]
    intro k
    rcases k with _ | _ | _ | k
    · exact ⟨rfl, rfl, by rw [if_neg (by omega)]; rfl⟩
    · refine ⟨rfl, rfl, ?_⟩
      rw [if_pos (by omega)]
      refine ⟨rule.rhs.length - 2 - i, by omega, ?_⟩
      simp only [History.dot, History.atDot, RuleDot.new]
      rw [Nat.mod_eq_of_lt (by omega)]
    · exact ⟨rfl, rfl, by rw [if_neg (by omega)]; rfl⟩
    · exact ⟨rfl, rfl, by rw [if_neg (by omega)]; rfl⟩

/-- A rule of four symbols with an origin and a weight. -/
def exSplit : CfgRule := ⟨0, [1, 2, 3, 4], { History.new 7 with weight := some 1500 }⟩

example : (3 ≤ exSplit.rhs.length ∧ exSplit.rhs.length < 2 ^ 32) ∧
    (fun p => p.1.rules.map fun r => (r.lhs, r.history.origin, r.history.weight)) <$>
      ({ src := ⟨5, []⟩, rhsLenInvariant := some 2 } : Cfg).addRule exSplit =
      .ok [(5, 2 ^ 32 - 1, some 1500), (6, 2 ^ 32 - 1, some 1500), (0, 7, some 1500)] := by
  decide +kernel

/-- **C123**, the other limits: every part has the whole history of the rule. -/
theorem C123_other_limits (g : Cfg) (n : Nat) (hn : 3 ≤ n) (hg : g.rhsLenInvariant = some n)
    (rule : CfgRule) :
    ∃ g' rs, g.addRule rule = .ok (g', rs.length) ∧ g'.rules = g.rules ++ rs ∧
      ∀ r ∈ rs, r.history = rule.history := by
  obtain ⟨rs, h1, -, -, h4⟩ := addRule_spec g rule n (by omega) hg
  refine ⟨_, rs, h1, rfl, ?_⟩
  intro r hr
  obtain ⟨i, hi⟩ := List.mem_iff_getElem?.1 hr
  have := h4 i r hi
  rwa [if_pos (.inr (by omega))] at this

/-- **C123** is violated under limit 3: all parts of a split rule have its origin. -/
theorem C123_violated_limit_three :
    (fun p => p.1.rules.map fun r => (r.lhs, r.rhs, r.history.origin)) <$>
      ({ src := ⟨5, []⟩, rhsLenInvariant := some 3 } : Cfg).addRule exSplit =
      .ok [(5, [1, 2, 3], 7), (0, [5, 4], 7)] := by
  decide +kernel

end Verif
