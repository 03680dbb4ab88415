import Verif.Proofs.Session

/-! # Property C126: how much the transformations add -/

namespace Verif

namespace Sizes

/-- Specification: the number of rules that a rule of `m` symbols takes under a limit: one, and
one more for every started group of `n - 1` symbols beyond the first `n`. -/
def parts : Option Nat → Nat → Nat
  | none, _ => 1
  | some n, m => 1 + (m - n + (n - 2)) / (n - 1)

/-- Specification: the number of rules that a rule of `m` symbols leaves at most when the
nullable symbols are eliminated. -/
def elimMax : Nat → Nat
  | 0 => 0
  | 1 => 1
  | m + 2 => 3 * (m + 1)

/-- The total length of the right sides. -/
def total (rules : List CfgRule) : Nat := (rules.map fun r => r.rhs.length).sum

theorem total_append (l l' : List CfgRule) : total (l ++ l') = total l + total l' := by
  simp [total]

theorem parts_pos (lim : Option Nat) (m : Nat) : 1 ≤ parts lim m := by
  cases lim <;> simp [parts]

end Sizes

open Sizes

namespace Cfg

theorem Chain.parts {n : Nat} {lhs : Sym} {f : Nat} {rhs : List Sym} {rs : List CfgRule}
    (h : Chain n lhs f rhs rs) (hn : 2 ≤ n) : rs.length = Sizes.parts (some n) rhs.length := by
  obtain ⟨k, rfl⟩ : ∃ k, n = k + 2 := ⟨n - 2, by omega⟩
  induction h with
  | last hle e1 e2 =>
    simp only [Sizes.parts, List.length_singleton]
    rw [Nat.div_eq_of_lt (by omega)]
  | @more f rhs r rs hlt e1 e2 hc ih =>
    rw [List.length_cons, ih]
    simp only [Sizes.parts, List.length_cons, List.length_drop]
    have e : k + 2 - 2 = k := by omega
    have e' : k + 2 - 1 = k + 1 := by omega
    rw [e, e']
    rcases Nat.lt_or_ge rhs.length (2 * k + 3 + 1) with h | h
    · rw [show rhs.length - (k + 2) + 1 - (k + 2) + k = k by omega,
        Nat.div_eq_of_lt (by omega : k < k + 1)]
      have : (rhs.length - (k + 2) + k) / (k + 1) = 1 := by
        apply Nat.div_eq_of_lt_le <;> omega
      omega
    · rw [show rhs.length - (k + 2) + k = (rhs.length - (k + 2) + 1 - (k + 2) + k) + (k + 1) by omega,
        Nat.add_div_right _ (by omega)]
      omega

theorem Chain.total {n : Nat} {lhs : Sym} {f : Nat} {rhs : List Sym} {rs : List CfgRule}
    (h : Chain n lhs f rhs rs) : Sizes.total rs = rhs.length + (rs.length - 1) := by
  induction h with
  | last hle e1 e2 => simp [Sizes.total, e2]
  | @more f rhs r rs hlt e1 e2 hc ih =>
    have := hc.ne_nil
    simp only [Sizes.total, List.map_cons, List.sum_cons, e2, List.length_take,
      List.length_cons, List.length_drop] at ih ⊢
    omega

/-- The number of rules left of a short rule. -/
theorem Chain.elimMax {lhs : Sym} {f : Nat} {rhs : List Sym} {rs : List CfgRule}
    (h : Chain 2 lhs f rhs rs) :
    (rs.map fun r => Sizes.elimMax r.rhs.length).sum = Sizes.elimMax rhs.length := by
  induction h with
  | last hle e1 e2 => simp [e2]
  | @more f rhs r rs hlt e1 e2 hc ih =>
    rw [List.map_cons, List.sum_cons, ih, e2]
    obtain ⟨k, hk⟩ : ∃ k, rhs.length = k + 3 := ⟨rhs.length - 3, by omega⟩
    rw [List.length_take, List.length_cons, List.length_drop, hk,
      show min 2 (k + 3) = 0 + 2 by omega, show k + 3 - 2 + 1 = k + 2 by omega,
      show k + 3 = (k + 1) + 2 by omega]
    simp only [Sizes.elimMax]
    omega

/-- What one call of `add_rule` adds. -/
theorem addRule_size (g : Cfg) (rule : CfgRule) (hlim : g.LimitOk) :
    ∃ rs, g.addRule rule = .ok (g.appended rs (rs.length - 1), rs.length) ∧
      rs.length = Sizes.parts g.rhsLenInvariant rule.rhs.length ∧
      Sizes.total rs = rule.rhs.length + (rs.length - 1) ∧
      (g.rhsLenInvariant = some 2 →
        (rs.map fun r => Sizes.elimMax r.rhs.length).sum = Sizes.elimMax rule.rhs.length) := by
  cases hl : g.rhsLenInvariant with
  | none =>
    exact ⟨[rule], addRule_none g rule hl, rfl, by simp [Sizes.total], by simp⟩
  | some n =>
    obtain ⟨rs, h1, h2, -⟩ := addRule_spec g rule n (hlim n hl) hl
    exact ⟨rs, h1, h2.parts (hlim n hl), h2.total, fun e => by cases e; exact h2.elimMax⟩

theorem addRules_size (rules : List CfgRule) {g : Cfg} (hlim : g.LimitOk) :
    ∃ g', g.addRules rules = .ok g' ∧ g'.rhsLenInvariant = g.rhsLenInvariant ∧
      g'.rules.length = g.rules.length +
        (rules.map fun r => Sizes.parts g.rhsLenInvariant r.rhs.length).sum ∧
      g'.numSyms = g.numSyms +
        (rules.map fun r => Sizes.parts g.rhsLenInvariant r.rhs.length - 1).sum ∧
      Sizes.total g'.rules = Sizes.total g.rules +
        (rules.map fun r => r.rhs.length + (Sizes.parts g.rhsLenInvariant r.rhs.length - 1)).sum ∧
      (g.rhsLenInvariant = some 2 →
        (g'.rules.map fun r => Sizes.elimMax r.rhs.length).sum =
          (g.rules.map fun r => Sizes.elimMax r.rhs.length).sum +
          (rules.map fun r => Sizes.elimMax r.rhs.length).sum) := by
  induction rules generalizing g with
  | nil => exact ⟨g, rfl, rfl, by simp, by simp, by simp, by simp⟩
  | cons r rules ih =>
    obtain ⟨rs, h1, h2, h3, h4⟩ := addRule_size g r hlim
    obtain ⟨g', a1, a2, a3, a4, a5, a6⟩ := ih (g := g.appended rs (rs.length - 1)) hlim
    refine ⟨g', ?_, a2, ?_, ?_, ?_, fun e => ?_⟩
    · unfold addRules at a1 ⊢
      rw [List.foldlM_cons, h1]
      exact a1
    · rw [a3, List.map_cons, List.sum_cons, ← h2]
      simp [appended]; omega
    · rw [a4, List.map_cons, List.sum_cons, ← h2]
      simp [appended, SymbolSource.anon, numSyms]; omega
    · rw [a5, List.map_cons, List.sum_cons, ← h2, ← h3]
      simp only [appended, Sizes.total_append]; omega
    · rw [a6 e, List.map_cons, List.sum_cons, ← h4 e]
      simp only [appended, List.map_append, List.sum_append]; omega

theorem wrapInput_size {g : Cfg} (hlim : g.LimitOk) :
    ∃ g', g.wrapInput = .ok g' ∧
      g'.rules.length = g.rules.length +
        g.roots.length * Sizes.parts g.rhsLenInvariant 3 ∧
      g'.numSyms = g.numSyms + g.roots.length * (2 + Sizes.parts g.rhsLenInvariant 3) ∧
      g'.roots.length = g.roots.length ∧ g'.wrappedRoots.length = g.roots.length := by
  have key : ∀ (roots : List Sym) (g₀ : Cfg), g₀.LimitOk →
      ∃ g', roots.foldlM wrapOne g₀ = .ok g' ∧ 
        g'.rules.length = g₀.rules.length +
          roots.length * Sizes.parts g₀.rhsLenInvariant 3 ∧
        g'.numSyms = g₀.numSyms + roots.length * (2 + Sizes.parts g₀.rhsLenInvariant 3) ∧
        g'.roots.length = g₀.roots.length + roots.length ∧
        g'.wrappedRoots.length = g₀.wrappedRoots.length + roots.length := by
    intro roots
    induction roots with
    | nil => intro g₀ _; exact ⟨g₀, rfl, by simp, by simp, by simp, by simp⟩
    | cons r roots ih =>
      intro g₀ h
      obtain ⟨rs, h1, h2, -⟩ := addRule_size g₀.wrapSyms (g₀.wrapRule r) h
      have e : g₀.wrapOne r = .ok (wrapRecord g₀ (g₀.wrapSyms.appended rs (rs.length - 1)) r) := by
        rw [wrapOne_eq, h1]; rfl
      obtain ⟨g', a1, a2, a3, a4, a5⟩ := ih
        (wrapRecord g₀ (g₀.wrapSyms.appended rs (rs.length - 1)) r) h
      have h2 : rs.length = Sizes.parts g₀.rhsLenInvariant 3 := h2
      have hp := Sizes.parts_pos g₀.rhsLenInvariant 3
      refine ⟨g', ?_, ?_, ?_, ?_, ?_⟩
      · rw [List.foldlM_cons, e]; exact a1
      · rw [a2]
        simp only [wrapRecord, appended, wrapSyms, List.length_append, List.length_cons, h2,
          Nat.succ_mul]
        omega
      · rw [a3]
        simp only [wrapRecord, appended, wrapSyms, List.length_cons, h2, Nat.succ_mul,
          SymbolSource.anon, numSyms]
        omega
      · rw [a4]; simp [wrapRecord, appended, wrapSyms]; omega
      · rw [a5]; simp [wrapRecord, appended, wrapSyms]; omega
  obtain ⟨g', a1, a2, a3, a4, a5⟩ := key g.roots { g with wrappedRoots := [], roots := [] } hlim
  exact ⟨g', a1, a2, a3, by simpa using a4, by simpa using a5⟩

end Cfg

/-- **C126** (limit): `limit_rhs_len` stores each rule as the number of rules that its length
requires; every rule but one of them takes a new symbol, which is written once on a right side. -/
theorem C126_limit (g : Cfg) (limit : Option Nat) (hlim : ∀ n, limit = some n → 2 ≤ n) :
    ∃ g', g.limitRhsLen limit = .ok g' ∧
      g'.rules.length = (g.rules.map fun r => parts limit r.rhs.length).sum ∧
      g'.numSyms = g.numSyms + (g.rules.map fun r => parts limit r.rhs.length - 1).sum ∧
      total g'.rules = (g.rules.map fun r => r.rhs.length + (parts limit r.rhs.length - 1)).sum := by
  obtain ⟨g', h1, -, h2, h3, h4, -⟩ := Cfg.addRules_size g.rules
    (g := { g with rhsLenInvariant := limit, rules := [] }) hlim
  exact ⟨g', h1, by simpa using h2, by simpa [Cfg.numSyms] using h3, by simpa [total] using h4⟩

/-- **C126** (adding): under a limit, `add_rule` adds that many rules and symbols too, and
returns the number of added rules. -/
theorem C126_add (g : Cfg) (rule : CfgRule) (hlim : g.LimitOk) :
    ∃ g' k, g.addRule rule = .ok (g', k) ∧ k = parts g.rhsLenInvariant rule.rhs.length ∧
      g'.rules.length = g.rules.length + k ∧ g'.numSyms = g.numSyms + (k - 1) ∧
      total g'.rules = total g.rules + rule.rhs.length + (k - 1) := by
  obtain ⟨rs, h1, h2, h3, -⟩ := Cfg.addRule_size g rule hlim
  refine ⟨_, _, h1, h2, by simp [Cfg.appended], by simp [Cfg.appended, SymbolSource.anon,
    Cfg.numSyms], ?_⟩
  show total (g.rules ++ rs) = _
  rw [total_append, h3]; omega

/-- **C126** (elimination): eliminating the nullable symbols leaves nothing of an empty rule, at
most one rule of a unit rule and at most three for each pair of a longer rule. The second
grammar has at most as many rules as the split grammar, and no symbols are added but those of
the split. -/
theorem C126_elimination {g : Cfg} (hwf : g.WF) :
    ∃ g' res, g.binarizeAndEliminateNulling = .ok (g', res) ∧
      g'.rules.length ≤ (g.rules.map fun r => elimMax r.rhs.length).sum ∧
      res.rules.length ≤ (g.rules.map fun r => parts (some 2) r.rhs.length).sum ∧
      g'.numSyms = g.numSyms + (g.rules.map fun r => r.rhs.length - 2).sum ∧
      res.numSyms = g'.numSyms := by
  obtain ⟨g₁, g', res, e, h⟩ := elim_spec hwf
  obtain ⟨g₂, h1, -, h2, h3, -, h5⟩ := Cfg.addRules_size g.rules
    (g := { g with rhsLenInvariant := some 2, rules := [] })
    (by intro n e; cases e; exact Nat.le_refl _)
  have e2 : g₂ = g₁ := by
    have := h.split
    rw [show g.limitRhsLen (some 2) = .ok g₂ from h1] at this
    cases this; rfl
  subst e2
  obtain ⟨n, q, -, -, hr, hl⟩ := h.lists
  refine ⟨g', res, e, ?_, ?_, ?_, by rw [h.syms.1, h.syms.2]⟩
  · have := h5 rfl
    simp only [List.map_nil, List.sum_nil, Nat.zero_add] at this
    rw [← this]
    have hb : g'.rules.length = (rulePairs g'.rules).length := by simp [rulePairs]
    rw [hb, hl]
    have hlen := h.len
    generalize g₂.rules = rs at hlen
    clear * - hlen
    induction rs with
    | nil => simp [rulePairs]
    | cons r rs ih =>
      have ih := ih fun r' h => hlen r' (by simp [h])
      simp only [rulePairs, List.map_cons, List.flatMap_cons, List.map_cons,
        List.sum_cons, List.filter_append, List.length_append, List.filter_cons] at ih ⊢
      have hr := hlen r (by simp)
      have key : (if (!r.rhs.isEmpty && q r.lhs) = true then 1 else 0) +
          ((shorts n (r.lhs, r.rhs)).filter fun p => !p.2.isEmpty && q p.1).length ≤
            elimMax r.rhs.length := by
        rcases hrhs : r.rhs with _ | ⟨a, _ | ⟨b, _ | ⟨c, l⟩⟩⟩
        · simp [shorts, elimMax]
        · simp [shorts, elimMax]; split <;> omega
        · have : ((shorts n (r.lhs, [a, b])).filter fun p => !p.2.isEmpty && q p.1).length ≤ 2 := by
            refine (List.length_filter_le _ _).trans ?_
            simp only [shorts]
            split <;> split <;> simp
          simp only [List.length_cons, List.length_nil, elimMax]
          split <;> omega
        · rw [hrhs] at hr; simp at hr
      split at key
      · rename_i hq
        rw [if_pos hq, List.length_cons]; omega
      · rename_i hq
        rw [if_neg hq]; omega
  · have hb : res.rules.length = (rulePairs res.rules).length := by simp [rulePairs]
    rw [hb, hr]
    refine (List.length_filter_le _ _).trans ?_
    simpa [rulePairs] using Nat.le_of_eq h2
  · rw [h.syms.1, h3]
    show g.numSyms + _ = _
    congr 2
    apply List.map_congr_left
    intro r _
    simp [parts]

/-- **C126** (wrapping): `wrap_input` adds for each root three symbols and one rule, and one
symbol and one rule more when the limit is two. -/
theorem C126_wrap {g : Cfg} (hlim : g.LimitOk) :
    ∃ g', g.wrapInput = .ok g' ∧
      g'.rules.length = g.rules.length +
        g.roots.length * (if g.rhsLenInvariant = some 2 then 2 else 1) ∧
      g'.numSyms = g.numSyms + g.roots.length * (if g.rhsLenInvariant = some 2 then 4 else 3) ∧
      g'.roots.length = g.roots.length ∧ g'.wrappedRoots.length = g.roots.length := by
  obtain ⟨g', h1, h2, h3, h4, h5⟩ := Cfg.wrapInput_size hlim
  have e : parts g.rhsLenInvariant 3 = if g.rhsLenInvariant = some 2 then 2 else 1 := by
    cases hl : g.rhsLenInvariant with
    | none => rfl
    | some n =>
      have := hlim n hl
      by_cases hn : n = 2
      · subst hn; rfl
      · simp only [parts, Option.some.injEq, hn, if_false]
        rw [Nat.div_eq_of_lt (by omega)]
  refine ⟨g', h1, by rw [h2, e], ?_, h4, h5⟩
  rw [h3, e]
  split <;> rfl

/-- The bounds are reached: `S ::= A A`, `A ::=`, `A ::= x`, and a rule of five symbols. -/
def exSizes : Cfg :=
  { src := ⟨3, [none, none, none]⟩, roots := [0],
    rules := [⟨0, [1, 1], {}⟩, ⟨1, [], {}⟩, ⟨1, [2], {}⟩, ⟨0, [1, 1, 1, 1, 1], {}⟩] }

example : exSizes.WF ∧ exSizes.LimitOk ∧
    (fun g' : Cfg => (g'.rules.length, g'.numSyms, total g'.rules)) <$>
      exSizes.limitRhsLen (some 3) = .ok (5, 4, 9) ∧
    parts (some 3) 5 = 2 ∧ parts (some 2) 5 = 4 ∧
    (exSizes.rules.map fun r => elimMax r.rhs.length).sum = 16 ∧
    (fun p : Cfg × Cfg => (p.1.rules.length, p.1.numSyms)) <$>
      exSizes.binarizeAndEliminateNulling = .ok (16, 6) ∧
    (fun g' : Cfg => (g'.rules.length, g'.numSyms)) <$>
      ({ exSizes with rhsLenInvariant := some 2 } : Cfg).wrapInput = .ok (6, 7) := by
  decide +kernel

end Verif
