import Verif.Props.Nulling
import Verif.Props.SplitHistory

/-! # Property C147: histories after eliminating nulling rules -/

namespace Verif

open Cfg

/-- The rule `r'` has no origin, or the left side and the origin of a rule of the list. -/
def TracedTo (rules : List CfgRule) (r' : CfgRule) : Prop :=
  r'.history.origin = u32Max ∨ ∃ r ∈ rules, r.lhs = r'.lhs ∧ r.history.origin = r'.history.origin

theorem addRule_traced (g : Cfg) (rule : CfgRule) (hg : g.rhsLenInvariant = some 2) :
    ∃ g' rs, g.addRule rule = .ok (g', rs.length) ∧ g'.rules = g.rules ++ rs ∧
      g'.rhsLenInvariant = some 2 ∧ ∀ r ∈ rs, TracedTo [rule] r := by
  obtain ⟨rs, h1, h2, -, h4⟩ := addRule_spec g rule 2 (by omega) hg
  refine ⟨_, rs, h1, rfl, hg, fun r hr => ?_⟩
  obtain ⟨i, hi⟩ := List.mem_iff_getElem?.1 hr
  have h5 := h4 i r hi
  have hlhs := h2.lhs_eq i r hi
  unfold TracedTo
  simp only [List.mem_singleton, exists_eq_left]
  by_cases hl : i + 1 = rs.length
  · rw [if_pos hl] at hlhs
    refine .inr ⟨hlhs.symm, ?_⟩
    split at h5
    · rw [h5]
    · have hd : decide (i + 1 = rs.length) = true := decide_eq_true hl
      unfold processLinked History.binarize at h5
      rw [hd] at h5
      simp only [if_true] at h5
      split at h5
      · rw [← Res.ok.inj h5]
      · split at h5 <;> rw [← Res.ok.inj h5]
  · left
    split at h5
    · have hi' := (List.getElem?_eq_some_iff.1 hi).1
      rename_i hc
      omega
    · have hd : decide (i + 1 = rs.length) = false := decide_eq_false hl
      unfold processLinked History.binarize at h5
      rw [hd] at h5
      simp only [Bool.false_eq_true, if_false] at h5
      split at h5
      · cases h5
      · rw [← Res.ok.inj h5]

theorem TracedTo.mono {l l' : List CfgRule} (h : ∀ r ∈ l, r ∈ l') {r : CfgRule}
    (ht : TracedTo l r) : TracedTo l' r :=
  ht.imp id fun ⟨x, hx, h'⟩ => ⟨x, h x hx, h'⟩

theorem addRules_traced (rules : List CfgRule) (g : Cfg) (hg : g.rhsLenInvariant = some 2) :
    ∃ g' rs, g.addRules rules = .ok g' ∧ g'.rules = g.rules ++ rs ∧ ∀ r ∈ rs, TracedTo rules r := by
  induction rules generalizing g with
  | nil => exact ⟨g, [], rfl, by simp, by simp⟩
  | cons rule rules ih =>
    obtain ⟨g1, rs1, h1, h2, h3, h4⟩ := addRule_traced g rule hg
    obtain ⟨g2, rs2, h5, h6, h7⟩ := ih g1 h3
    refine ⟨g2, rs1 ++ rs2, ?_, by rw [h6, h2, List.append_assoc], fun r hr => ?_⟩
    · unfold Cfg.addRules at h5 ⊢
      rw [List.foldlM_cons, h1]
      simpa [Res.bind_ok] using h5
    · rcases List.mem_append.1 hr with hr | hr
      · exact (h4 r hr).mono (by simp)
      · exact (h7 r hr).mono (by simp +contextual)

theorem Chain.rhs_ne_nil {n : Nat} (hn : 1 ≤ n) {lhs : Sym} {f : Nat} {rhs : List Sym}
    {rs : List CfgRule} (h : Chain n lhs f rhs rs) (hne : rhs ≠ []) : ∀ r ∈ rs, r.rhs ≠ [] := by
  induction h with
  | last h1 h2 h3 =>
    intro r hr
    rw [List.mem_singleton.1 hr, h3]
    exact hne
  | @more f rhs r' rs h1 h2 h3 h4 ih =>
    intro r hr
    rcases List.mem_cons.1 hr with rfl | hr
    · rw [h3]
      intro e
      have := congrArg List.length e
      rw [List.length_take, List.length_nil] at this
      omega
    · exact ih (by simp) r hr

theorem addRule_kept (g : Cfg) (rule : CfgRule) (hg : g.rhsLenInvariant = some 2)
    (hne : rule.rhs ≠ []) {g' : Cfg} {k : Nat} (h : g.addRule rule = .ok (g', k)) :
    ∃ rs, g'.rules = g.rules ++ rs ∧ g'.rhsLenInvariant = some 2 ∧
      ∃ r ∈ rs, r.lhs = rule.lhs ∧ r.history.origin = rule.history.origin ∧ r.rhs ≠ [] := by
  obtain ⟨rs, h1, h2, -, h4⟩ := addRule_spec g rule 2 (by omega) hg
  obtain ⟨rfl, -⟩ := Prod.mk.inj (Res.ok.inj (h1.symm.trans h))
  have hpos := h2.ne_nil
  have hi : rs[rs.length - 1]? = some (rs[rs.length - 1]'(by omega)) := by simp
  set r := rs[rs.length - 1]'(by omega) with hr
  have hm : r ∈ rs := List.mem_of_getElem? hi
  refine ⟨rs, rfl, hg, r, hm, ?_, ?_, Chain.rhs_ne_nil (by omega) h2 hne r hm⟩
  · rw [h2.lhs_eq _ r hi, if_pos (by omega)]
  · have h5 := h4 _ r hi
    split at h5
    · rw [h5]
    · have hd : decide (rs.length - 1 + 1 = rs.length) = true := decide_eq_true (by omega)
      unfold processLinked History.binarize at h5
      rw [hd] at h5
      simp only [if_true] at h5
      split at h5
      · rw [← Res.ok.inj h5]
      · split at h5 <;> rw [← Res.ok.inj h5]

theorem addRules_kept (rules : List CfgRule) (g : Cfg) (hg : g.rhsLenInvariant = some 2) {g' : Cfg}
    (h : g.addRules rules = .ok g') : (∀ r ∈ g.rules, r ∈ g'.rules) ∧
      ∀ rule ∈ rules, rule.rhs ≠ [] → ∃ r ∈ g'.rules, r.lhs = rule.lhs ∧
        r.history.origin = rule.history.origin ∧ r.rhs ≠ [] := by
  induction rules generalizing g with
  | nil =>
    cases h
    exact ⟨fun r hr => hr, by simp⟩
  | cons rule rules ih =>
    unfold Cfg.addRules at h ih
    rw [List.foldlM_cons] at h
    obtain ⟨g₁, h1, h2⟩ := Res.bind_eq_ok.1 h
    obtain ⟨⟨g₂, k⟩, h3, h4⟩ := Res.bind_eq_ok.1 h1
    cases h4
    obtain ⟨_, rs, e1, e2, e3, -⟩ := addRule_traced g rule hg
    obtain ⟨rfl, -⟩ := Prod.mk.inj (Res.ok.inj (h3.symm.trans e1))
    obtain ⟨k1, k2⟩ := ih g₂ e3 h2
    refine ⟨fun r hr => k1 r (by rw [e2]; exact List.mem_append_left _ hr), fun x hx hne => ?_⟩
    rcases List.mem_cons.1 hx with rfl | hx
    · obtain ⟨rs', m1, -, r, m2, m3⟩ := addRule_kept g x hg hne h3
      exact ⟨r, k1 r (by rw [m1]; exact List.mem_append_right _ m2), m3⟩
    · exact k2 x hx hne

/-- **C147**, origins: after eliminating nulling rules every rule of the grammar, and every rule of
the returned grammar of nulling rules, has no origin or has the origin of a rule of the old grammar
with the same left side. -/
theorem C147_origins {g : Cfg} (hwf : g.WF) :
    ∃ g' res, g.binarizeAndEliminateNulling = .ok (g', res) ∧
      ∀ r' ∈ g'.rules ++ res.rules, r'.history.origin = 2 ^ 32 - 1 ∨
        ∃ r ∈ g.rules, r.lhs = r'.lhs ∧ r.history.origin = r'.history.origin := by
  obtain ⟨g₁, g', res, h1, h2⟩ := elim_spec hwf
  refine ⟨g', res, h1, ?_⟩
  obtain ⟨g₂, rs, e1, e2, e3⟩ := addRules_traced g.rules
    { g with rhsLenInvariant := some 2, rules := [] } rfl
  have : g₂ = g₁ := by
    have h := h2.split
    unfold Cfg.limitRhsLen at h
    exact Res.ok.inj (e1.symm.trans h)
  subst this
  have e2 : g₂.rules = rs := by simpa using e2
  rw [← e2] at e3
  obtain ⟨n, q, -, -, h3, h4⟩ := h2.full
  have hsame : ∀ r' r : CfgRule, r ∈ g₂.rules → r'.lhs = r.lhs →
      r'.history.origin = r.history.origin → TracedTo g.rules r' := by
    intro r' r hr h5 h6
    have := e3 r hr
    unfold TracedTo at this ⊢
    rwa [h5, h6]
  intro r' hr'
  change TracedTo g.rules r'
  rcases List.mem_append.1 hr' with hr' | hr'
  · rw [h4] at hr'
    rcases List.mem_append.1 (List.mem_filter.1 hr').1 with hr' | hr'
    · exact e3 r' hr'
    · obtain ⟨r, hr, h5⟩ := List.mem_flatMap.1 hr'
      have : r'.lhs = r.lhs ∧ r'.history.origin = r.history.origin := by
        unfold shortRules at h5
        split at h5
        · split at h5
          · simp only [List.mem_cons, List.not_mem_nil, or_false] at h5
            rcases h5 with rfl | rfl <;> exact ⟨rfl, rfl⟩
          · split at h5
            · rw [List.mem_singleton] at h5; subst h5; exact ⟨rfl, rfl⟩
            · split at h5
              · rw [List.mem_singleton] at h5; subst h5; exact ⟨rfl, rfl⟩
              · simp at h5
        · simp at h5
      exact hsame r' r hr this.1 this.2
  · rw [h3] at hr'
    obtain ⟨r, hr, rfl⟩ := List.mem_map.1 hr'
    exact hsame _ r (List.mem_filter.1 hr).1 rfl rfl

/-- **C147, no rule gets lost.** For every rule of the old grammar with a symbol on its right, whose
left side derives a string of at least one terminal, the new grammar has a rule with the same left
side and origin. -/
theorem C147_kept {g : Cfg} (hwf : g.WF) :
    ∃ g' res, g.binarizeAndEliminateNulling = .ok (g', res) ∧
      ∀ r ∈ g.rules, r.rhs ≠ [] → (∃ w, w ≠ [] ∧ g.Lang r.lhs w) →
        ∃ r' ∈ g'.rules, r'.lhs = r.lhs ∧ r'.history.origin = r.history.origin := by
  obtain ⟨g₁, g', res, h1, h2⟩ := elim_spec hwf
  refine ⟨g', res, h1, fun r hr hne ⟨w, hw, hl⟩ => ?_⟩
  obtain ⟨-, k⟩ := addRules_kept g.rules { g with rhsLenInvariant := some 2, rules := [] } rfl h2.split
  obtain ⟨r', m1, m2, m3, m4⟩ := k r hr hne
  obtain ⟨n, q, -, hq, -, h4⟩ := h2.full
  refine ⟨r', ?_, m2, m3⟩
  rw [h4]
  refine List.mem_filter.2 ⟨List.mem_append_left _ m1, ?_⟩
  rw [m2, hq]
  · simpa using m4
  · have hlen : ∀ A α, g₁.prod A α → α.length ≤ 2 := by
      rintro A α ⟨x, hx, -, rfl⟩
      exact h2.len x hx
    have hT := hl.2
    refine ⟨w, ?_, fun a ha => (h2.inv.term a).2 ((Cfg.term_iff_prod a).1 (hT a ha))⟩
    rw [derives_iff_der, derives_elim hlen _ hw, ← derives_iff_der]
    exact (h2.inv.derives (hwf r hr).1 fun x hx => (hT x hx).1).2 hl.1

/-- Specification: `r'` is `r` with one of its two symbols left out, and its history tells which
one and from which side. -/
def TellsOmitted (r r' : CfgRule) : Prop :=
  r'.lhs = r.lhs ∧ ∃ a b, r.rhs = [a, b] ∧
    (r'.rhs = [a] ∧ r'.history = { r.history with nullable := some (b, true) } ∨
      r'.rhs = [b] ∧ r'.history = { r.history with nullable := some (a, false) })

/-- **C147**, partial: let `g₁` be the grammar split by the limit of two symbols. A rule of the new
grammar is a rule of `g₁`, or it is a rule of `g₁` with one nullable symbol left out. If the symbol
that stays is not nullable, its history is that of the rule with a mark which symbol was left out
and on which side. A rule of the returned grammar is a rule of `g₁` of nullable symbols, with a
history of the origin only. What is missing: when both symbols are nullable, of the history only
the origin stays (`C147_violated`). -/
theorem C147_omitted_partial {g : Cfg} (hwf : g.WF) :
    ∃ g₁ g' res, g.limitRhsLen (some 2) = .ok g₁ ∧
      g.binarizeAndEliminateNulling = .ok (g', res) ∧
      (∀ r' ∈ g'.rules, r' ∈ g₁.rules ∨ ∃ r ∈ g₁.rules, (∃ x ∈ r.rhs, Nullable g₁.prod x) ∧
        (TellsOmitted r r' ∧ (∀ x ∈ r'.rhs, ¬ Nullable g₁.prod x) ∨
          (∀ x ∈ r.rhs, Nullable g₁.prod x) ∧ r'.lhs = r.lhs ∧ r'.rhs.length = 1 ∧
            r'.rhs <+: r.rhs ∨
          (∀ x ∈ r.rhs, Nullable g₁.prod x) ∧ r'.lhs = r.lhs ∧ r'.rhs.length = 1 ∧
            r'.rhs <:+ r.rhs)) ∧
      ∀ r' ∈ res.rules, ∃ r ∈ g₁.rules, (∀ x ∈ r.rhs, Nullable g₁.prod x) ∧ r'.lhs = r.lhs ∧
        r'.rhs = r.rhs ∧ r'.history = { origin := r.history.origin } := by
  obtain ⟨g₁, g', res, h1, h2⟩ := elim_spec hwf
  obtain ⟨n, q, hn, -, h3, h4⟩ := h2.full
  have hn' : ∀ s, n s = false ↔ ¬ Nullable g₁.prod s := by
    intro s
    rw [← hn s]
    simp
  refine ⟨g₁, g', res, h2.split, h1, fun r' hr' => ?_, fun r' hr' => ?_⟩
  · rw [h4] at hr'
    rcases List.mem_append.1 (List.mem_filter.1 hr').1 with hr' | hr'
    · exact .inl hr'
    · obtain ⟨r, hr, h5⟩ := List.mem_flatMap.1 hr'
      refine .inr ⟨r, hr, ?_⟩
      obtain ⟨lhs, rhs, hist⟩ := r
      unfold shortRules at h5
      split at h5
      · rename_i a c e
        simp only at e
        subst e
        cases ha : n a <;> cases hc : n c <;> simp [ha, hc] at h5
        · subst h5
          exact ⟨⟨c, by simp, (hn c).1 hc⟩, .inl ⟨⟨rfl, a, c, rfl, .inl ⟨rfl, rfl⟩⟩,
            by simpa using (hn' a).1 ha⟩⟩
        · subst h5
          exact ⟨⟨a, by simp, (hn a).1 ha⟩, .inl ⟨⟨rfl, a, c, rfl, .inr ⟨rfl, rfl⟩⟩,
            by simpa using (hn' c).1 hc⟩⟩
        · have hall : ∀ x ∈ [a, c], Nullable g₁.prod x := by
            simpa using ⟨(hn a).1 ha, (hn c).1 hc⟩
          refine ⟨⟨a, by simp, (hn a).1 ha⟩, .inr ?_⟩
          rcases h5 with rfl | rfl
          · exact .inl ⟨hall, rfl, rfl, ⟨[c], rfl⟩⟩
          · exact .inr ⟨hall, rfl, rfl, ⟨[a], rfl⟩⟩
      · simp at h5
  · rw [h3] at hr'
    obtain ⟨r, hr, rfl⟩ := List.mem_map.1 hr'
    rw [List.mem_filter, List.all_eq_true] at hr
    exact ⟨r, hr.1, fun x hx => (hn x).1 (hr.2 x hx), rfl, rfl, rfl⟩

/-- `S ::= A B | A c`, `A ::= x |`, `B ::= y |`: symbols `S A B c x y`. -/
def nullHistCfg : Cfg :=
  { src := ⟨6, []⟩, rules := [⟨0, [1, 2], History.new 1⟩, ⟨0, [1, 3], History.new 2⟩,
      ⟨1, [4], History.new 3⟩, ⟨1, [], History.new 4⟩, ⟨2, [5], History.new 5⟩,
      ⟨2, [], History.new 6⟩] }

/-- **C147** is false for rules of two nullable symbols: both shortened rules of `S ::= A B` have
the same history, without a mark; the shortened rule of `S ::= A c` has one. -/
theorem C147_violated : nullHistCfg.WF ∧
    (nullHistCfg.binarizeAndEliminateNulling).bind (fun p => .ok (p.1.rules.drop 4)) =
      .ok [⟨0, [1], { origin := 1 }⟩, ⟨0, [2], { origin := 1 }⟩,
        ⟨0, [3], { History.new 2 with nullable := some (1, false) }⟩] := by
  decide +kernel

end Verif
