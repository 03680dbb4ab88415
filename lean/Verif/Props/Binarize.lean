import Verif.Proofs.Binarize

/-!
# Properties of length limits and rule splitting (C12–C17, C71)
-/

namespace Verif

open Cfg

/-- Example: `0 ::= 1 2 3 4 5 | ε ; 1 ::= 2 2 2 ; 2 ::= 3`. -/
def exLong : Cfg :=
  { src := ⟨6, List.replicate 6 none⟩
    rules := [⟨0, [1, 2, 3, 4, 5], {}⟩, ⟨0, [], {}⟩, ⟨1, [2, 2, 2], {}⟩, ⟨2, [3], {}⟩] }

/-! ## C12 -/

/-- **C12**: after `limit_rhs_len(Some(n))`, `n ≥ 2`, every right side has at most `n` symbols. -/
theorem C12_limit (g : Cfg) (n : Nat) (hn : 2 ≤ n) :
    ∃ g', g.limitRhsLen (some n) = .ok g' ∧ g'.rhsLenInvariant = some n ∧
      ∀ r ∈ g'.rules, r.rhs.length ≤ n := by
  obtain ⟨g', h1, h2, h3, -⟩ := addRules_len hn g.rules
    (g := { g with rhsLenInvariant := some n, rules := [] }) rfl (by simp)
  exact ⟨g', h1, h2, h3⟩

example : exLong.limitRhsLen (some 3) = .ok
    { src := ⟨7, List.replicate 7 none⟩, rhsLenInvariant := some 3
      rules := [⟨6, [1, 2, 3], {}⟩, ⟨0, [6, 4, 5], {}⟩, ⟨0, [], {}⟩, ⟨1, [2, 2, 2], {}⟩,
        ⟨2, [3], {}⟩] } := by decide +kernel

/-- **C12**: `add_rule` returns and reports exactly the number of rules it appended. -/
theorem C12_count (g : Cfg) (n : Nat) (hn : 2 ≤ n) (hg : g.rhsLenInvariant = some n)
    (rule : CfgRule) :
    ∃ g' rs, g.addRule rule = .ok (g', rs.length) ∧ g'.rules = g.rules ++ rs ∧
      ∀ r ∈ rs, r.rhs.length ≤ n := by
  obtain ⟨rs, h1, h2, -⟩ := addRule_spec g rule n hn hg
  exact ⟨_, rs, h1, rfl, h2.len⟩

example : Prod.snd <$> ({ exLong with rhsLenInvariant := some 2 } : Cfg).addRule
    ⟨0, [1, 1, 1, 1], {}⟩ = .ok 3 := by decide +kernel

/-- Calls that add rules to a grammar. -/
inductive AddOp where
  /-- `add_rule` -/
  | add (rule : CfgRule)
  /-- a chain of calls on a fresh rule builder -/
  | build (calls : List RuleCall)
  /-- `wrap_input` -/
  | wrap
  /-- `next_sym` -/
  | sym (name : Option String)

/-- Effect of one call. -/
def AddOp.apply (g : Cfg) : AddOp → Res Cfg
  | .add rule => do .ok (← g.addRule rule).1
  | .build calls => do .ok (← RuleBuilder.run {} g calls).2
  | .wrap => g.wrapInput
  | .sym name => .ok (g.nextSym name).2

/-- The grammar has limit `n` and respects it. -/
private def Bounded (n : Nat) (g : Cfg) : Prop :=
  g.rhsLenInvariant = some n ∧ ∀ r ∈ g.rules, r.rhs.length ≤ n

private theorem bounded_add {n : Nat} (hn : 2 ≤ n) {g : Cfg} (h : Bounded n g) (rule : CfgRule)
    {g' : Cfg} {k : Nat} (hr : g.addRule rule = .ok (g', k)) : Bounded n g' := by
  obtain ⟨rs, h1, h2, -⟩ := addRule_spec g rule n hn h.1
  rw [h1] at hr
  cases hr
  refine ⟨h.1, fun r hr => ?_⟩
  rcases List.mem_append.1 hr with hr | hr
  · exact h.2 r hr
  · exact h2.len r hr

private theorem bounded_rwh {n : Nat} (hn : 2 ≤ n) {g : Cfg} (h : Bounded n g)
    (b : RuleBuilder) (syms : List Sym) (hist : History) {b' : RuleBuilder} {g' : Cfg}
    (hr : b.rhsWithHistory g syms hist = .ok (b', g')) : Bounded n g' := by
  unfold RuleBuilder.rhsWithHistory at hr
  obtain ⟨lhs, -, hr⟩ := Res.bind_eq_ok.1 hr
  obtain ⟨⟨g'', k⟩, h2, hr⟩ := Res.bind_eq_ok.1 hr
  cases hr
  exact bounded_add hn h _ h2

private theorem bounded_call {n : Nat} (hn : 2 ≤ n) {g : Cfg} (h : Bounded n g)
    (b : RuleBuilder) (c : RuleCall) {b' : RuleBuilder} {g' : Cfg}
    (hr : b.call g c = .ok (b', g')) : Bounded n g' := by
  cases c with
  | rule lhs => cases hr; exact h
  | history hh => cases hr; exact h
  | rhs syms =>
    unfold RuleBuilder.call at hr
    cases e : b.history with
    | some hh => rw [e] at hr; exact bounded_rwh hn h _ _ _ hr
    | none =>
      rw [e] at hr
      obtain ⟨nh, -, hr⟩ := Res.bind_eq_ok.1 hr
      exact bounded_rwh hn h _ _ _ hr
  | rhsWithHistory syms hh => exact bounded_rwh hn h _ _ _ hr
  | rhsWithLinkedHistory syms node =>
    obtain ⟨lhs, -, hr⟩ := Res.bind_eq_ok.1 hr
    obtain ⟨hh, -, hr⟩ := Res.bind_eq_ok.1 hr
    exact bounded_rwh hn h _ _ _ hr

private theorem bounded_run {n : Nat} (hn : 2 ≤ n) (cs : List RuleCall) {g : Cfg}
    (h : Bounded n g) (b : RuleBuilder) {b' : RuleBuilder} {g' : Cfg}
    (hr : b.run g cs = .ok (b', g')) : Bounded n g' := by
  induction cs generalizing b g with
  | nil => cases hr; exact h
  | cons c cs ih =>
    obtain ⟨⟨b₁, g₁⟩, h1, hr⟩ := Res.bind_eq_ok.1 hr
    exact ih (bounded_call hn h b c h1) b₁ hr

private theorem bounded_wrap {n : Nat} (hn : 2 ≤ n) (roots : List Sym) {g g' : Cfg}
    (h : Bounded n g) (hr : roots.foldlM wrapOne g = .ok g') : Bounded n g' := by
  induction roots generalizing g with
  | nil => cases hr; exact h
  | cons r roots ih =>
    rw [List.foldlM_cons] at hr
    obtain ⟨g₁, h1, hr⟩ := Res.bind_eq_ok.1 hr
    refine ih ?_ hr
    rw [wrapOne_eq] at h1
    obtain ⟨⟨g₂, k⟩, h2, h1⟩ := Res.bind_eq_ok.1 h1
    cases h1
    have := bounded_add (g := g.wrapSyms) hn h _ h2
    exact this

/-- **C12**: any further sequence of calls that add rules keeps all right sides within the
limit. -/
theorem C12_kept (n : Nat) (hn : 2 ≤ n) (ops : List AddOp) (g g' : Cfg)
    (hg : g.rhsLenInvariant = some n) (hb : ∀ r ∈ g.rules, r.rhs.length ≤ n)
    (hr : ops.foldlM AddOp.apply g = .ok g') :
    g'.rhsLenInvariant = some n ∧ ∀ r ∈ g'.rules, r.rhs.length ≤ n := by
  have h : Bounded n g := ⟨hg, hb⟩
  show Bounded n g'
  clear hg hb
  induction ops generalizing g with
  | nil => cases hr; exact h
  | cons op ops ih =>
    rw [List.foldlM_cons] at hr
    obtain ⟨g₁, h1, hr⟩ := Res.bind_eq_ok.1 hr
    refine ih g₁ hr ?_
    cases op with
    | add rule =>
      obtain ⟨⟨g₂, k⟩, h2, h1⟩ := Res.bind_eq_ok.1 h1
      cases h1
      exact bounded_add hn h _ h2
    | build calls =>
      obtain ⟨⟨b, g₂⟩, h2, h1⟩ := Res.bind_eq_ok.1 h1
      cases h1
      exact bounded_run hn calls h _ h2
    | wrap => exact bounded_wrap (g := { g with wrappedRoots := [], roots := [] }) hn g.roots h h1
    | sym name => cases h1; exact h

example : (fun g => g.rules.length) <$> ([.add ⟨0, [1, 1, 1, 1], {}⟩, .wrap, .sym none,
      .build [.rule 1, .rhs [0, 0, 0], .rhs []]] : List AddOp).foldlM AddOp.apply
      { exLong with rules := [⟨2, [3], {}⟩], rhsLenInvariant := some 2, roots := [0] }
    = .ok 9 := by decide +kernel

/-! ## C13 -/

/-- **C13**: `limit_rhs_len(Some(n))`, `n ≥ 2`, keeps the derivations between previously
existing symbols, the language of every previously existing symbol, and the roots. -/
theorem C13_limit (g : Cfg) (hwf : g.WF) (n : Nat) (hn : 2 ≤ n) :
    ∃ g', g.limitRhsLen (some n) = .ok g' ∧ g'.WF ∧ g'.roots = g.roots ∧
      (∀ A, A < g.numSyms → ∀ w : List Sym, (∀ x ∈ w, x < g.numSyms) →
        (Derives g'.prod [A] w ↔ Derives g.prod [A] w)) ∧
      (∀ A, A < g.numSyms → ∀ w, g'.Lang A w ↔ g.Lang A w) := by
  obtain ⟨g', h1, h2, h3, h4, h5⟩ := limitRhsLen_inv g hwf (some n) (by
    intro m hm; cases hm; exact hn)
  refine ⟨g', h1, h2.wf, h4, fun A hA w hw => h2.derives hA hw, fun A hA w => ?_⟩
  rw [h2.inLang hA w]
  unfold Cfg.Lang
  have : g.Term = fun a => a < g.numSyms ∧ ∀ α, ¬ g.prod a α := by
    funext a; exact propext (term_iff_prod a)
  rw [this]

example : exLong.WF ∧
    (fun g => g.rules.length) <$> exLong.limitRhsLen (some 2) = .ok 8 := by decide +kernel

/-- **C13**: `add_rule` under a limit `n ≥ 2` (or none) has, for previously existing symbols,
the same derivations as adding the unsplit rule. -/
theorem C13_add (g : Cfg) (hwf : g.WF) (hlim : ∀ n, g.rhsLenInvariant = some n → 2 ≤ n)
    (rule : CfgRule) (hl : rule.lhs < g.numSyms) (hr : ∀ x ∈ rule.rhs, x < g.numSyms) :
    ∃ g' k, g.addRule rule = .ok (g', k) ∧ g'.WF ∧
      (∀ A, A < g.numSyms → ∀ w : List Sym, (∀ x ∈ w, x < g.numSyms) →
        (Derives g'.prod [A] w ↔ Derives ({ g with rules := g.rules ++ [rule] } : Cfg).prod [A] w)) ∧
      (∀ A, A < g.numSyms → ∀ w,
        (g'.Lang A w ↔ ({ g with rules := g.rules ++ [rule] } : Cfg).Lang A w)) := by
  obtain ⟨g', k, h1, h2, -⟩ := addRule_inv (SplitInv.refl hwf) hlim rule hl hr
  have e : ({ g with rules := g.rules ++ [rule] } : Cfg).prod = addProd g.prod rule := by
    funext A α
    apply propext
    simp only [prod, addProd, List.mem_append, List.mem_singleton, or_and_right, exists_or,
      exists_eq_left]
    exact or_congr Iff.rfl ⟨fun ⟨a, b⟩ => ⟨a.symm, b.symm⟩, fun ⟨a, b⟩ => ⟨a.symm, b.symm⟩⟩
  refine ⟨g', k, h1, h2.wf, fun A hA w hw => ?_, fun A hA w => ?_⟩
  · rw [h2.derives hA hw, e]
  · rw [h2.inLang hA w]
    unfold Cfg.Lang
    rw [← e]
    have : ({ g with rules := g.rules ++ [rule] } : Cfg).Term = fun a => a < g.numSyms ∧
        ∀ α, ¬ ({ g with rules := g.rules ++ [rule] } : Cfg).prod a α := by
      funext a; exact propext (term_iff_prod a)
    rw [this]

example : exLong.WF ∧ ({ exLong with rhsLenInvariant := some 2 } : Cfg).LimitOk ∧
    (CfgRule.mk 0 [1, 2, 3] {}).lhs < exLong.numSyms := by decide

/-! ## C14 -/

/-- **C14**: limiting a second time with the same limit changes nothing at all. -/
theorem C14_idempotent (g : Cfg) (n : Nat) (hn : 2 ≤ n) :
    ∃ g', g.limitRhsLen (some n) = .ok g' ∧ g'.limitRhsLen (some n) = .ok g' := by
  obtain ⟨g', h1, h2, h3, -⟩ := addRules_len hn g.rules
    (g := { g with rhsLenInvariant := some n, rules := [] }) rfl (by simp)
  refine ⟨g', h1, ?_⟩
  obtain ⟨g'', h4, h5, h6, h7⟩ := addRules_len hn g'.rules
    (g := { g' with rhsLenInvariant := some n, rules := [] }) rfl (by simp)
  have := h7 h3
  unfold limitRhsLen
  rw [h4, this]
  simp [← h2]

example : exLong.limitRhsLen (some 2) ≠ .ok exLong ∧
    (exLong.limitRhsLen (some 2) >>= fun g => g.limitRhsLen (some 2))
      = exLong.limitRhsLen (some 2) := by decide +kernel

/-! ## C15 -/

private theorem loop_one (rule : CfgRule) (fuel : Nat) (g : Cfg)
    (hg : g.rhsLenInvariant = some 1) (rhs : List Sym) (hl : 2 ≤ rhs.length) (parts : Nat) :
    addRuleLoop rule fuel g rhs.reverse parts = .diverge := by
  induction fuel generalizing g rhs parts with
  | zero =>
    rw [addRuleLoop.eq_def]
    have : rhs.reverse.isEmpty = false := by
      cases rhs with
      | nil => simp at hl
      | cons a l => rw [List.isEmpty_reverse]; rfl
    simp [this]
  | succ fuel ih =>
    have e : g.rhsLenEnd = 1 := by simp [rhsLenEnd, hg]
    rw [addRuleLoop_more rule fuel g rhs parts (by omega) rule.history (by simp [e])]
    exact ih (g.appended _ _) hg (g.numSyms :: rhs.drop g.rhsLenEnd) (by simp [e]; omega) _

private theorem loop_zero (rule : CfgRule) (fuel : Nat) (g : Cfg)
    (hg : g.rhsLenInvariant = some 0) (rhs : List Sym) (hl : 1 ≤ rhs.length) (parts : Nat) :
    addRuleLoop rule fuel g rhs.reverse parts = .diverge := by
  induction fuel generalizing g rhs parts with
  | zero =>
    rw [addRuleLoop.eq_def]
    have : rhs.reverse.isEmpty = false := by
      cases rhs with
      | nil => simp at hl
      | cons a l => rw [List.isEmpty_reverse]; rfl
    simp [this]
  | succ fuel ih =>
    have e : g.rhsLenEnd = 0 := by simp [rhsLenEnd, hg]
    rw [addRuleLoop_more rule fuel g rhs parts (by omega) rule.history (by simp [e])]
    exact ih (g.appended _ _) hg (g.numSyms :: rhs.drop g.rhsLenEnd) (by simp) _

/-- **C15** is violated: with limit 1 the loop of `add_rule` never ends for any rule with two or
more symbols (for every amount of fuel), and with limit 0 for any rule with a symbol. -/
theorem C15_violated_no_return (rule : CfgRule) (fuel parts : Nat) (g : Cfg) :
    (g.rhsLenInvariant = some 1 → 2 ≤ rule.rhs.length →
      addRuleLoop rule fuel g rule.rhs.reverse parts = .diverge) ∧
    (g.rhsLenInvariant = some 0 → 1 ≤ rule.rhs.length →
      addRuleLoop rule fuel g rule.rhs.reverse parts = .diverge) :=
  ⟨fun hg hl => loop_one rule fuel g hg rule.rhs hl parts,
   fun hg hl => loop_zero rule fuel g hg rule.rhs hl parts⟩

/-- **C15** is violated: `limit_rhs_len(Some(1))` and `Some(0)` do not return on a grammar with
one rule `0 ::= 1 1`. -/
theorem C15_violated_limit_one :
    ({ rules := [⟨0, [1, 1], {}⟩] } : Cfg).limitRhsLen (some 1) = .diverge ∧
    ({ rules := [⟨0, [1], {}⟩] } : Cfg).limitRhsLen (some 0) = .diverge := by decide

/-- **C15** is violated: `limit_rhs_len(Some(0))` drops the rule `0 ::= ε`. -/
theorem C15_violated_rule_lost :
    ({ rules := [⟨0, [], {}⟩] } : Cfg).limitRhsLen (some 0)
      = .ok { rhsLenInvariant := some 0 } := by decide

/-- **C15**, the part that holds: for no limit and for every limit of at least 2,
`limit_rhs_len` returns and every rule is still derivable: its left side derives its right
side. Missing: limits 0 and 1. -/
theorem C15_limit_returns_partial (g : Cfg) (hwf : g.WF) (limit : Option Nat)
    (hlim : ∀ n, limit = some n → 2 ≤ n) :
    ∃ g', g.limitRhsLen limit = .ok g' ∧
      ∀ r ∈ g.rules, Derives g'.prod [r.lhs] r.rhs := by
  obtain ⟨g', h1, h2, -⟩ := limitRhsLen_inv g hwf limit hlim
  exact ⟨g', h1, fun r hr => derives_iff_der.2 (h2.fwd _ _ ⟨r, hr, rfl, rfl⟩)⟩

/-- **C15**, limit 1 returns exactly when no rule is longer than one symbol, and then changes
no rule. -/
theorem C15_limit_one_partial (g : Cfg) :
    (∀ r ∈ g.rules, r.rhs.length ≤ 1) ↔
      g.limitRhsLen (some 1) = .ok { g with rhsLenInvariant := some 1 } := by
  have key : ∀ (rules : List CfgRule) (h : Cfg), h.rhsLenInvariant = some 1 →
      ((∀ r ∈ rules, r.rhs.length ≤ 1) →
        h.addRules rules = .ok { h with rules := h.rules ++ rules }) ∧
      ((∃ r ∈ rules, 2 ≤ r.rhs.length) → h.addRules rules = .diverge) := by
    intro rules
    induction rules with
    | nil => intro h _; exact ⟨fun _ => by simp [addRules], by simp⟩
    | cons r rules ih =>
      intro h hh
      have hend : h.rhsLenEnd = 1 := by simp [rhsLenEnd, hh]
      have hadd : r.rhs.length ≤ 1 → h.addRule r = .ok (h.pushRule r, 1) := by
        intro hle
        unfold addRule
        by_cases e : r.rhs.length < 1
        · simp [rhsLenAllowed, hh, e]
        · have : r.rhs ≠ [] := by intro e'; simp [e'] at e
          simp only [rhsLenAllowed, hh, e, decide_false, Bool.false_eq_true, if_false]
          rw [addRuleLoop_last r _ h r.rhs 0 this (by omega) r.history (by simp)]
      constructor
      · intro hall
        have := hadd (hall r (by simp))
        obtain ⟨h1, -⟩ := ih (h.pushRule r) hh
        have h2 := h1 fun r' hr' => hall r' (by simp [hr'])
        unfold addRules at h2 ⊢
        rw [List.foldlM_cons, this]
        simp only [Res.bind_ok, h2]
        simp [pushRule]
      · rintro ⟨r', hr', hl⟩
        unfold addRules
        rw [List.foldlM_cons]
        by_cases e : r.rhs.length ≤ 1
        · rw [hadd e]
          have hm : r' ∈ rules := by
            rcases List.mem_cons.1 hr' with rfl | h
            · omega
            · exact h
          exact (ih (h.pushRule r) hh).2 ⟨r', hm, hl⟩
        · unfold addRule
          have h1 : ¬ r.rhs.length < 1 := by omega
          simp only [rhsLenAllowed, hh, h1, decide_false, Bool.false_eq_true, if_false]
          rw [loop_one r _ h hh r.rhs (by omega)]
          rfl
  obtain ⟨h1, h2⟩ := key g.rules { g with rhsLenInvariant := some 1, rules := [] } rfl
  constructor
  · intro hall
    unfold limitRhsLen
    rw [h1 hall]
    simp
  · intro he
    by_contra hc
    push Not at hc
    obtain ⟨r, hr, hl⟩ := hc
    unfold limitRhsLen at he
    rw [h2 ⟨r, hr, by omega⟩] at he
    cases he

example : exLong.WF ∧ exLong.limitRhsLen none = .ok exLong ∧
    ({ rules := [⟨0, [1], {}⟩, ⟨1, [], {}⟩] } : Cfg).limitRhsLen (some 1)
      = .ok { rules := [⟨0, [1], {}⟩, ⟨1, [], {}⟩], rhsLenInvariant := some 1 } := by decide

/-! ## C16 -/

/-- **C16** is violated: the reported range `start..end` excludes its end, yet rules of exactly
that length are stored: after `limit_rhs_len(Some(2))` the rule `0 ::= 1 1` has length 2, which
is outside of the reported range `0..2`. -/
theorem C16_violated_range_end :
    ∃ g' : Cfg, ({ rules := [⟨0, [1, 1], {}⟩] } : Cfg).limitRhsLen (some 2) = .ok g' ∧
      ∃ r ∈ g'.rules, g'.rhsLenAllowed r.rhs.length = false :=
  ⟨{ rules := [⟨0, [1, 1], {}⟩], rhsLenInvariant := some 2 }, by decide, ⟨0, [1, 1], {}⟩,
    by decide, by decide⟩

/-- **C16** is violated: `extend` stores a rule of any length in spite of the limit. -/
theorem C16_violated_extend :
    ∃ g other : Cfg, g.rhsLenInvariant = some 2 ∧ (∀ r ∈ g.rules, r.rhs.length ≤ 2) ∧
      ∃ r ∈ (g.extend other).rules, 2 < r.rhs.length :=
  ⟨{ rhsLenInvariant := some 2 }, { rules := [⟨0, [1, 1, 1], {}⟩] }, rfl, by simp,
    ⟨0, [1, 1, 1], {}⟩, by simp [Cfg.extend], by decide⟩

/-- **C16**, the part that holds: right sides have at most `n` symbols after
`limit_rhs_len(Some(n))` followed by any calls among `add_rule`, rule builder, `wrap_input`,
`next_sym`. Missing: `extend`, and the range reported is off by one. -/
theorem C16_invariant_partial (g : Cfg) (n : Nat) (hn : 2 ≤ n) (ops : List AddOp) (g' : Cfg)
    (hr : (g.limitRhsLen (some n) >>= fun g => ops.foldlM AddOp.apply g) = .ok g') :
    ∀ r ∈ g'.rules, r.rhs.length ≤ n := by
  obtain ⟨g₁, h1, h2, h3⟩ := C12_limit g n hn
  rw [h1] at hr
  exact (C12_kept n hn ops g₁ g' h2 h3 hr).2

example : Res.isOk (exLong.limitRhsLen (some 2) >>= fun g =>
    ([.wrap, .add ⟨0, [1, 1, 1, 1], {}⟩] : List AddOp).foldlM AddOp.apply g) := by
  decide +kernel

/-! ## C17 -/

/-- **C17**: under limit `n ≥ 2`, a rule with more than `n` symbols is cut into pieces
`c₀, c₁, …` whose concatenation is its right side; `c₀` has `n` symbols, the others `n - 1`
except the last, which has between 1 and `n - 1`. The appended rules are the chain
`f ::= c₀`, `f+1 ::= f c₁`, …, where `f` is the first unused number and the last part has the
original left side. There are `⌈(m-1)/(n-1)⌉` parts for `m` symbols, and one fresh symbol per
part but the last. -/
theorem C17_shape (g : Cfg) (n : Nat) (hn : 2 ≤ n) (hg : g.rhsLenInvariant = some n)
    (rule : CfgRule) (hm : n < rule.rhs.length) :
    ∃ (c₀ : List Sym) (cs : List (List Sym)) (g' : Cfg) (rs : List CfgRule),
      rule.rhs = c₀ ++ cs.flatten ∧ c₀.length = n ∧ cs ≠ [] ∧
      (∀ c ∈ cs, 1 ≤ c.length ∧ c.length ≤ n - 1) ∧
      (∀ c ∈ cs.dropLast, c.length = n - 1) ∧
      g.addRule rule = .ok (g', rs.length) ∧ g'.rules = g.rules ++ rs ∧
      rs.map (fun r => (r.lhs, r.rhs)) = chainSpec rule.lhs g.numSyms c₀ cs ∧
      g'.numSyms = g.numSyms + cs.length ∧ rs.length = cs.length + 1 ∧
      rs.length = (rule.rhs.length - 1 + (n - 2)) / (n - 1) := by
  obtain ⟨rs, h1, h2, -⟩ := addRule_spec g rule n hn hg
  obtain ⟨c₀, cs, a1, a2, a3, a4, a5, a6, a7⟩ := h2.shape hn
  obtain ⟨b1, b2⟩ := h2.count hn (by omega)
  refine ⟨c₀, cs, _, rs, a1, (a4 hm).1, (a4 hm).2, a5, a6, h1, rfl, a2, ?_, a7, ?_⟩
  · show g.numSyms + (rs.length - 1) = _
    omega
  · symm
    obtain ⟨k, hk⟩ : ∃ k, n = k + 2 := ⟨n - 2, by omega⟩
    subst hk
    simp only [Nat.add_sub_cancel] at *
    rw [show k + 2 - 1 = k + 1 by omega] at *
    apply Nat.div_eq_of_lt_le
    · have : rs.length * (k + 1) = (rs.length - 1) * (k + 1) + (k + 1) := by
        obtain ⟨l, hl⟩ : ∃ l, rs.length = l + 1 := ⟨rs.length - 1, by omega⟩
        rw [hl, Nat.add_sub_cancel, Nat.succ_mul]
      omega
    · rw [Nat.succ_mul]
      omega

/-- **C17**: a rule within the limit is stored as it is. -/
theorem C17_short (g : Cfg) (n : Nat) (hn : 2 ≤ n) (hg : g.rhsLenInvariant = some n)
    (rule : CfgRule) (hm : rule.rhs.length ≤ n) :
    g.addRule rule = .ok ({ g with rules := g.rules ++ [rule] }, 1) := by
  obtain ⟨rs, h1, -, h3, -⟩ := addRule_spec g rule n hn hg
  rw [h1, h3 hm]
  simp [appended, SymbolSource.anon_zero]

example : chainSpec 0 6 [1, 2] [[3], [4], [5]]
    = [(6, [1, 2]), (7, [6, 3]), (8, [7, 4]), (0, [8, 5])] ∧
    (fun p => ((p.1.rules.drop 4).map fun r => (r.lhs, r.rhs), p.2)) <$>
      ({ exLong with rhsLenInvariant := some 2 } : Cfg).addRule ⟨0, [1, 2, 3, 4, 5], {}⟩
      = .ok ([(6, [1, 2]), (7, [6, 3]), (8, [7, 4]), (0, [8, 5])], 4) := by decide +kernel

/-! ## C71 -/

/-- **C71** is violated: splitting a rule of four symbols under limit 2 records the same
position 2 for the dot in the middle of the first part (between the first and the second
symbol of the rule, which is position 1) and for the dot in the middle of the last part. -/
theorem C71_violated_collision :
    (fun p => p.1.rules.map fun r => (r.rhs, r.history.dot1.trace)) <$>
      ({ src := ⟨5, []⟩, rhsLenInvariant := some 2 } : Cfg).addRule
        ⟨0, [1, 2, 3, 4], History.new 7⟩
      = .ok [([1, 2], ⟨7, 2⟩), ([5, 3], ⟨7, 1⟩), ([6, 4], ⟨7, 2⟩)] := by
  decide +kernel

/-- **C71**, the part that holds: among the parts below the last one, the middle dots record
pairwise different positions of the original rule, all within its right side, under the
original rule's id. Missing: they are in reverse order (the part with height `i` records
`m-2-i`), so the first one collides with the middle dot of the last part. -/
theorem C71_inner_dots_partial (g : Cfg) (hg : g.rhsLenInvariant = some 2) (rule : CfgRule)
    (hm : 3 ≤ rule.rhs.length) (hm' : rule.rhs.length < 2 ^ 32) :
    ∃ g' rs, g.addRule rule = .ok (g', rs.length) ∧ g'.rules = g.rules ++ rs ∧
      rs.length = rule.rhs.length - 1 ∧
      (∀ (i : Nat) r, rs[i]? = some r → i + 1 < rs.length →
        r.history.dot1.trace = ⟨rule.history.origin, rule.rhs.length - 2 - i⟩) ∧
      (∀ r, rs.getLast? = some r → r.history.dot0.trace = ⟨rule.history.origin, 0⟩ ∧
        r.history.dot1.trace = ⟨rule.history.origin, rule.rhs.length - 2⟩ ∧
        r.history.dot2.trace = ⟨rule.history.origin, rule.rhs.length - 1⟩) ∧
      ∀ (i j : Nat) r s, rs[i]? = some r → rs[j]? = some s → i + 1 < rs.length →
        j + 1 < rs.length → r.history.dot1.trace = s.history.dot1.trace → i = j := by
  obtain ⟨rs, h1, h2, -, h4⟩ := addRule_spec g rule 2 (by omega) hg
  obtain ⟨b1, b2⟩ := h2.count (by omega) (by omega)
  have hlen : rs.length = rule.rhs.length - 1 := by omega
  have key : ∀ (i : Nat) r, rs[i]? = some r → i + 1 < rs.length →
      r.history.dot1.trace = ⟨rule.history.origin, rule.rhs.length - 2 - i⟩ := by
    intro i r hir hi
    have := h4 i r hir
    rw [if_neg (by omega)] at this
    have hd : decide (i + 1 = rs.length) = false := decide_eq_false (by omega)
    rw [hd, Nat.zero_add] at this
    unfold processLinked History.binarize at this
    simp only [Bool.false_eq_true, if_false, show ¬ rule.rhs.length < 2 + i by omega,
      Res.ok.injEq] at this
    rw [← this]
    simp only [History.atDot, RuleDot.new]
    rw [Nat.mod_eq_of_lt (by omega)]
  refine ⟨_, rs, h1, rfl, hlen, key, ?_, ?_⟩
  · intro r hr
    rw [List.getLast?_eq_getElem?] at hr
    have := h4 _ r hr
    rw [if_neg (by omega)] at this
    have hd : decide (rs.length - 1 + 1 = rs.length) = true := decide_eq_true (by omega)
    rw [hd] at this
    unfold processLinked History.binarize at this
    simp only [if_true, show ¬ rule.rhs.length = 2 by omega, if_false, hm, Res.ok.injEq] at this
    rw [← this]
    simp only [History.atDot, RuleDot.new]
    rw [Nat.mod_eq_of_lt (by omega), Nat.mod_eq_of_lt (by omega)]
    exact ⟨trivial, rfl, rfl⟩
  · intro i j r s hi hj hi' hj' he
    rw [key i r hi hi', key j s hj hj'] at he
    simp only [ExternalDottedRule.mk.injEq, true_and] at he
    omega

example : 3 ≤ (CfgRule.mk 0 [1, 2, 3, 4] {}).rhs.length := by decide

end Verif
