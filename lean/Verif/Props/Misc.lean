import Verif.Proofs.Basic
import Mathlib.Data.List.Induction

/-!
# Properties of comparisons, histories and the rule builder (C69, C70, C72, C74)
-/

namespace Verif

/-! ## C69 -/

/-- **C69** fails: a grammar without rules is "equivalent" to every grammar, and rules are
compared only up to the length of the shorter right side. -/
theorem C69_violated_prefix :
    (∀ g : Cfg, (Cfg.equivalent {} g) = true ∧ (Cfg.equivalent g {}) = true) ∧
    ∃ g g' : Cfg, g.rules.length = g'.rules.length ∧ g.WF ∧ g'.WF ∧ g.equivalent g' = true ∧
      ¬ g.prod 0 [1] ∧ g'.prod 0 [1] := by
  refine ⟨fun g => ?_, ?_⟩
  · simp [Cfg.equivalent]
  · exact ⟨{ src := ⟨3, [none, none, none]⟩, rules := [⟨0, [1, 2], {}⟩] },
      { src := ⟨3, [none, none, none]⟩, rules := [⟨0, [1], {}⟩] }, by decide +kernel⟩

/-- **C69** fails: `equivalent` is not transitive. -/
theorem C69_violated_transitive :
    ∃ g₁ g₂ g₃ : Cfg, g₁.equivalent g₂ = true ∧ g₂.equivalent g₃ = true ∧
      g₁.equivalent g₃ = false :=
  ⟨{ src := ⟨3, [none, none, none]⟩, rules := [⟨0, [1], {}⟩] }, {},
    { src := ⟨3, [none, none, none]⟩, rules := [⟨0, [2], {}⟩] }, by decide +kernel⟩

private theorem zip_all_eq (a b : List Sym) :
    (a.zip b).all (fun (x, y) => x == y) = true ↔ a <+: b ∨ b <+: a := by
  induction a generalizing b with
  | nil => simp
  | cons x a ih =>
    cases b with
    | nil => simp
    | cons y b =>
      simp only [List.zip_cons_cons, List.all_cons, Bool.and_eq_true, beq_iff_eq, ih,
        List.cons_prefix_cons]
      constructor
      · rintro ⟨rfl, h | h⟩ <;> simp [h]
      · rintro (⟨rfl, h⟩ | ⟨rfl, h⟩) <;> simp [h]

private theorem equivalent_fold (l : List (CfgRule × CfgRule)) (b : Bool) :
    l.foldl (fun eq (i, j) => eq && (i.lhs == j.lhs) &&
      (i.rhs.zip j.rhs).all fun (a, b) => a == b) b = true ↔
    b = true ∧ ∀ p ∈ l, p.1.lhs = p.2.lhs ∧ (p.1.rhs <+: p.2.rhs ∨ p.2.rhs <+: p.1.rhs) := by
  induction l generalizing b with
  | nil => simp
  | cons p l ih =>
    rw [List.foldl_cons, ih]
    simp only [Bool.and_eq_true, beq_iff_eq, zip_all_eq, List.forall_mem_cons]
    tauto

/-- **C69** (what holds): `equivalent` is true exactly when the rules at equal positions have the
same left side and one right side is a prefix of the other; so for grammars with equally many
rules of equal lengths it is equality of the rules. Missing: it ignores surplus rules and
surplus symbols (see above). -/
theorem C69_equivalent_partial (g g' : Cfg) :
    (g.equivalent g' = true ↔
      ∀ (i : Nat) r r', g.rules[i]? = some r → g'.rules[i]? = some r' →
        r.lhs = r'.lhs ∧ (r.rhs <+: r'.rhs ∨ r'.rhs <+: r.rhs)) ∧
    (g.rules.map (·.rhs.length) = g'.rules.map (·.rhs.length) →
      (g.equivalent g' = true ↔
        g.rules.map (fun r => (r.lhs, r.rhs)) = g'.rules.map (fun r => (r.lhs, r.rhs)))) := by
  have key : g.equivalent g' = true ↔
      ∀ (i : Nat) r r', g.rules[i]? = some r → g'.rules[i]? = some r' →
        r.lhs = r'.lhs ∧ (r.rhs <+: r'.rhs ∨ r'.rhs <+: r.rhs) := by
    unfold Cfg.equivalent
    rw [equivalent_fold]
    simp only [true_and]
    constructor
    · intro h i r r' h1 h2
      refine h (r, r') (List.mem_iff_getElem?.2 ⟨i, ?_⟩)
      rw [List.getElem?_zip_eq_some]
      exact ⟨h1, h2⟩
    · rintro h ⟨r, r'⟩ hp
      obtain ⟨i, hi⟩ := List.mem_iff_getElem?.1 hp
      rw [List.getElem?_zip_eq_some] at hi
      exact h i r r' hi.1 hi.2
  refine ⟨key, fun hlen => ?_⟩
  rw [key]
  have hl := congrArg List.length hlen
  simp only [List.length_map] at hl
  constructor
  · intro h
    apply List.ext_getElem?
    intro i
    have e := congrArg (·[i]?) hlen
    simp only [List.getElem?_map] at e ⊢
    cases h1 : g.rules[i]? with
    | none =>
      rw [h1] at e
      cases h2 : g'.rules[i]? with
      | none => rfl
      | some r' => rw [h2] at e; simp at e
    | some r =>
      rw [h1] at e
      cases h2 : g'.rules[i]? with
      | none => rw [h2] at e; simp at e
      | some r' =>
        rw [h2] at e
        simp only [Option.map_some, Option.some.injEq] at e
        obtain ⟨e1, e2⟩ := h i r r' h1 h2
        simp only [Option.map_some, Option.some.injEq, Prod.mk.injEq]
        refine ⟨e1, ?_⟩
        rcases e2 with e2 | e2
        · exact e2.eq_of_length e
        · exact (e2.eq_of_length e.symm).symm
  · intro h i r r' h1 h2
    have e := congrArg (·[i]?) h
    simp only [List.getElem?_map, h1, h2, Option.map_some, Option.some.injEq,
      Prod.mk.injEq] at e
    exact ⟨e.1, .inl (e.2 ▸ List.prefix_rfl)⟩

example : ∃ g g' : Cfg, g.rules.map (·.rhs.length) = g'.rules.map (·.rhs.length) ∧
    g.rules ≠ [] ∧ g.equivalent g' = false :=
  ⟨{ src := ⟨3, [none, none, none]⟩, rules := [⟨0, [1, 2], {}⟩, ⟨0, [], {}⟩] },
    { src := ⟨3, [none, none, none]⟩, rules := [⟨0, [1, 2], {}⟩, ⟨1, [], {}⟩] }, by
      decide +kernel⟩

/-! ## C70 -/

/-- **C70** fails: equality of named rules is not transitive, because a missing history equals
every history. -/
theorem C70_violated_transitive :
    ∃ a b c, NamedCfgRule.withHistory [some "S", some "x"] {} = .ok a ∧
      NamedCfgRule.new [some "S", some "x"] = .ok b ∧
      NamedCfgRule.withHistory [some "S", some "x"] { origin := 1 } = .ok c ∧
      a.eq b = .ok true ∧ b.eq c = .ok true ∧ a.eq c = .ok false := by
  refine ⟨⟨0, [1], some {}, [some "S", some "x"]⟩, ⟨0, [1], none, [some "S", some "x"]⟩,
    ⟨0, [1], some { origin := 1 }, [some "S", some "x"]⟩, ?_⟩
  decide +kernel

/-- The names used by a named rule exist. -/
def NamedCfgRule.Ok (a : NamedCfgRule) : Prop :=
  a.lhs < a.names.length ∧ ∀ s ∈ a.rhs, s < a.names.length

instance (a : NamedCfgRule) : Decidable a.Ok := inferInstanceAs (Decidable (_ ∧ _))

/-- The display of a named rule: the names of its symbols. -/
def NamedCfgRule.display (a : NamedCfgRule) : Option (Option String) × List (Option (Option String)) :=
  (a.names[a.lhs]?, a.rhs.map fun s => a.names[s]?)

private theorem namedRhsEq_spec (na nb : List (Option String)) (l : List (Sym × Sym))
    (h : ∀ p ∈ l, p.1 < na.length ∧ p.2 < nb.length) :
    namedRhsEq na nb l = .ok (decide (∀ p ∈ l, na[p.1]? = nb[p.2]?)) := by
  induction l with
  | nil => rfl
  | cons p l ih =>
    obtain ⟨a, b⟩ := p
    obtain ⟨h1, h2⟩ := h (a, b) (by simp)
    simp only at h1 h2
    unfold namedRhsEq nameAt
    rw [Res.index_lt h1, Res.index_lt h2]
    simp only [Res.bind_ok]
    rw [ih fun p hp => h p (by simp [hp])]
    simp only [List.forall_mem_cons, List.getElem?_eq_getElem h1, List.getElem?_eq_getElem h2,
      Option.some.injEq]
    by_cases e : na[a] = nb[b] <;> simp [e]

private theorem zip_names (na nb : List (Option String)) (a b : List Sym)
    (h : a.length = b.length) :
    (∀ p ∈ a.zip b, na[p.1]? = nb[p.2]?) ↔
      a.map (fun s => na[s]?) = b.map (fun s => nb[s]?) := by
  induction a generalizing b with
  | nil => cases b <;> simp at h ⊢
  | cons x a ih =>
    cases b with
    | nil => simp at h
    | cons y b =>
      simp only [List.zip_cons_cons, List.forall_mem_cons, List.map_cons, List.cons.injEq]
      rw [ih b (by simpa using h)]

/-- **C70** (what holds): on rules whose symbols have entries in the name table the comparison
never panics and is true exactly when the displayed names agree and the histories agree or one
is absent; so it is reflexive and symmetric, and transitive when the middle rule has a history.
Missing: transitivity through a rule without history (see above). -/
theorem C70_eq_partial (a b : NamedCfgRule) (ha : a.Ok) (hb : b.Ok) :
    (∃ v, a.eq b = .ok v ∧ (v = true ↔ a.display = b.display ∧
      (a.history = none ∨ b.history = none ∨ a.history = b.history))) ∧
    a.eq a = .ok true ∧ a.eq b = b.eq a ∧
    ∀ c : NamedCfgRule, c.Ok → b.history ≠ none → a.eq b = .ok true → b.eq c = .ok true →
      a.eq c = .ok true := by
  have key : ∀ a b : NamedCfgRule, a.Ok → b.Ok → a.eq b = .ok (decide (a.display = b.display ∧
      (a.history = none ∨ b.history = none ∨ a.history = b.history))) := by
    intro a b ha hb
    unfold NamedCfgRule.eq nameAt
    rw [Res.index_lt ha.1, Res.index_lt hb.1]
    simp only [Res.bind_ok]
    have e1 : (a.names[a.lhs]'ha.1 = b.names[b.lhs]'hb.1) ↔
        a.names[a.lhs]? = b.names[b.lhs]? := by
      rw [List.getElem?_eq_getElem ha.1, List.getElem?_eq_getElem hb.1, Option.some.injEq]
    by_cases h1 : a.names[a.lhs]'ha.1 = b.names[b.lhs]'hb.1
    · rw [if_neg (by simpa using h1)]
      by_cases h2 : a.rhs.length = b.rhs.length
      · rw [if_neg (by simpa using h2)]
        rw [namedRhsEq_spec _ _ _ (fun p hp => ⟨ha.2 _ (List.of_mem_zip hp).1,
          hb.2 _ (List.of_mem_zip hp).2⟩)]
        simp only [Res.bind_ok, Res.ok.injEq]
        rw [Bool.eq_iff_iff]
        simp only [Bool.and_eq_true, Bool.or_eq_true, decide_eq_true_eq, zip_names _ _ _ _ h2,
          NamedCfgRule.display, Prod.mk.injEq, ← e1, h1, true_and, Option.isNone_iff_eq_none,
          or_assoc]
      · rw [if_pos (by simpa using h2)]
        simp only [Res.ok.injEq, Bool.false_eq, decide_eq_false_iff_not, NamedCfgRule.display,
          Prod.mk.injEq]
        rintro ⟨⟨-, h⟩, -⟩
        have := congrArg List.length h
        simp at this
        exact h2 this
    · rw [if_pos (by simpa using h1)]
      simp only [Res.ok.injEq, Bool.false_eq, decide_eq_false_iff_not, NamedCfgRule.display,
        Prod.mk.injEq]
      rintro ⟨⟨h, -⟩, -⟩
      exact h1 (e1.2 h)
  refine ⟨⟨_, key a b ha hb, by simp⟩, by rw [key a a ha ha]; simp, ?_, ?_⟩
  · rw [key a b ha hb, key b a hb ha]
    congr 1
    rw [Bool.eq_iff_iff]
    simp only [decide_eq_true_eq, eq_comm (a := a.display), eq_comm (a := a.history) (b := b.history)]
    tauto
  · intro c hc hh h1 h2
    rw [key a b ha hb] at h1
    rw [key b c hb hc] at h2
    rw [key a c ha hc]
    simp only [Res.ok.injEq, decide_eq_true_eq] at h1 h2 ⊢
    refine ⟨h1.1.trans h2.1, ?_⟩
    rcases h1.2 with h | h | h
    · exact .inl h
    · exact absurd h hh
    · rcases h2.2 with h' | h' | h'
      · exact absurd h' hh
      · exact .inr (.inl h')
      · exact .inr (.inr (h.trans h'))

example : ∃ a b : NamedCfgRule, a.Ok ∧ b.Ok ∧ b.history ≠ none ∧ a.eq b = .ok true ∧ a ≠ b :=
  ⟨⟨0, [1, 2], some {}, [some "S", some "x", none]⟩,
    ⟨2, [1, 0], some {}, [none, some "x", some "S"]⟩, by decide +kernel⟩

/-! ## C72 -/

/-- **C72** fails: a `SequenceRhs` step never changes the history, although the rewriting routine
computes a different one. -/
theorem C72_violated_discarded :
    (∀ (prev : History) (rhs : List (Option Sym)),
      processLinked (.sequenceRhs rhs) prev = .ok prev) ∧
    ∃ (prev : History) (details : SequenceDetails) (rhs : List (Option Sym)),
      processLinked (.rewriteSequence details.top details.rhs details.sep)
        { dot0 := .new 5 0, dot1 := .new 5 1, dot2 := .new 5 2, origin := 5 } = .ok prev ∧
      prev.rewriteSequence details (rhs.filterMap id) ≠ prev := by
  refine ⟨fun prev rhs => ?_, ?_⟩
  · simp only [processLinked]; split <;> rfl
  · refine ⟨⟨.new 5 0, .new 5 1, .new 5 2, 5, none, none, some ⟨true, 3, none⟩⟩,
      ⟨true, 3, none⟩, [some 3], ?_⟩
    decide +kernel

/-- **C72** (what holds): a `RewriteSequence` step records its details, which later binarization,
one-sided nulling elimination, weight and precedence steps keep, and leaves the dots alone.
Missing: the recorded details are never applied to the dots (see above). -/
theorem C72_details_kept_partial (prev : History) (top : Bool) (rhs : Sym) (sep : Option Sym) :
    ∃ h, processLinked (.rewriteSequence top rhs sep) prev = .ok h ∧
      h.sequence = some ⟨top, rhs, sep⟩ ∧ (∀ i, h.dot i = prev.dot i) ∧ h.origin = prev.origin ∧
      ∀ node h', (∀ n r0 r1, node ≠ .eliminateNulling r0 r1 (.all n)) →
        (∀ t r s, node ≠ .rewriteSequence t r s) → processLinked node h = .ok h' →
        h'.sequence = some ⟨top, rhs, sep⟩ := by
  refine ⟨_, rfl, rfl, ?_, rfl, ?_⟩
  · intro i
    rcases i with _ | _ | _ | i <;> rfl
  · intro node h' hn1 hn2 h
    cases node with
    | binarize a b c =>
      simp only [processLinked, History.binarize] at h
      split at h
      · split at h
        · cases h; rfl
        · split at h <;> cases h <;> rfl
      · split at h
        · cases h
        · cases h; rfl
    | eliminateNulling r0 r1 w =>
      cases w with
      | all n => exact absurd rfl (hn1 n r0 r1)
      | left => cases r0 <;> simp [processLinked, History.eliminateNulling] at h; subst h; rfl
      | right => cases r1 <;> simp [processLinked, History.eliminateNulling] at h; subst h; rfl
    | assignPrecedence n => simp only [processLinked, Res.ok.injEq] at h; subst h; rfl
    | rewriteSequence t r s => exact absurd rfl (hn2 t r s)
    | sequenceRhs l => simp only [processLinked, Res.ok.injEq] at h; subst h; rfl
    | weight m => simp only [processLinked, Res.ok.injEq] at h; subst h; rfl

example : Res.isOk (processLinked (.binarize 0 3 false)
    { sequence := some ⟨true, 3, none⟩ }) = true := by decide +kernel

/-- **C72** (the routine itself): for each shape of rule made for a sequence of `x` with separator
`s`, where `y` is any other symbol, the dots that the rewriting routine finds. `0` is the dot
before an element, `1` the dot after one, `2` the dot after a separator. The origin stays with the
top rule (the others get 0), and nothing else of the history is kept.
Missing: the result is dropped (see above). -/
theorem C72_routine_partial (h : History) (top : Bool) (x s y : Sym) (hxs : x ≠ s) (hxy : x ≠ y)
    (hsy : s ≠ y) (sep : Option Sym) (hsep : sep = none ∨ sep = some s) :
    let dots := fun rhs : List Sym =>
      let h' := h.rewriteSequence ⟨top, x, sep⟩ rhs
      (h'.dot 0, h'.dot 1, h'.dot 2)
    let none := RuleDot.none
    (sep = some s → dots [y, s] = (none, h.dot 1, h.dot 2)) ∧
    (sep = some s → dots [y, s, x] = (none, h.dot 1, h.dot 2)) ∧
    (sep = some s → dots [x, s, x] = (h.dot 0, h.dot 1, h.dot 2)) ∧
    (sep = some s → dots [x, s] = (h.dot 0, h.dot 1, h.dot 2)) ∧
    dots [y, x] = (none, h.dot 0, h.dot 1) ∧
    dots [x] = (h.dot 0, h.dot 1, none) ∧
    dots [x, x] = (h.dot 0, h.dot 1, h.dot 1) ∧
    dots [y, y] = (none, none, none) ∧ dots [] = (none, none, none) ∧
    ∀ rhs, let h' := h.rewriteSequence ⟨top, x, sep⟩ rhs
      (h'.origin = if top then h.origin else 0) ∧ h'.nullable = .none ∧
      h'.weight = .none ∧ h'.sequence = .none := by
  have k1 : History.symKind ⟨top, x, sep⟩ x = .element := if_pos rfl
  have k2 : sep = some s → History.symKind ⟨top, x, sep⟩ s = .separator := by
    intro e
    subst e
    simp [History.symKind, hxs.symm]
  have k3 : History.symKind ⟨top, x, sep⟩ y = .other := by
    rcases hsep with e | e <;> subst e <;> simp [History.symKind, hxy.symm, hsy.symm]
  have hd : ∀ rhs, let h' := h.rewriteSequence ⟨top, x, sep⟩ rhs
      let b := h.rewriteSequenceBottom ⟨top, x, sep⟩ rhs
      (h'.dot 0, h'.dot 1, h'.dot 2) = (b.dot0, b.dot1, b.dot2) := by
    intro rhs
    cases top <;> rfl
  refine ⟨fun e => ?_, fun e => ?_, fun e => ?_, fun e => ?_, ?_, ?_, ?_, ?_, ?_, ?_⟩
  iterate 4
    refine (hd _).trans ?_
    simp only [History.rewriteSequenceBottom, List.map_cons, List.map_nil, k1, k2 e, k3]
    rfl
  iterate 5
    refine (hd _).trans ?_
    simp only [History.rewriteSequenceBottom, List.map_cons, List.map_nil, k1, k3]
    rfl
  intro rhs
  cases top
  · exact ⟨by rw [if_neg (by decide)]; rfl, rfl, rfl, rfl⟩
  · exact ⟨by rw [if_pos rfl]; rfl, rfl, rfl, rfl⟩

example : (3 : Sym) ≠ 4 ∧ (3 : Sym) ≠ 5 ∧ (4 : Sym) ≠ 5 ∧
    ((⟨.new 5 0, .new 5 1, .new 5 2, 5, none, none, none⟩ : History).rewriteSequence
      ⟨true, 3, some 4⟩ [5, 4, 3]).dot 2 = .new 5 2 := by decide +kernel

/-! ## C74 -/

/-- The left side in force after some calls: the one of the last `rule` call. -/
def builderLhs (calls : List RuleCall) : Option Sym :=
  calls.reverse.findSome? fun | .rule a => some a | _ => none

/-- The pending history after some calls: the one of the last `history` call, unless a `rule` or
`rhs` call came later. -/
def builderPending (calls : List RuleCall) : Option History :=
  (calls.reverse.takeWhile fun | .rule _ => false | .rhs _ => false | _ => true).findSome? fun
    | .history h => some h
    | _ => none

/-- The rule that the last of some calls asks for, given the calls before it. -/
def builderRule (before : List RuleCall) : RuleCall → Option CfgRule
  | .rhs syms => (builderLhs before).map fun a =>
      ⟨a, syms, (builderPending before).getD (History.ofRoot (.rule a))⟩
  | .rhsWithHistory syms h => (builderLhs before).map fun a => ⟨a, syms, h⟩
  | _ => none

/-- **C74**: a call on the builder after any successful sequence of calls. `rhs` and
`rhs_with_history` add exactly the rule described by `builderRule` with `add_rule`; `rule` and
`history` leave the grammar alone; without a left side `rhs` panics. -/
theorem C74_builder (g : Cfg) (calls : List RuleCall) (c : RuleCall) (b : RuleBuilder) (g₁ : Cfg)
    (h : RuleBuilder.run {} g calls = .ok (b, g₁)) :
    (∀ rule, builderRule calls c = some rule →
      (b.call g₁ c >>= fun p => .ok p.2) = (g₁.addRule rule >>= fun p => .ok p.1)) ∧
    ((∃ a, c = .rule a) ∨ (∃ hh, c = .history hh) →
      (b.call g₁ c >>= fun p => .ok p.2) = .ok g₁) ∧
    (builderLhs calls = none → ∀ syms, b.call g₁ (.rhs syms) = .panic) := by
  have key : ∀ (calls : List RuleCall) (b : RuleBuilder) (g₁ : Cfg),
      RuleBuilder.run {} g calls = .ok (b, g₁) →
      b.lhs = builderLhs calls ∧ b.history = builderPending calls := by
    have run_append : ∀ (cs : List RuleCall) (c : RuleCall) (b₀ : RuleBuilder) (g₀ : Cfg),
        RuleBuilder.run b₀ g₀ (cs ++ [c]) =
          (RuleBuilder.run b₀ g₀ cs >>= fun p => p.1.call p.2 c) := by
      intro cs c
      induction cs with
      | nil =>
        intro b₀ g₀
        simp only [List.nil_append, RuleBuilder.run, Res.bind_ok]
        cases b₀.call g₀ c <;> rfl
      | cons d cs ih =>
        intro b₀ g₀
        simp only [List.cons_append, RuleBuilder.run]
        cases b₀.call g₀ d with
        | ok p => simp only [Res.bind_ok]; exact ih p.1 p.2
        | panic => rfl
        | diverge => rfl
    intro calls
    induction calls using List.reverseRecOn with
    | nil => intro b g₁ h; cases h; exact ⟨rfl, rfl⟩
    | append_singleton cs c ih =>
      intro b g₁ h
      rw [run_append] at h
      obtain ⟨⟨b₀, g₀⟩, h0, h1⟩ := Res.bind_eq_ok.1 h
      obtain ⟨e1, e2⟩ := ih b₀ g₀ h0
      have add : ∀ (b₀ b : RuleBuilder) syms hh, b₀.rhsWithHistory g₀ syms hh = .ok (b, g₁) →
          b = b₀ := by
        intro b₀ b syms hh h
        unfold RuleBuilder.rhsWithHistory at h
        obtain ⟨a, -, h⟩ := Res.bind_eq_ok.1 h
        obtain ⟨p, -, h⟩ := Res.bind_eq_ok.1 h
        cases h; rfl
      unfold builderLhs builderPending at *
      rw [List.reverse_append, List.reverse_singleton, List.singleton_append,
        List.findSome?_cons, List.takeWhile_cons]
      cases c with
      | rule a => cases h1; exact ⟨rfl, rfl⟩
      | history hh => cases h1; exact ⟨e1, rfl⟩
      | rhs syms =>
        simp only [RuleBuilder.call] at h1
        split at h1
        · simp only [Res.bind_ok] at h1
          have := add _ _ _ _ h1; subst this; exact ⟨e1, rfl⟩
        · obtain ⟨a, -, h1⟩ := Res.bind_eq_ok.1 h1
          have := add _ _ _ _ h1; subst this; exact ⟨e1, rfl⟩
      | rhsWithHistory syms hh =>
        have := add _ _ _ _ h1; subst this; exact ⟨e1, by simpa using e2⟩
      | rhsWithLinkedHistory syms node =>
        simp only [RuleBuilder.call] at h1
        obtain ⟨a, -, h1⟩ := Res.bind_eq_ok.1 h1
        obtain ⟨hh, -, h1⟩ := Res.bind_eq_ok.1 h1
        have := add _ _ _ _ h1; subst this; exact ⟨e1, by simpa using e2⟩
  obtain ⟨e1, e2⟩ := key calls b g₁ h
  have addEq : ∀ (b : RuleBuilder) a syms hh, b.lhs = some a →
      (b.rhsWithHistory g₁ syms hh >>= fun p => .ok p.2) =
        (g₁.addRule ⟨a, syms, hh⟩ >>= fun p => .ok p.1) := by
    intro b a syms hh hb
    unfold RuleBuilder.rhsWithHistory
    rw [hb]
    simp only [Res.ofOption, Res.bind_ok]
    cases g₁.addRule ⟨a, syms, hh⟩ <;> rfl
  refine ⟨fun rule hr => ?_, ?_, fun hl syms => ?_⟩
  · cases c with
    | rule a => simp [builderRule] at hr
    | history hh => simp [builderRule] at hr
    | rhs syms =>
      simp only [builderRule, Option.map_eq_some_iff] at hr
      obtain ⟨a, ha, rfl⟩ := hr
      simp only [RuleBuilder.call]
      rw [← e2]
      cases hb : b.history with
      | some hh => exact addEq { b with history := none } a syms hh (e1.trans ha)
      | none =>
        rw [e1, ha]
        exact addEq ⟨some a, none⟩ a syms _ rfl
    | rhsWithHistory syms hh =>
      simp only [builderRule, Option.map_eq_some_iff] at hr
      obtain ⟨a, ha, rfl⟩ := hr
      exact addEq b a syms hh (e1.trans ha)
    | rhsWithLinkedHistory syms node => simp [builderRule] at hr
  · rintro (⟨a, rfl⟩ | ⟨hh, rfl⟩) <;> rfl
  · simp only [RuleBuilder.call]
    cases hb : b.history with
    | some hh =>
      simp only [Res.bind_ok, RuleBuilder.rhsWithHistory, e1, hl]
      rfl
    | none => rw [e1, hl]; rfl

example : ((fun p : RuleBuilder × Cfg => p.2.rules.map fun r => (r.lhs, r.rhs, r.history.origin))
    <$> RuleBuilder.run {} Cfg.new [.rule 0, .history { origin := 9 }, .rhs [1, 2], .rhs [3],
      .history { origin := 8 }, .rule 1, .rhs []]) =
    .ok [(0, [1, 2], 9), (0, [3], 0), (1, [], 0)] := by decide +kernel
example : builderRule [.rule 0, .history { origin := 9 }] (.rhs [1, 2]) =
    some ⟨0, [1, 2], { origin := 9 }⟩ := by decide +kernel

end Verif
