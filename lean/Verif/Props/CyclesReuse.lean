import Verif.Props.Cycles

/-! # Property C128: using one `Cycles` object repeatedly -/

namespace Verif

open Cycles BitMatrix

/-- A call on a `Cycles` object: `cycle_free`, `remove_cycles` or `rewrite_cycles`. -/
inductive CyclesCall
  | ask
  | remove
  | rewrite
  deriving DecidableEq, Repr

/-- Performs a call; the answer of `cycle_free` is dropped. -/
def CyclesCall.run (c : Cycles) : CyclesCall → Res Cycles
  | .ask => do .ok (← c.isCycleFree).2
  | .remove => c.removeCycles
  | .rewrite => c.rewriteCycles

/-- Performs calls one after another. -/
def CyclesCall.runAll (c : Cycles) (calls : List CyclesCall) : Res Cycles :=
  calls.foldlM CyclesCall.run c

namespace Cycles

/-- The answer is cached and no rule lies on a cycle according to the stored matrix. -/
structure Settled (b : Bool) (c : Cycles) : Prop where
  cache : c.cycleFree = some b
  rules : ∀ r ∈ c.grammar.rules, Cycles.participates c.unitDerivation r = .ok false

variable {b : Bool} {c : Cycles}

theorem Settled.ask (h : Settled b c) : c.isCycleFree = .ok (b, c) := by
  unfold Cycles.isCycleFree
  rw [h.cache]

theorem retainAcyclic_settled {m : BitMatrix} (rules : List CfgRule)
    (h : ∀ r ∈ rules, participates m r = .ok false) : retainAcyclic m rules = .ok rules := by
  induction rules with
  | nil => rfl
  | cons r rules ih =>
    unfold retainAcyclic
    rw [h r (by simp), ih fun r hr => h r (by simp [hr])]
    rfl

theorem collect_settled {m : BitMatrix} (tr : Translation) (rules : List CfgRule)
    (h : ∀ r ∈ rules, participates m r = .ok false) : collect m tr rules = .ok (tr, rules) := by
  induction rules with
  | nil => rfl
  | cons r rules ih =>
    unfold collect
    rw [h r (by simp), ih fun r hr => h r (by simp [hr])]
    rfl

theorem Settled.remove (h : Settled b c) : c.removeCycles = .ok c := by
  unfold Cycles.removeCycles
  rw [h.ask]
  cases b
  · simp [retainAcyclic_settled _ h.rules]
  · rfl

theorem Settled.rewrite (h : Settled b c) : c.rewriteCycles = .ok c := by
  unfold Cycles.rewriteCycles
  rw [h.ask]
  cases b
  · have hch : ∀ r, Translation.changes (fun _ => none) r = false := by
      intro r; simp [Translation.changes]
    simp [collect_settled _ _ h.rules, hch, Cfg.addRules]
  · rfl

theorem Settled.run (h : Settled b c) (call : CyclesCall) : call.run c = .ok c := by
  cases call
  · simp [CyclesCall.run, h.ask]
  · exact h.remove
  · exact h.rewrite

theorem Settled.runAll (h : Settled b c) (calls : List CyclesCall) :
    CyclesCall.runAll c calls = .ok c := by
  unfold CyclesCall.runAll
  induction calls with
  | nil => rfl
  | cons call calls ih => rw [List.foldlM_cons, h.run call]; exact ih

theorem Settled.participants (h : Settled b c) :
    c.cycleParticipants true = .ok [] ∧ c.cycleParticipants false = .ok c.grammar.rules := by
  have hc : c.classify = .ok (c.grammar.rules.map fun r => (r, false)) := by
    unfold Cycles.classify
    have key : ∀ rules : List CfgRule,
        (∀ r ∈ rules, Cycles.participates c.unitDerivation r = .ok false) →
        (rules.mapM fun rule => do .ok (rule, ← Cycles.participates c.unitDerivation rule) : Res _) =
          .ok (rules.map fun r => (r, false)) := by
      intro rules
      induction rules with
      | nil => intro _; rfl
      | cons r rules ih =>
        intro hr
        rw [List.mapM_cons, hr r (by simp), ih fun r h => hr r (by simp [h])]
        rfl
    exact key _ h.rules
  constructor <;> simp [Cycles.cycleParticipants, hc, List.filterMap_map]

end Cycles

/-- After `remove_cycles` or `rewrite_cycles` the object is settled. -/
theorem cyclesSettled {g : Cfg} (hwf : g.WF) (hlim : g.LimitOk) {c : Cycles} (h : Fresh g c) :
    ∃ b, (b = true ↔ CycleFree g.prod) ∧
      (∃ c', c.removeCycles = .ok c' ∧ Settled b c') ∧
      (∃ c', c.rewriteCycles = .ok c' ∧ Settled b c') := by
  classical
  obtain ⟨b, h1, h2⟩ := h.removeCycles hwf
  obtain ⟨c', k1, k2, -, k3, ⟨b', k4, k5⟩, k6⟩ := h.rewrite hwf hlim
  have hb : b' = b := by
    have := k5.trans h2.symm
    cases b <;> cases b' <;> simp_all
  subst hb
  refine ⟨b', h2, ⟨_, h1, rfl, fun r hr => ?_⟩, c', k1, k4, fun r hr => ?_⟩
  · obtain ⟨hr1, hr2⟩ := List.mem_filter.1 hr
    obtain ⟨x, p1, p2⟩ := h.participates hwf hr1
    cases x
    · exact p1
    · exact absurd (p2.1 rfl) (by simpa using hr2)
  · rw [k3]
    unfold Cycles.participates
    split
    · rename_i s e
      obtain ⟨A, α, hp, hc, e1, e2⟩ := k6 r hr (by rw [e]; simp)
      rw [e] at e2
      obtain ⟨B, rfl, rfl⟩ : ∃ B, α = [B] ∧ s = rep g B := by
        cases α with
        | nil => simp at e2
        | cons B α =>
          cases α with
          | nil => exact ⟨B, rfl, by simpa using e2⟩
          | cons => simp at e2
      obtain ⟨r₀, hr₀, rfl, e3⟩ := hp
      have hB : B < g.numSyms := (hwf r₀ hr₀).2 B (by rw [e3]; simp)
      obtain ⟨x, p1, p2⟩ := get_spec h.square (rep_lt hwf hB) (rep_lt hwf (hwf r₀ hr₀).1)
      rw [e1]
      cases x
      · exact p1
      · exfalso
        have hch := (h.bit _ _).1 (p2.1 rfl)
        refine hc ⟨B, rfl, ?_⟩
        have hB' : UnitChain g.prod B (rep g r₀.lhs) := by
          rcases rep_cases g B with ⟨-, k⟩ | ⟨-, k⟩
          · exact k.2.trans hch
          · rw [k] at hch; exact hch
        rcases rep_cases g r₀.lhs with ⟨-, k⟩ | ⟨-, k⟩
        · exact hB'.trans k.1
        · rw [k] at hB'; exact hB'
    · rfl

/-- **C128.** Whatever calls are made on one object, the answer of `cycle_free` is the one for
the grammar of the beginning. The first `remove_cycles` or `rewrite_cycles` determines the
grammar; later calls change nothing, although they look at the matrix of the beginning, and
no rule is listed as lying on a cycle any more. -/
theorem C128_reuse {g : Cfg} (hwf : g.WF) (hlim : g.LimitOk) :
    ∃ c b, Cycles.new g = .ok c ∧ (b = true ↔ CycleFree g.prod) ∧
      ∀ (asks : Nat),
        (∃ d, CyclesCall.runAll c (List.replicate asks .ask) = .ok d ∧ d.grammar = g ∧
          ∃ d', d.isCycleFree = .ok (b, d')) ∧
        ∀ (first : CyclesCall) (rest : List CyclesCall), first ≠ .ask →
          ∃ e f, first.run c = .ok e ∧
            CyclesCall.runAll c (List.replicate asks .ask ++ first :: rest) = .ok f ∧
            f.grammar = e.grammar ∧ f.isCycleFree = .ok (b, f) ∧
            f.cycleParticipants true = .ok [] ∧
            f.cycleParticipants false = .ok e.grammar.rules := by
  obtain ⟨c, h, hf⟩ := new_spec hwf
  obtain ⟨b, hb, ⟨cr, r1, r2⟩, cw, w1, w2⟩ := cyclesSettled hwf hlim hf
  refine ⟨c, b, h, hb, fun asks => ?_⟩
  have hask : ∃ d, CyclesCall.runAll c (List.replicate asks .ask) = .ok d ∧ Fresh g d ∧
      d.removeCycles = c.removeCycles ∧ d.rewriteCycles = c.rewriteCycles := by
    have key : ∀ asks (c : Cycles), Fresh g c →
        ∃ d, CyclesCall.runAll c (List.replicate asks .ask) = .ok d ∧ Fresh g d ∧
          d.removeCycles = c.removeCycles ∧ d.rewriteCycles = c.rewriteCycles := by
      intro asks
      induction asks with
      | zero => intro c hf; exact ⟨c, rfl, hf, rfl, rfl⟩
      | succ n ih =>
        intro c hf
        obtain ⟨x, x1, x2⟩ := hf.isCycleFree
        have hf' : Fresh g { c with cycleFree := some x } :=
          ⟨hf.grammar, hf.square, hf.bit, fun y hy => by cases hy; exact x2⟩
        obtain ⟨d, d1, d2, d3, d4⟩ := ih _ hf'
        have hx : Cycles.isCycleFree { c with cycleFree := some x } =
            .ok (x, { c with cycleFree := some x }) := rfl
        refine ⟨d, ?_, d2, d3.trans ?_, d4.trans ?_⟩
        · unfold CyclesCall.runAll at d1 ⊢
          rw [List.replicate_succ, List.foldlM_cons]
          simp only [CyclesCall.run, x1, Res.bind_ok]
          exact d1
        · unfold Cycles.removeCycles
          rw [hx, x1]
        · unfold Cycles.rewriteCycles
          rw [hx, x1]
    exact key asks c hf
  obtain ⟨d, d1, d2, d3, d4⟩ := hask
  refine ⟨⟨d, d1, d2.grammar, ?_⟩, fun first rest hne => ?_⟩
  · obtain ⟨x, x1, x2⟩ := d2.isCycleFree
    have : x = b := by
      have := x2.trans hb.symm
      cases b <;> cases x <;> simp_all
    subst this
    exact ⟨_, x1⟩
  · have step : ∀ e, first.run c = .ok e → first.run d = .ok e → Settled b e →
        ∃ e f, first.run c = .ok e ∧
          CyclesCall.runAll c (List.replicate asks .ask ++ first :: rest) = .ok f ∧
          f.grammar = e.grammar ∧ f.isCycleFree = .ok (b, f) ∧
          f.cycleParticipants true = .ok [] ∧
          f.cycleParticipants false = .ok e.grammar.rules := by
      intro e e1 e2 e3
      refine ⟨e, e, e1, ?_, rfl, e3.ask, e3.participants.1, e3.participants.2⟩
      have := e3.runAll rest
      unfold CyclesCall.runAll at d1 this ⊢
      rw [List.foldlM_append, d1, Res.bind_ok, List.foldlM_cons, e2]
      exact this
    cases first with
    | ask => exact absurd rfl hne
    | remove => exact step cr r1 (by show d.removeCycles = _; rw [d3, r1]) r2
    | rewrite => exact step cw w1 (by show d.rewriteCycles = _; rw [d4, w1]) w2

/-- A grammar with a cycle, whose object is asked, rewritten, asked to remove and to rewrite. -/
example : exCycle.WF ∧ exCycle.LimitOk ∧
    (do
      let c ← Cycles.new exCycle
      let f ← CyclesCall.runAll c [.ask, .rewrite, .remove, .rewrite, .ask]
      let e ← c.rewriteCycles
      .ok (decide (f.grammar.rules = e.grammar.rules), decide (e.grammar.rules = exCycle.rules),
        f.cycleFree)) = Res.ok (true, false, some false) := by decide +kernel

end Verif
