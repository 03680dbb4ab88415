import Verif.Proofs.TreesFinite
import Verif.Props.Cycles
import Verif.Props.Nulling
import Verif.Props.Trees

/-! # Properties C108 and C109: cycles and infinitely many parse trees -/

namespace Verif

open Cycles

theorem Cfg.pairs_not_term {g : Cfg} : ∀ p ∈ g.pairs, ¬ g.Term p.1 := by
  intro p hp ht
  exact ((Cfg.term_iff_prod _).1 ht).2 p.2 (Cfg.mem_pairs.1 hp)

theorem Cfg.trees_finite {g : Cfg} (hne : ∀ r ∈ g.rules, r.rhs ≠ []) (hloop : ∀ A, ¬ g.prod A [A])
    (hfree : CycleFree g.prod) (A : Sym) (w : List Sym) : Finite (g.Trees A w) := by
  refine (forestSet_finite (rules := g.pairs) (T := g.Term) ?_
    (units_wellFounded (g.pairs_prod ▸ hfree) fun A h => hloop A (Cfg.mem_pairs.1 h)) [A] w).to_subtype
  intro p hp
  obtain ⟨r, hr, rfl⟩ := List.mem_map.1 hp
  exact hne r hr

theorem Cfg.trees_infinite {g : Cfg} {A : Sym}
    (h : Relation.TransGen (fun A B => g.prod A [B]) A A) {w : List Sym}
    (hne : Nonempty (g.Trees A w)) : Infinite (g.Trees A w) := by
  have h' : Relation.TransGen (fun A B => (A, [B]) ∈ g.pairs) A A :=
    Relation.TransGen.mono (fun _ _ h => Cfg.mem_pairs.2 h) _ _ h
  obtain ⟨t⟩ := hne
  exact (cycle_infinite Cfg.pairs_not_term h' ⟨t.1, t.2⟩).to_subtype

/-- **C108** (what holds): in a grammar without empty rules and without rules `A ::= A`,
`cycle_free()` returns true only if every string has finitely many parse trees. Missing: rules
`A ::= A`, see below. -/
theorem C108_finite_partial {g : Cfg} (hwf : g.WF) (hne : ∀ r ∈ g.rules, r.rhs ≠ [])
    (hloop : ∀ r ∈ g.rules, r.rhs ≠ [r.lhs]) :
    ∃ c b c', Cycles.new g = .ok c ∧ c.isCycleFree = .ok (b, c') ∧
      (b = true → ∀ A w, Finite (g.Trees A w)) := by
  obtain ⟨c, b, c', h1, h2, h3, -⟩ := C34_cycle_free hwf
  refine ⟨c, b, c', h1, h2, fun hb A w => g.trees_finite hne ?_ (h3.1 hb) A w⟩
  rintro A ⟨r, hr, rfl, e⟩
  exact hloop r hr e

/-- **C108**: if `cycle_free()` returns false, there is a symbol, the left side of a participating
rule, that has infinitely many parse trees of every string that it derives. -/
theorem C108_infinite {g : Cfg} (hwf : g.WF) :
    ∃ c b c' l, Cycles.new g = .ok c ∧ c.isCycleFree = .ok (b, c') ∧
      c.cycleParticipants true = .ok l ∧ (b = false → l ≠ []) ∧
      ∀ r ∈ l, ∀ w, g.Lang r.lhs w → Infinite (g.Trees r.lhs w) := by
  classical
  obtain ⟨c, h, hf⟩ := new_spec hwf
  obtain ⟨b, h1, -⟩ := hf.isCycleFree
  obtain ⟨c₁, b₁, c₁', l, e, e1, e2, e3⟩ := C34_free_iff_no_participant hwf
  obtain rfl : c₁ = c := by rw [h] at e; simpa using e.symm
  obtain ⟨c₂, e', e2', -⟩ := C34_participants hwf
  obtain rfl : c₂ = c₁ := by rw [h] at e'; simpa using e'.symm
  obtain rfl : l = _ := Res.ok.inj (e2.symm.trans e2')
  refine ⟨_, b₁, c₁', _, h, e1, e2, fun hb hl => ?_, fun r hr w hw => ?_⟩
  · rw [e3.2 hl] at hb; cases hb
  · obtain ⟨hr, hc⟩ := List.mem_filter.1 hr
    have hself := (decide_eq_true_iff.1 hc).self ⟨r, hr, rfl, rfl⟩
    exact g.trees_infinite (Relation.TransGen.mono (fun _ _ h => h.1) _ _ hself) ((g.lang_iff_trees _ _).1 hw)

/-- **C108**: if moreover every symbol derives some string, `cycle_free()` decides whether every
string has finitely many parse trees. -/
theorem C108_iff_partial {g : Cfg} (hwf : g.WF) (hne : ∀ r ∈ g.rules, r.rhs ≠ [])
    (hloop : ∀ r ∈ g.rules, r.rhs ≠ [r.lhs]) (hp : ∀ r ∈ g.rules, ∃ w, g.Lang r.lhs w) :
    ∃ c b c', Cycles.new g = .ok c ∧ c.isCycleFree = .ok (b, c') ∧
      (b = true ↔ ∀ A w, Finite (g.Trees A w)) := by
  obtain ⟨c, b, c', h1, h2, h3, -⟩ := C34_cycle_free hwf
  refine ⟨c, b, c', h1, h2, fun hb A w => g.trees_finite hne ?_ (h3.1 hb) A w, fun hfin => ?_⟩
  · rintro A ⟨r, hr, rfl, e⟩
    exact hloop r hr e
  · rw [h3]
    intro A hA
    obtain ⟨α, ⟨r, hr, rfl, -⟩, -⟩ := hA.rule
    obtain ⟨w, hw⟩ := hp r hr
    have := g.trees_infinite (Relation.TransGen.mono (fun _ _ h => h.1) _ _ hA) ((g.lang_iff_trees _ _).1 hw)
    exact not_finite_iff_infinite.2 this (hfin _ _)

example : exRoot.WF ∧ (∀ r ∈ exRoot.rules, r.rhs ≠ []) ∧ (∀ r ∈ exRoot.rules, r.rhs ≠ [r.lhs]) ∧
    ∀ r ∈ exRoot.rules, ∃ w, exRoot.Lang r.lhs w := by
  refine ⟨by decide +kernel, by decide +kernel, by decide +kernel, fun r hr => ?_⟩
  have h0 : exRoot.Lang 0 [2] := ⟨.prod (by decide +kernel), by decide +kernel⟩
  have h1 : exRoot.Lang 1 [3] := ⟨.prod (by decide +kernel), by decide +kernel⟩
  have : r.lhs = 0 ∨ r.lhs = 1 := by revert r; decide +kernel
  rcases this with e | e <;> rw [e]
  · exact ⟨_, h0⟩
  · exact ⟨_, h1⟩

/-- `A ::= A | a`. -/
def exSelf : Cfg :=
  { src := ⟨2, [none, none]⟩, rules := [⟨0, [0], {}⟩, ⟨0, [1], {}⟩], roots := [0] }

/-- **C108 is violated** by rules `A ::= A`: the grammar `A ::= A | a` is reported as cycle free and
left as it is by `remove_cycles` and `rewrite_cycles`, and `a` has infinitely many parse trees. -/
theorem C108_violated_self_loop :
    exSelf.WF ∧ (∀ r ∈ exSelf.rules, r.rhs ≠ []) ∧
      (do .ok (← (← Cycles.new exSelf).isCycleFree).1) = .ok true ∧
      (do .ok (← (← Cycles.new exSelf).removeCycles).grammar) = .ok exSelf ∧
      (do .ok (← (← Cycles.new exSelf).rewriteCycles).grammar) = .ok exSelf ∧
      Infinite (exSelf.Trees 0 [1]) := by
  refine ⟨by decide +kernel, by decide +kernel, by decide +kernel, by decide +kernel,
    by decide +kernel, exSelf.trees_infinite (.single (by decide +kernel)) ?_⟩
  exact (exSelf.lang_iff_trees _ _).1 ⟨.prod (by decide +kernel), by decide +kernel⟩

/-- Rewriting makes no rule `A ::= A`. -/
theorem collapsed_self {g : Cfg} {X : Sym} (h : collapsed g X [X]) : ∃ A, g.prod A [A] := by
  obtain ⟨A, α, hp, hc, rfl, e⟩ := h
  obtain ⟨B, rfl, hB⟩ : ∃ B, α = [B] ∧ rep g A = rep g B := by
    cases α with
    | nil => simp at e
    | cons B α =>
      cases α with
      | nil => exact ⟨B, rfl, by simpa using e⟩
      | cons => simp at e
  by_cases hAB : A = B
  · exact ⟨A, by rw [← hAB] at hp; exact hp⟩
  · exfalso
    refine hc ⟨B, rfl, ?_⟩
    rcases rep_cases g A with ⟨-, h1⟩ | ⟨h1, h2⟩ <;> rcases rep_cases g B with ⟨-, h3⟩ | ⟨h3, h4⟩
    · rw [hB] at h1; exact h3.2.trans h1.1
    · rw [hB, h4] at h1; exact (h3 (h1.1.trans h1.2)).elim
    · rw [← hB, h2] at h3; exact h3.2
    · exact (hAB (by rw [← h2, hB, h4])).elim

theorem rewritten_finite {g : Cfg} (hwf : g.WF) (hlim : g.LimitOk) (hne : ∀ r ∈ g.rules, r.rhs ≠ [])
    (hloop : ∀ r ∈ g.rules, r.rhs ≠ [r.lhs]) :
    ∃ c c', Cycles.new g = .ok c ∧ c.rewriteCycles = .ok c' ∧
      ∀ A w, Finite (c'.grammar.Trees A w) := by
  obtain ⟨c, h, hf⟩ := new_spec hwf
  obtain ⟨c', h1, h2, -, -, -, h3⟩ := hf.rewrite hwf hlim
  refine ⟨c, c', h, h1, fun A w => c'.grammar.trees_finite ?_ ?_ ?_ A w⟩
  · intro r hr e
    obtain ⟨A, α, ⟨r', hr', -, e'⟩, -, -, h4⟩ := h3 r hr (by simp [e])
    rw [e] at h4
    exact hne r' hr' (by rw [e', List.map_eq_nil_iff.1 h4.symm])
  · rintro A ⟨r, hr, rfl, e⟩
    have := h3 r hr (by simp [e])
    rw [e] at this
    obtain ⟨A, r', hr', e1, e2⟩ := collapsed_self this
    exact hloop r' hr' (by rw [e1, e2])
  · obtain ⟨c₂, c₂', e1, e2, d, d', e3, e4⟩ := C37_cycle_free hwf hlim
    obtain rfl : c₂ = c := by rw [h] at e1; simpa using e1.symm
    obtain rfl : c₂' = c' := by rw [h1] at e2; simpa using e2.symm
    obtain ⟨d₁, b, d₁', f1, f2, f3, -⟩ := C34_cycle_free h2.wf
    obtain rfl : d₁ = d := by rw [e3] at f1; simpa using f1.symm
    rw [e4] at f2
    cases f2
    exact f3.1 rfl

/-- **C109** (what holds), `rewrite_cycles()`: if a grammar has no empty rules and no rules
`A ::= A`, every string has finitely many parse trees in the rewritten grammar. -/
theorem C109_rewrite_partial {g : Cfg} (hwf : g.WF) (hlim : g.LimitOk)
    (hne : ∀ r ∈ g.rules, r.rhs ≠ []) (hloop : ∀ r ∈ g.rules, r.rhs ≠ [r.lhs]) :
    ∃ c c', Cycles.new g = .ok c ∧ c.rewriteCycles = .ok c' ∧
      ∀ A w, Finite (c'.grammar.Trees A w) := rewritten_finite hwf hlim hne hloop

example : exLimit.WF ∧ exLimit.LimitOk ∧ (∀ r ∈ exLimit.rules, r.rhs ≠ []) ∧
    ∀ r ∈ exLimit.rules, r.rhs ≠ [r.lhs] := by decide +kernel

theorem ElimSpec.wf {g g₁ g' res : Cfg} (hs : ElimSpec g g₁ g' res) : g'.WF := by
  rcases hs.prods with ⟨-, rfl⟩ | ⟨-, hp⟩
  · exact hs.inv.wf
  · have key : ∀ A α, g₁.prod A α → A < g'.numSyms ∧ ∀ s ∈ α, s < g'.numSyms := by
      rintro A α ⟨r, hr, rfl, rfl⟩
      rw [hs.syms.1]
      exact hs.inv.wf r hr
    intro r hr
    obtain ⟨⟨h1 | ⟨α, h1, a, b, rfl, h2⟩, -⟩, -⟩ := (hp r.lhs r.rhs).1 ⟨r, hr, rfl, rfl⟩
    · exact key _ _ h1
    · obtain ⟨h3, h4⟩ := key _ _ h1
      refine ⟨h3, fun s hs => h4 s ?_⟩
      rcases h2 with ⟨e, -⟩ | ⟨e, -⟩ <;> rw [e] at hs <;> simp [List.mem_singleton.1 hs]

/-- **C109** (what holds), nulling elimination followed by `rewrite_cycles()`: every string has
finitely many parse trees, if the elimination leaves no rule `A ::= A`. Missing: grammars where it
does, see below. -/
theorem C109_pipeline_partial {g : Cfg} (hwf : g.WF) :
    ∃ g₁ res, g.binarizeAndEliminateNulling = .ok (g₁, res) ∧
      ((∀ r ∈ g₁.rules, r.rhs ≠ [r.lhs]) →
        ∃ c c', Cycles.new g₁ = .ok c ∧ c.rewriteCycles = .ok c' ∧
          ∀ A w, Finite (c'.grammar.Trees A w)) := by
  obtain ⟨g₀, g₁, res, h, hs⟩ := elim_spec hwf
  obtain ⟨g₁', res', h', hb⟩ := C25_binary hwf
  obtain ⟨rfl, rfl⟩ := Prod.mk.inj (Res.ok.inj (h'.symm.trans h))
  refine ⟨_, _, h, rewritten_finite ?_ ?_ ?_⟩
  · exact hs.wf
  · intro n hn
    rw [hs.limit] at hn
    cases hn
    exact Nat.le_refl 2
  · intro r hr e
    have := (hb r hr).1
    rw [e] at this
    simp at this

/-- `S ::= A B C | s`, `A ::= ε | B a`, `B ::= ε | S`, `C ::= ε | c`: the elimination makes the
cycles. Symbols `S A B C s a c = 0 .. 6`. -/
def exElimCycle : Cfg :=
  { src := ⟨7, [none, none, none, none, none, none, none]⟩, roots := [0]
    rules := [⟨0, [1, 2, 3], {}⟩, ⟨0, [4], {}⟩, ⟨1, [], {}⟩, ⟨1, [2, 5], {}⟩, ⟨2, [], {}⟩,
      ⟨2, [0], {}⟩, ⟨3, [], {}⟩, ⟨3, [6], {}⟩] }

/-- The condition is met by a grammar with cycles after the elimination. -/
example : exElimCycle.WF ∧
    (do let p ← exElimCycle.binarizeAndEliminateNulling
        .ok (decide (∀ r ∈ p.1.rules, r.rhs ≠ [r.lhs]),
          (← (← Cycles.new p.1).isCycleFree).1)) = .ok (true, false) := by decide +kernel

/-- `S ::= S B | a`, `B ::= b | ε`. -/
def exElimSelf : Cfg :=
  { src := ⟨4, [none, none, none, none]⟩, roots := [0]
    rules := [⟨0, [0, 1], {}⟩, ⟨0, [2], {}⟩, ⟨1, [3], {}⟩, ⟨1, [], {}⟩] }

/-- The grammar after the elimination: `S ::= S B | a | S`, `B ::= b`. -/
def exElimSelfOut : Cfg :=
  { exElimSelf with rules := [⟨0, [0, 1], {}⟩, ⟨0, [2], {}⟩, ⟨1, [3], {}⟩, ⟨0, [0], {}⟩] }

theorem Cfg.trees_infinite_of_pairs {g g' : Cfg} (h : g'.pairs = g.pairs) (hs : g'.numSyms = g.numSyms)
    {A : Sym} {w : List Sym} (hinf : Infinite (g.Trees A w)) : Infinite (g'.Trees A w) := by
  have ht : g'.Term = g.Term := by
    funext s
    refine propext ?_
    rw [Cfg.term_iff_prod, Cfg.term_iff_prod, ← g.pairs_prod, ← g'.pairs_prod, h, hs]
  unfold Cfg.Trees at *
  rw [h, ht]
  exact hinf

/-- **C109 is violated**: without empty rules, cycles and unproductive symbols a grammar can still
have a string with infinitely many parse trees, because the elimination of nulling rules makes a
rule `S ::= S` from `S ::= S B` and `rewrite_cycles` leaves it in. -/
theorem C109_violated :
    exElimSelf.WF ∧ (∀ r ∈ exElimSelf.rules, r.rhs ≠ [r.lhs]) ∧
      ∃ g₁ res c c', exElimSelf.binarizeAndEliminateNulling = .ok (g₁, res) ∧
        Cycles.new g₁ = .ok c ∧ c.rewriteCycles = .ok c' ∧
        Infinite (c'.grammar.Trees 0 [2]) := by
  refine ⟨by decide +kernel, by decide +kernel, ?_⟩
  have key : (do
      let p ← exElimSelf.binarizeAndEliminateNulling
      let c' ← (← Cycles.new p.1).rewriteCycles
      .ok (c'.grammar.pairs, c'.grammar.numSyms)) =
        .ok (exElimSelfOut.pairs, exElimSelfOut.numSyms) := by decide +kernel
  obtain ⟨p, h1, key⟩ := Res.bind_eq_ok.1 key
  obtain ⟨c, h2, key⟩ := Res.bind_eq_ok.1 key
  obtain ⟨c', h3, key⟩ := Res.bind_eq_ok.1 key
  obtain ⟨e1, e2⟩ := Prod.mk.inj (Res.ok.inj key)
  refine ⟨p.1, p.2, c, c', h1, h2, h3, Cfg.trees_infinite_of_pairs e1 e2 ?_⟩
  refine exElimSelfOut.trees_infinite (.single (by decide +kernel)) ?_
  exact (exElimSelfOut.lang_iff_trees _ _).1 ⟨.prod (by decide +kernel), by decide +kernel⟩

end Verif
