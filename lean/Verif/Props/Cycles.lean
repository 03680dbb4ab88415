import Verif.Proofs.Cycles

/-! # Properties C34 – C38: cycles of one-symbol rules -/

namespace Verif

open Cycles

/-- `A ::= B | a`, `B ::= C | b`, `C ::= A | C c`, `D ::= A | D | d`; symbols
`A B C D a b c d = 0 .. 7`. -/
def exCycle : Cfg :=
  { src := ⟨8, [none, none, none, none, none, none, none, none]⟩
    rules := [⟨0, [1], {}⟩, ⟨0, [4], {}⟩, ⟨1, [2], {}⟩, ⟨1, [5], {}⟩, ⟨2, [0], {}⟩,
      ⟨2, [2, 6], {}⟩, ⟨3, [0], {}⟩, ⟨3, [3], {}⟩, ⟨3, [7], {}⟩]
    roots := [3, 1] }

theorem exCycle_wf : exCycle.WF := by decide +kernel

/-- **C34.** `cycle_free` returns true exactly when no symbol derives itself through a chain of
one-symbol rules between different symbols. -/
theorem C34_cycle_free {g : Cfg} (hwf : g.WF) :
    ∃ c b c', Cycles.new g = .ok c ∧ c.isCycleFree = .ok (b, c') ∧
      (b = true ↔ CycleFree g.prod) ∧ c'.isCycleFree = .ok (b, c') := by
  obtain ⟨c, h, hf⟩ := new_spec hwf
  obtain ⟨b, h1, h2⟩ := hf.isCycleFree
  exact ⟨c, b, _, h, h1, h2, rfl⟩

open Classical in
/-- **C34.** The rules reported as participants are exactly the one-symbol rules `A ::= B` from
whose right side a chain leads back to `A`; the others are reported as non-participants. The
order is that of the grammar. -/
theorem C34_participants {g : Cfg} (hwf : g.WF) :
    ∃ c, Cycles.new g = .ok c ∧
      c.cycleParticipants true = .ok (g.rules.filter fun r => CycleRule g.prod r.lhs r.rhs) ∧
      c.cycleParticipants false =
        .ok (g.rules.filter fun r => ¬ CycleRule g.prod r.lhs r.rhs) := by
  obtain ⟨c, h, hf⟩ := new_spec hwf
  exact ⟨c, h, hf.participants hwf⟩

example : (do .ok (← (← Cycles.new exCycle).isCycleFree).1) = .ok false := by decide +kernel
example : (do (← Cycles.new exCycle).cycleParticipants true) =
    .ok [⟨0, [1], {}⟩, ⟨1, [2], {}⟩, ⟨2, [0], {}⟩] := by decide +kernel

/-- A symbol lies on a cycle exactly when it is the left side of a participating rule; so the
cycle-free answer is "no participants". -/
theorem C34_free_iff_no_participant {g : Cfg} (hwf : g.WF) :
    ∃ c b c' l, Cycles.new g = .ok c ∧ c.isCycleFree = .ok (b, c') ∧
      c.cycleParticipants true = .ok l ∧ (b = true ↔ l = []) := by
  classical
  obtain ⟨c, h, hf⟩ := new_spec hwf
  obtain ⟨b, h1, h2⟩ := hf.isCycleFree
  refine ⟨c, b, _, _, h, h1, (hf.participants hwf).1, ?_⟩
  rw [h2, List.filter_eq_nil_iff]
  constructor
  · intro hfree r hr hc
    exact hfree r.lhs ((decide_eq_true_iff.1 hc).self ⟨r, hr, rfl, rfl⟩)
  · intro hn A hA
    obtain ⟨α, ⟨r, hr, rfl, rfl⟩, hc⟩ := hA.rule
    exact hn r hr (decide_eq_true_iff.2 hc)

open Classical in
/-- **C35.** `remove_cycles` removes exactly the participating rules and nothing else, and a
fresh analysis of the result reports it as cycle free. -/
theorem C35_remove_cycles {g : Cfg} (hwf : g.WF) :
    ∃ c c', Cycles.new g = .ok c ∧ c.removeCycles = .ok c' ∧
      c'.grammar = { g with rules := g.rules.filter fun r =>
                                       ¬ CycleRule g.prod r.lhs r.rhs } ∧
      ∃ d d', Cycles.new c'.grammar = .ok d ∧ d.isCycleFree = .ok (true, d') := by
  obtain ⟨c, h, hf⟩ := new_spec hwf
  obtain ⟨b, h1, -⟩ := hf.removeCycles hwf
  refine ⟨c, _, h, h1, rfl, ?_⟩
  obtain ⟨d, h3, hd⟩ := new_spec (g := { g with
    rules := g.rules.filter fun r => ¬ CycleRule g.prod r.lhs r.rhs })
    (fun r hr => hwf r (List.mem_of_mem_filter hr))
  obtain ⟨b', h4, h5⟩ := hd.isCycleFree
  have : b' = true := by
    rw [h5]
    refine cycleFree_of_no_rule (P := g.prod) ?_ ?_
    · rintro A α ⟨r, hr, e⟩; exact ⟨r, List.mem_of_mem_filter hr, e⟩
    · rintro A α ⟨r, hr, rfl, rfl⟩
      simpa using (List.mem_filter.1 hr).2
  subst this
  exact ⟨d, _, h3, h4⟩

example : (do .ok (← (← Cycles.new exCycle).removeCycles).grammar.rules) =
    .ok [⟨0, [4], {}⟩, ⟨1, [5], {}⟩, ⟨2, [2, 6], {}⟩, ⟨3, [0], {}⟩, ⟨3, [3], {}⟩,
      ⟨3, [7], {}⟩] := by decide +kernel

/-- `A ::= B | a`, `B ::= A | b`, root `B`; symbols `A B a b = 0 .. 3`. -/
def exRoot : Cfg :=
  { src := ⟨4, [none, none, none, none]⟩
    rules := [⟨0, [1], {}⟩, ⟨0, [2], {}⟩, ⟨1, [0], {}⟩, ⟨1, [3], {}⟩]
    roots := [1] }

/-- The result of rewriting `exRoot`: `A ::= a | b`, root still `B`. -/
def exRootOut : Cfg := { exRoot with rules := [⟨0, [2], {}⟩, ⟨0, [3], {}⟩] }

/-- **C36 is violated.** After `rewrite_cycles` the root `B` of `exRoot` has no rules left, so it
no longer derives `b`. -/
theorem C36_violated_root :
    exRoot.WF ∧ (do .ok (← (← Cycles.new exRoot).rewriteCycles).grammar) = .ok exRootOut ∧
      1 ∈ exRoot.roots ∧ exRoot.Lang 1 [3] ∧ ¬ exRootOut.Lang 1 [3] := by
  refine ⟨by decide +kernel, by decide +kernel, by decide +kernel,
    ⟨.prod (by decide +kernel), by decide +kernel⟩, ?_⟩
  rintro ⟨d, -⟩
  rcases Der.single_iff.1 (derives_iff_der.1 d) with h | ⟨α, ⟨r, hr, h, -⟩, -⟩
  · simp at h
  · rcases List.mem_cons.1 hr with rfl | hr
    · simp at h
    · obtain rfl := List.mem_singleton.1 hr
      simp at h

/-- **C36, partial.** `rewrite_cycles` returns. Let `τ s` be the left side of the first rule that
lies on a cycle through `s`, and `s` itself if `s` is on no cycle. Then afterwards `τ s` derives
exactly the terminal strings that `s` derived before. In particular the language of every root
with `τ root = root` is preserved. What is missing: roots that are replaced by another symbol
(see `C36_violated_root`). -/
theorem C36_language_partial {g : Cfg} (hwf : g.WF) (hlim : g.LimitOk) :
    ∃ c c', Cycles.new g = .ok c ∧ c.rewriteCycles = .ok c' ∧ c'.grammar.roots = g.roots ∧
      ∃ τ : Sym → Sym,
        (∀ s, ¬ UnitChain g.prod s s → τ s = s) ∧
        (∀ s, UnitChain g.prod s s → ∃ r pre post, g.rules = pre ++ r :: post ∧
          CycleRule g.prod r.lhs r.rhs ∧ SameCycle g.prod r.lhs s ∧ τ s = r.lhs ∧
          ∀ r' ∈ pre, ¬ (CycleRule g.prod r'.lhs r'.rhs ∧ SameCycle g.prod r'.lhs s)) ∧
        ∀ s, s < g.numSyms → ∀ w,
          (InLang c'.grammar.prod g.Term (τ s) w ↔ InLang g.prod g.Term s w) := by
  classical
  obtain ⟨c, h, hf⟩ := new_spec hwf
  obtain ⟨c', h1, h2, h3, -⟩ := hf.rewrite hwf hlim
  refine ⟨c, c', h, h1, h3, rep g, fun s hs => ?_, fun s hs => ?_, fun s hs w => ?_⟩
  · rcases rep_cases g s with ⟨h, -⟩ | ⟨-, h⟩
    · exact (hs h).elim
    · exact h
  · cases e : firstOn g.prod g.rules s with
    | none =>
      obtain ⟨α, ⟨r, hr, h1, rfl⟩, hc⟩ := hs.rule
      rw [firstOn, List.find?_eq_none] at e
      have := e r hr
      simp only [decide_eq_true_iff, not_and] at this
      rw [h1] at this
      exact (this hc ⟨hs, hs⟩).elim
    | some r =>
      have hrep : rep g s = r.lhs := by rw [rep, e]; rfl
      rw [firstOn, List.find?_eq_some_iff_append] at e
      obtain ⟨h1, pre, post, h2, h3⟩ := e
      rw [decide_eq_true_iff] at h1
      exact ⟨r, pre, post, h2, h1.1, h1.2, hrep, fun r' hr' hh => by
        have := h3 r' hr'
        rw [decide_eq_true (p := _ ∧ _) hh] at this
        simp at this⟩
  · rw [inLang_iff, inLang_iff]
    refine and_congr_left fun hT => ?_
    have hd := h2.derives (rep_lt hwf hs) (w := w) fun x hx => (hT x hx).1
    rw [derives_iff_der, derives_iff_der] at hd
    rw [hd]
    exact der_collapsed s fun a ha α hp => ((Cfg.term_iff_prod a).1 (hT a ha)).2 α hp

example : (do .ok (← (← Cycles.new exCycle).rewriteCycles).grammar.rules) =
    .ok [⟨0, [4], {}⟩, ⟨3, [0], {}⟩, ⟨3, [3], {}⟩, ⟨3, [7], {}⟩, ⟨0, [5], {}⟩,
      ⟨0, [0, 6], {}⟩] := by decide +kernel
example : exCycle.LimitOk := by decide +kernel

/-- **C37.** After `rewrite_cycles` a fresh analysis reports the grammar as cycle free. -/
theorem C37_cycle_free {g : Cfg} (hwf : g.WF) (hlim : g.LimitOk) :
    ∃ c c', Cycles.new g = .ok c ∧ c.rewriteCycles = .ok c' ∧
      ∃ d d', Cycles.new c'.grammar = .ok d ∧ d.isCycleFree = .ok (true, d') := by
  obtain ⟨c, h, hf⟩ := new_spec hwf
  obtain ⟨c', h1, h2, -, -, -, h3⟩ := hf.rewrite hwf hlim
  obtain ⟨d, h4, hd⟩ := new_spec h2.wf
  obtain ⟨b, h5, h6⟩ := hd.isCycleFree
  have : b = true := by
    rw [h6]
    intro A hA
    have key : ∀ a b, UnitStep c'.grammar.prod a b → UnitStep (collapsed g) a b := by
      rintro a b ⟨⟨r, hr, rfl, e⟩, hne⟩
      exact ⟨e ▸ h3 r hr (by simp [e]), hne⟩
    have key' : ∀ a b, UnitChain c'.grammar.prod a b → UnitChain (collapsed g) a b := by
      intro a b h
      induction h with
      | single h => exact .single (key _ _ h)
      | tail _ h ih => exact .tail ih (key _ _ h)
    exact collapsed_cycleFree g A (key' A A hA)
  subst this
  exact ⟨c, c', h, h1, d, _, h4, h5⟩

/-- A grammar with limit 2 and a cycle: `A ::= B | a a`, `B ::= A | b`. -/
def exLimit : Cfg :=
  { src := ⟨4, [none, none, none, none]⟩
    rules := [⟨0, [1], {}⟩, ⟨0, [2, 2], {}⟩, ⟨1, [0], {}⟩, ⟨1, [3], {}⟩]
    roots := [0], rhsLenInvariant := some 2 }
example : exLimit.WF ∧ exLimit.LimitOk := by decide +kernel
example : (do .ok (← (← Cycles.new exLimit).rewriteCycles).grammar.rules) =
    .ok [⟨0, [2, 2], {}⟩, ⟨0, [3], {}⟩] := by decide +kernel

/-- **C38 is violated.** The answer is cached: after `remove_cycles` or `rewrite_cycles` the same
object keeps reporting a cycle although a fresh analysis of its grammar finds none. This holds
for every well-formed grammar that has a cycle. -/
theorem C38_violated_cache {g : Cfg} (hwf : g.WF) (hcyc : ¬ CycleFree g.prod) :
    ∃ c c', Cycles.new g = .ok c ∧ c.removeCycles = .ok c' ∧
      c'.isCycleFree = .ok (false, c') ∧
      ∃ d d', Cycles.new c'.grammar = .ok d ∧ d.isCycleFree = .ok (true, d') := by
  classical
  obtain ⟨c, h, hf⟩ := new_spec hwf
  obtain ⟨b, h1, h2⟩ := hf.removeCycles hwf
  obtain ⟨c₁, c₁', e1, e2, -, d, d', e4, e5⟩ := C35_remove_cycles hwf
  obtain rfl : c₁ = c := by rw [h] at e1; simpa using e1.symm
  have e6 : Res.ok c₁' = Res.ok _ := e2.symm.trans h1
  have hb : b = false := by
    cases b
    · rfl
    · exact (hcyc (h2.1 rfl)).elim
  subst hb
  refine ⟨c₁, c₁', h, e2, ?_, d, d', e4, e5⟩
  simp only [Res.ok.injEq] at e6
  rw [e6]
  rfl

example : ¬ CycleFree exCycle.prod := fun h => h 0
  ((Relation.TransGen.single ⟨by decide +kernel, by decide⟩ :
    UnitChain exCycle.prod 0 1).tail ⟨(by decide +kernel : exCycle.prod 1 [2]), by decide⟩ |>.tail
    ⟨by decide +kernel, by decide⟩)

/-- **C38, partial.** On a grammar without cycles the answer stays true, and nothing is
changed by `remove_cycles` and `rewrite_cycles`. What is missing: grammars with a cycle, where
the claim is false. -/
theorem C38_cycle_free_partial {g : Cfg} (hwf : g.WF) (hfree : CycleFree g.prod) :
    ∃ c c', Cycles.new g = .ok c ∧ c.removeCycles = .ok c' ∧ c.rewriteCycles = .ok c' ∧
      c'.grammar = g ∧ c'.isCycleFree = .ok (true, c') := by
  obtain ⟨c, h, hf⟩ := new_spec hwf
  obtain ⟨b, h1, h2⟩ := hf.isCycleFree
  obtain rfl : b = true := h2.2 hfree
  refine ⟨c, { c with cycleFree := some true }, h, ?_, ?_, hf.grammar, rfl⟩
  · rw [removeCycles, h1]; simp
  · rw [rewriteCycles, h1]; simp

example : CycleFree exRootOut.prod := fun A hA => by
  obtain ⟨c, h, h'⟩ := hA.head
  obtain ⟨⟨r, hr, e1, e2⟩, -⟩ := h
  have hc : c = 2 ∨ c = 3 := by
    rcases List.mem_cons.1 hr with rfl | hr
    · simp at e2; exact .inl e2.symm
    · obtain rfl := List.mem_singleton.1 hr
      simp at e2; exact .inr e2.symm
  have hA' : A = 0 := by
    rcases List.mem_cons.1 hr with rfl | hr
    · exact e1.symm
    · obtain rfl := List.mem_singleton.1 hr; exact e1.symm
  rcases h' with h' | h'
  · omega
  · obtain ⟨d, ⟨⟨r', hr', e3, -⟩, -⟩, -⟩ := h'.head
    rcases List.mem_cons.1 hr' with rfl | hr'
    · simp at e3; omega
    · obtain rfl := List.mem_singleton.1 hr'
      simp at e3; omega

end Verif
