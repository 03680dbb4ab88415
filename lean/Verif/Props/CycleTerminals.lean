import Verif.Props.Cycles
import Verif.Props.CycleHistory

/-! # Property C151: nonterminals that become terminals when cycles are removed or rewritten -/

namespace Verif

open Cycles

/-- `S ::= A`, `S ::= x`, `A ::= B`, `B ::= A`, root `S`; symbols `S A B x = 0 .. 3`. -/
def exDeadCycle : Cfg :=
  { src := ⟨4, [none, none, none, none]⟩
    rules := [⟨0, [1], {}⟩, ⟨0, [3], {}⟩, ⟨1, [2], {}⟩, ⟨2, [1], {}⟩]
    roots := [0] }

/-- What both passes make of `exDeadCycle`. -/
def exDeadCycleOut : Cfg := { exDeadCycle with rules := [⟨0, [1], {}⟩, ⟨0, [3], {}⟩] }

/-- **C151** fails: in `S ::= A | x`, `A ::= B`, `B ::= A` both passes remove all rules of `A` and
keep `S ::= A`. The symbol `A`, which derives no string of terminals before, is a terminal
afterwards, and the root derives it. -/
theorem C151_violated :
    exDeadCycle.WF ∧
    (do .ok (← (← Cycles.new exDeadCycle).rewriteCycles).grammar) = .ok exDeadCycleOut ∧
    (do .ok (← (← Cycles.new exDeadCycle).removeCycles).grammar) = .ok exDeadCycleOut ∧
    0 ∈ exDeadCycle.roots ∧
    ¬ exDeadCycle.Term 1 ∧ ¬ exDeadCycle.Lang 0 [1] ∧ exDeadCycleOut.Lang 0 [1] := by
  have ht : ¬ exDeadCycle.Term 1 := by decide +kernel
  refine ⟨by decide +kernel, by decide +kernel, by decide +kernel, by decide +kernel, ht,
    fun h => ht (h.2 1 (by simp)), .prod (by decide +kernel), by decide +kernel⟩

/-- `A ::= B`, `A ::= a`, `B ::= A`, `S ::= B`, root `S`; symbols `S A B a = 0 .. 3`. -/
def exLostRule : Cfg :=
  { src := ⟨4, [none, none, none, none]⟩
    rules := [⟨1, [2], {}⟩, ⟨1, [3], {}⟩, ⟨2, [1], {}⟩, ⟨0, [2], {}⟩]
    roots := [0] }

/-- **C151** fails for `remove_cycles` although all symbols are productive: in `A ::= B | a`,
`B ::= A`, `S ::= B` the symbol `B` loses its only rule and is a terminal afterwards. -/
theorem C151_violated_removed :
    exLostRule.WF ∧
    (do .ok (← (← Cycles.new exLostRule).removeCycles).grammar) =
      .ok { exLostRule with rules := [⟨1, [3], {}⟩, ⟨0, [2], {}⟩] } ∧
    exLostRule.Lang 2 [3] ∧ ¬ exLostRule.Term 2 ∧
    ({ exLostRule with rules := [⟨1, [3], {}⟩, ⟨0, [2], {}⟩] } : Cfg).Lang 0 [2] := by
  refine ⟨by decide +kernel, by decide +kernel, ⟨?_, by decide +kernel⟩, by decide +kernel,
    .prod (by decide +kernel), by decide +kernel⟩
  exact derives_iff_der.2 (Der.single_iff.2 (.inr ⟨[1], by decide +kernel,
    Der.single_iff.2 (.inr ⟨[3], by decide +kernel, .refl _⟩)⟩))

/-- **C151, partial**, for `remove_cycles`: a symbol is a terminal afterwards exactly when all its
rules, if any, lay on cycles; so if every left side has a rule off the cycles, the terminals are
the same as before. What is missing: symbols all whose rules lie on cycles may stay on the right of
rules (see `C151_violated`, `C151_violated_removed`). -/
theorem C151_removed_partial {g : Cfg} (hwf : g.WF) :
    ∃ c c', Cycles.new g = .ok c ∧ c.removeCycles = .ok c' ∧
      (∀ s, c'.grammar.Term s ↔
        s < g.numSyms ∧ ∀ r ∈ g.rules, r.lhs = s → CycleRule g.prod r.lhs r.rhs) ∧
      ((∀ r ∈ g.rules, ∃ r' ∈ g.rules, r'.lhs = r.lhs ∧ ¬ CycleRule g.prod r'.lhs r'.rhs) →
        ∀ s, c'.grammar.Term s ↔ g.Term s) := by
  obtain ⟨c, c', h1, h2, h3, -⟩ := C35_remove_cycles hwf
  have ht : ∀ s, c'.grammar.Term s ↔
      s < g.numSyms ∧ ∀ r ∈ g.rules, r.lhs = s → CycleRule g.prod r.lhs r.rhs := by
    intro s
    rw [h3]
    unfold Cfg.Term
    refine and_congr Iff.rfl ⟨fun h r hr e => ?_, fun h r hr e => ?_⟩
    · by_contra hc
      exact h r (List.mem_filter.2 ⟨hr, by simpa using hc⟩) e
    · obtain ⟨hr, hc⟩ := List.mem_filter.1 hr
      exact (by simpa using hc : ¬ CycleRule g.prod r.lhs r.rhs) (h r hr e)
  refine ⟨c, c', h1, h2, ht, fun hx s => (ht s).trans (and_congr Iff.rfl
    ⟨fun h r hr e => ?_, fun h r hr e => (h r hr e).elim⟩)⟩
  obtain ⟨r', hr', e', hc⟩ := hx r hr
  exact hc (h r' hr' (e'.trans e))

/-- The first element of a list with a property is unique. -/
theorem first_unique {α : Type} {p : α → Prop} {r r' : α} {pre post pre' post' : List α}
    (e : pre ++ r :: post = pre' ++ r' :: post') (h : p r) (h' : p r') (hp : ∀ x ∈ pre, ¬ p x)
    (hp' : ∀ x ∈ pre', ¬ p x) : r = r' := by
  rcases List.append_eq_append_iff.1 e with ⟨m, ha, hb⟩ | ⟨m, ha, hb⟩
  · cases m with
    | nil => simp at hb; exact hb.1
    | cons x m =>
      simp at hb
      exact (hp' r (by rw [ha, hb.1]; simp) h).elim
  · cases m with
    | nil => simp at hb; exact hb.1.symm
    | cons x m =>
      simp at hb
      exact (hp r' (by rw [ha, hb.1]; simp) h').elim

/-- Some rule leaves the cycle of a productive symbol: without one, a derivation of terminals never
gets rid of the symbols on the cycle. -/
theorem cycle_exit {g : Cfg} {s₀ : Sym} (hc : UnitChain g.prod s₀ s₀)
    (hprod : Productive g.prod g.Term s₀)
    (h : ∀ r ∈ g.rules, SameCycle g.prod r.lhs s₀ → CycleRule g.prod r.lhs r.rhs) : False := by
  obtain ⟨w, d, hw⟩ := hprod
  have key : ∀ u v, Der g.prod u v → (∀ a ∈ v, g.Term a) →
      ∀ a, SameCycle g.prod a s₀ → a ∉ u := by
    intro u v d
    induction d with
    | nil => simp
    | keep A _ ih =>
      intro hv a ha hu
      rcases List.mem_cons.1 hu with rfl | hu
      · obtain ⟨α, ⟨r', hr', e', -⟩, -⟩ := (ha.1.trans ha.2).rule
        exact (hv a (by simp)).2 r' hr' e'
      · exact ih (fun b hb => hv b (by simp [hb])) a ha hu
    | expand hp _ _ ih1 ih2 =>
      intro hv a ha hu
      rcases List.mem_cons.1 hu with rfl | hu
      · obtain ⟨r, hr, e1, e2⟩ := hp
        obtain ⟨B, hB, hch⟩ := h r hr (e1 ▸ ha)
        rw [e1] at hch
        have hBs : SameCycle g.prod B s₀ := by
          refine ⟨hch.trans ha.1, ha.2.trans ?_⟩
          by_cases eB : a = B
          · rw [← eB]; exact ha.1.trans ha.2
          · exact Relation.TransGen.single (r := UnitStep g.prod)
              ⟨⟨r, hr, e1, hB⟩, eB⟩
        exact ih1 (fun b hb => hv b (by simp [hb])) B hBs (by rw [← e2, hB]; simp)
      · exact ih2 (fun b hb => hv b (by simp [hb])) a ha hu
  exact key _ _ (derives_iff_der.1 d) hw s₀ ⟨hc, hc⟩ (by simp)

/-- **C151, partial**, for `rewrite_cycles` on grammars whose rules respect their limit of lengths.
Let `τ s` be the left side of the first rule on a cycle through `s`, or `s` when there is none.
All symbols of the new rules have the form `τ s`, and `τ s` is a terminal afterwards exactly when
`s` was one before or `s` is on a cycle and all rules of the symbols on it are rules of the cycle.
So if every symbol on a cycle derives a string of terminals, the new rules have no symbol that has
become a terminal. What is missing: cycles without a way out (see `C151_violated`). -/
theorem C151_rewritten_partial {g : Cfg} (hwf : g.WF) (hlen : ∀ n, g.rhsLenInvariant = some n →
      2 ≤ n ∧ ∀ r ∈ g.rules, r.rhs.length ≤ n) :
    ∃ c c', Cycles.new g = .ok c ∧ c.rewriteCycles = .ok c' ∧
      ∃ τ : Sym → Sym,
        (∀ s, ¬ UnitChain g.prod s s → τ s = s) ∧
        (∀ s, UnitChain g.prod s s → ∃ r pre post, g.rules = pre ++ r :: post ∧
          CycleRule g.prod r.lhs r.rhs ∧ SameCycle g.prod r.lhs s ∧ τ s = r.lhs ∧
          ∀ r' ∈ pre, ¬ (CycleRule g.prod r'.lhs r'.rhs ∧ SameCycle g.prod r'.lhs s)) ∧
        (∀ s, c'.grammar.Used s → ∃ s₀, g.Used s₀ ∧ s = τ s₀) ∧
        (∀ s, s < g.numSyms → (c'.grammar.Term (τ s) ↔ g.Term s ∨ (UnitChain g.prod s s ∧
          ∀ r ∈ g.rules, SameCycle g.prod r.lhs s → CycleRule g.prod r.lhs r.rhs))) ∧
        ((∀ s, UnitChain g.prod s s → Productive g.prod g.Term s) →
          ∀ s, c'.grammar.Used s → (c'.grammar.Term s ↔ g.Term s)) := by
  obtain ⟨c, c', h1, h2, τ, h3, h4, h5⟩ := C149_rules hwf hlen
  have hlim : g.LimitOk := fun n hn => (hlen n hn).1
  -- the rules of the new grammar
  have hm : ∀ q, q ∈ c'.grammar.rules ↔
      ∃ r ∈ g.rules, ¬ CycleRule g.prod r.lhs r.rhs ∧ q = substRule τ r := by
    intro q
    rw [h5]
    simp only [List.mem_append, List.mem_map, List.mem_filter, decide_eq_true_iff]
    constructor
    · rintro (⟨hq, hc, e⟩ | ⟨r, ⟨hr, hc, -⟩, rfl⟩)
      · exact ⟨q, hq, hc, e.symm⟩
      · exact ⟨r, hr, hc, rfl⟩
    · rintro ⟨r, hr, hc, rfl⟩
      by_cases e : substRule τ r = r
      · left; rw [e]; exact ⟨hr, hc, e⟩
      · right; exact ⟨r, ⟨hr, hc, e⟩, rfl⟩
  have hn : c'.grammar.numSyms = g.numSyms := by rw [h5]; rfl
  -- symbols of one cycle have the same representative
  have hsame : ∀ s t, SameCycle g.prod s t → τ s = τ t := by
    intro s t hst
    obtain ⟨r, pre, post, e, hc, hs, ht, hp⟩ := h4 s (hst.1.trans hst.2)
    obtain ⟨r', pre', post', e', hc', hs', ht', hp'⟩ := h4 t (hst.2.trans hst.1)
    rw [ht, ht', first_unique (e.symm.trans e') (p := fun q => CycleRule g.prod q.lhs q.rhs ∧
      SameCycle g.prod q.lhs s) ⟨hc, hs⟩ ⟨hc', SameCycle.trans hs' hst.symm⟩ hp
      fun x hx hh => hp' x hx ⟨hh.1, SameCycle.trans hh.2 hst⟩]
  have hcyc : ∀ s, UnitChain g.prod s s → SameCycle g.prod (τ s) s := by
    intro s hs
    obtain ⟨r, -, -, -, -, h, e, -⟩ := h4 s hs
    rw [e]; exact h
  have hlt : ∀ s, s < g.numSyms → τ s < g.numSyms := by
    intro s hs
    by_cases hc : UnitChain g.prod s s
    · obtain ⟨r, pre, post, e, -, -, e', -⟩ := h4 s hc
      rw [e']
      exact (hwf r (by rw [e]; simp)).1
    · rw [h3 s hc]; exact hs
  have hterm : ∀ s, s < g.numSyms → (c'.grammar.Term (τ s) ↔ g.Term s ∨ (UnitChain g.prod s s ∧
      ∀ r ∈ g.rules, SameCycle g.prod r.lhs s → CycleRule g.prod r.lhs r.rhs)) := by
    intro s hs
    constructor
    · rintro ⟨-, ht⟩
      by_cases hc : UnitChain g.prod s s
      · refine .inr ⟨hc, fun r hr hrs => ?_⟩
        by_contra hx
        exact ht _ ((hm _).2 ⟨r, hr, hx, rfl⟩) (hsame _ _ hrs)
      · refine .inl ⟨hs, fun r hr e => ?_⟩
        have hx : ¬ CycleRule g.prod r.lhs r.rhs := fun hx =>
          hc (e ▸ hx.self ⟨r, hr, rfl, rfl⟩)
        exact ht _ ((hm _).2 ⟨r, hr, hx, rfl⟩) (by show τ r.lhs = τ s; rw [e])
    · intro h
      refine ⟨by rw [hn]; exact hlt s hs, fun q hq e => ?_⟩
      obtain ⟨r, hr, hx, rfl⟩ := (hm q).1 hq
      have e : τ r.lhs = τ s := e
      by_cases hc : UnitChain g.prod s s
      · have hrs : SameCycle g.prod r.lhs s := by
          by_cases hc' : UnitChain g.prod r.lhs r.lhs
          · have := (hcyc _ hc').symm
            rw [e] at this
            exact SameCycle.trans this (hcyc s hc)
          · rw [h3 _ hc'] at e
            rw [e]; exact hcyc s hc
        rcases h with h | ⟨-, h⟩
        · obtain ⟨α, ⟨r', hr', e', -⟩, -⟩ := hc.rule
          exact h.2 r' hr' e'
        · exact hx (h r hr hrs)
      · rcases h with h | ⟨h, -⟩
        · rw [h3 s hc] at e
          by_cases hc' : UnitChain g.prod r.lhs r.lhs
          · have := hcyc _ hc'
            rw [e] at this
            exact hc (this.1.trans this.2)
          · rw [h3 _ hc'] at e
            exact h.2 r hr e
        · exact hc h
  have hused : ∀ s, c'.grammar.Used s → ∃ s₀, g.Used s₀ ∧ s = τ s₀ := by
    rintro s ⟨q, hq, h⟩
    obtain ⟨r, hr, -, rfl⟩ := (hm q).1 hq
    rcases h with h | h
    · exact ⟨r.lhs, ⟨r, hr, .inl rfl⟩, h.symm⟩
    · obtain ⟨s₀, hs₀, e⟩ := List.mem_map.1 h
      exact ⟨s₀, ⟨r, hr, .inr hs₀⟩, e.symm⟩
  refine ⟨c, c', h1, h2, τ, h3, h4, hused, hterm, fun hprod s hs => ?_⟩
  obtain ⟨s₀, ⟨r₀, hr₀, hu⟩, rfl⟩ := hused s hs
  have hs₀ : s₀ < g.numSyms := by
    rcases hu with rfl | hu
    · exact (hwf r₀ hr₀).1
    · exact (hwf r₀ hr₀).2 _ hu
  rw [hterm s₀ hs₀]
  by_cases hc : UnitChain g.prod s₀ s₀
  · have ha : ¬ g.Term s₀ := by
      intro h
      obtain ⟨α, ⟨r', hr', e', -⟩, -⟩ := hc.rule
      exact h.2 r' hr' e'
    have hb : ¬ g.Term (τ s₀) := by
      intro h
      obtain ⟨r, pre, post, e, -, -, e', -⟩ := h4 s₀ hc
      exact h.2 r (by rw [e]; simp) e'.symm
    refine iff_of_false ?_ hb
    rintro (h | ⟨-, h⟩)
    · exact ha h
    · exact cycle_exit hc (hprod s₀ hc) h
  · rw [h3 s₀ hc]
    constructor
    · rintro (h | ⟨h, -⟩)
      · exact h
      · exact (hc h).elim
    · exact .inl

/-- `A ::= B`, `A ::= a`, `B ::= A`, `C ::= D`, `D ::= C`, `S ::= B`, `S ::= D`; symbols
`S A B a C D = 0 .. 5`. -/
def exTwoCycles : Cfg :=
  { src := ⟨6, [none, none, none, none, none, none]⟩
    rules := [⟨1, [2], {}⟩, ⟨1, [3], {}⟩, ⟨2, [1], {}⟩, ⟨4, [5], {}⟩, ⟨5, [4], {}⟩, ⟨0, [2], {}⟩,
      ⟨0, [5], {}⟩]
    roots := [0] }

example : exTwoCycles.WF := by decide +kernel
example : ∀ n, exTwoCycles.rhsLenInvariant = some n →
    2 ≤ n ∧ ∀ r ∈ exTwoCycles.rules, r.rhs.length ≤ n := by simp [exTwoCycles]
example : (do .ok (← (← Cycles.new exTwoCycles).rewriteCycles).grammar.rules) =
    .ok [⟨1, [3], {}⟩, ⟨0, [1], {}⟩, ⟨0, [4], {}⟩] := by decide +kernel

/-- In `exLostRule` every symbol on a cycle derives `a`. -/
example (s : Sym) (h : UnitChain exLostRule.prod s s) :
    Productive exLostRule.prod exLostRule.Term s := by
  obtain ⟨α, ⟨r, hr, rfl, rfl⟩, -⟩ := h.rule
  have h1 : Der exLostRule.prod [1] [3] :=
    Der.single_iff.2 (.inr ⟨[3], by decide +kernel, .refl _⟩)
  have h2 : Der exLostRule.prod [2] [3] := Der.single_iff.2 (.inr ⟨[1], by decide +kernel, h1⟩)
  have ht : ∀ a ∈ ([3] : List Sym), exLostRule.Term a := by decide +kernel
  refine ⟨[3], derives_iff_der.2 ?_, ht⟩
  simp only [exLostRule, List.mem_cons, List.not_mem_nil, or_false] at hr
  rcases hr with rfl | rfl | rfl | rfl
  · exact h1
  · exact h1
  · exact h2
  · exact Der.single_iff.2 (.inr ⟨[2], by decide +kernel, h2⟩)

example : (do .ok (← (← Cycles.new exLostRule).rewriteCycles).grammar.rules) =
    .ok [⟨1, [3], {}⟩, ⟨0, [1], {}⟩] := by decide +kernel

end Verif
