import Verif.Proofs.Idempotent
import Verif.Props.TreesFinite

/-! # Property C118: cleaning passes change nothing the second time -/

namespace Verif

open Cycles

/-- **C118.** `binarize_and_eliminate_nulling_rules` called on its own result leaves the grammar
exactly as it is, and returns a grammar without rules over the same symbols. -/
theorem C118_nulling {g : Cfg} (hwf : g.WF) :
    ∃ g' res, g.binarizeAndEliminateNulling = .ok (g', res) ∧
      g'.binarizeAndEliminateNulling = .ok (g', { src := g'.src }) := by
  obtain ⟨g₁, g', res, h, hs⟩ := elim_spec hwf
  obtain ⟨_, _, h1, h2⟩ := C25_binary hwf
  obtain ⟨_, _, h3, -, h4⟩ := C24_language hwf
  obtain ⟨rfl, rfl⟩ := Prod.mk.inj (Res.ok.inj (h1.symm.trans h))
  obtain ⟨rfl, rfl⟩ := Prod.mk.inj (Res.ok.inj (h3.symm.trans h))
  exact ⟨_, _, h, elim_id hs.wf hs.limit (fun r hr => (h2 r hr).2) h4⟩

/-- The first call changes this grammar: `A ::= B B B | `, `B ::= b | `. -/
def exAgain : Cfg :=
  { src := ⟨3, [some "A", some "B", some "b"]⟩
    rules := [⟨0, [1, 1, 1], {}⟩, ⟨0, [], {}⟩, ⟨1, [2], {}⟩, ⟨1, [], {}⟩], roots := [0] }

example : exAgain.WF ∧
    (do .ok (← exAgain.binarizeAndEliminateNulling).1.rules.length) = .ok 7 ∧
    (do .ok (← exAgain.binarizeAndEliminateNulling).2.rules.length) = .ok 4 := by
  decide +kernel

/-- **C118.** After `remove_cycles`, neither of the two passes changes the grammar again. -/
theorem C118_remove_cycles {g : Cfg} (hwf : g.WF) :
    ∃ c c', Cycles.new g = .ok c ∧ c.removeCycles = .ok c' ∧
      ∃ d d', Cycles.new c'.grammar = .ok d ∧ d.removeCycles = .ok d' ∧
        d.rewriteCycles = .ok d' ∧ d'.grammar = c'.grammar := by
  obtain ⟨c, c', h1, h2, h3, d, d', h4, h5⟩ := C35_remove_cycles hwf
  have hwf' : c'.grammar.WF := by
    rw [h3]; exact fun r hr => hwf r (List.mem_of_mem_filter hr)
  obtain ⟨e, b, e', e1, e2, e3, -⟩ := C34_cycle_free hwf'
  obtain rfl := Res.ok.inj (e1.symm.trans h4)
  obtain ⟨rfl, -⟩ := Prod.mk.inj (Res.ok.inj (e2.symm.trans h5))
  obtain ⟨f, f', f1, f2, f3, f4, -⟩ := C38_cycle_free_partial hwf' (e3.1 rfl)
  exact ⟨c, c', h1, h2, f, f', f1, f2, f3, f4⟩

/-- **C118.** After `rewrite_cycles`, neither of the two passes changes the grammar again. -/
theorem C118_rewrite_cycles {g : Cfg} (hwf : g.WF) (hlim : g.LimitOk) :
    ∃ c c', Cycles.new g = .ok c ∧ c.rewriteCycles = .ok c' ∧
      ∃ d d', Cycles.new c'.grammar = .ok d ∧ d.removeCycles = .ok d' ∧
        d.rewriteCycles = .ok d' ∧ d'.grammar = c'.grammar := by
  obtain ⟨c, c', h1, h2, d, d', h4, h5⟩ := C37_cycle_free hwf hlim
  obtain ⟨c₁, k1, hf⟩ := new_spec hwf
  obtain ⟨c₂, k2, k3, -⟩ := hf.rewrite hwf hlim
  obtain rfl := Res.ok.inj (k1.symm.trans h1)
  obtain rfl := Res.ok.inj (k2.symm.trans h2)
  have hwf' := k3.wf
  obtain ⟨e, b, e', e1, e2, e3, -⟩ := C34_cycle_free hwf'
  obtain rfl := Res.ok.inj (e1.symm.trans h4)
  obtain ⟨rfl, -⟩ := Prod.mk.inj (Res.ok.inj (e2.symm.trans h5))
  obtain ⟨f, f', f1, f2, f3, f4, -⟩ := C38_cycle_free_partial hwf' (e3.1 rfl)
  exact ⟨_, _, h1, h2, f, f', f1, f2, f3, f4⟩

example : exCycle.WF ∧ exCycle.LimitOk ∧ ¬ (do .ok (← (← Cycles.new exCycle).rewriteCycles).grammar)
    = .ok exCycle := by decide +kernel

/-- **C118.** `remove_unused_symbols` on its own result, with a new `Remap`: grammar, roots, names
and mapping stay exactly as they are. The roots are used, so the result's roots are its symbols. -/
theorem C118_remove_unused (g : Cfg) (hwf : g.WF) (hroots : g.RootsIn g.Used)
    (hlim : g.Limited) (hnames : g.src.names.length ≤ g.numSyms) (hne : g.rules ≠ []) :
    ∃ r', (Remap.new g).removeUnusedSymbols = .ok r' ∧
      (Remap.new r'.g).removeUnusedSymbols = .ok (Remap.new r'.g) := by
  have hU : ∀ a, g.Used a → a < g.numSyms := by
    rintro a ⟨q, hq, rfl | ha⟩
    · exact (hwf q hq).1
    · exact (hwf q hq).2 a ha
  obtain ⟨r', σ, h1, h2, h3, h4, h5, h6, h7, h8, h9, h10⟩ := C85_remove_unused_symbols g hwf
    ⟨fun a ha => hU a (hroots.1 a ha), fun w hw => by
      obtain ⟨w1, w2, w3, w4⟩ := hroots.2 w hw
      exact ⟨hU _ w1, hU _ w2, hU _ w3, hU _ w4⟩⟩ hlim hnames hne
  refine ⟨r', h1, Remap.removeUnused_id r'.g h6 (h9 hroots) h8 h7 ?_⟩
  obtain ⟨q, hq⟩ := List.exists_mem_of_ne_nil _ hne
  have := (h3.onto (σ q.lhs)).2 ⟨q.lhs, ⟨q, hq, .inl rfl⟩, rfl⟩
  omega

example : removeSample.RootsIn removeSample.Used ∧ removeSample.WF ∧
    ¬ (Remap.g <$> (Remap.new removeSample).removeUnusedSymbols = .ok removeSample) := by
  decide +kernel

end Verif
