import Verif.Spec.Session
import Verif.Props.Pipeline
import Verif.Props.Remap
import Verif.Props.Lr0
import Verif.Props.Cycles
import Verif.Proofs.Steps

/-! # Sessions of calls -/

namespace Verif

open Cycles

/-- Symbols and names stay, with more behind; limit and roots stay, and rules within the limit. -/
structure Cfg.Grown (g g' : Cfg) : Prop where
  src : g.SrcExt g'
  limited : g'.Limited
  limit : g'.rhsLenInvariant = g.rhsLenInvariant
  roots : g'.roots = g.roots
  wrapped : g'.wrappedRoots = g.wrappedRoots

/-- What holds over calls that add symbols and rules. -/
def Cfg.Grows (g g' : Cfg) : Prop := g.Limited → g.Grown g'

theorem Cfg.Limited.ok {g : Cfg} (h : g.Limited) : g.LimitOk := fun n hn => (h n hn).1

namespace Cfg.Grows

variable {g g' g'' : Cfg}

theorem refl (g : Cfg) : g.Grows g := fun h => ⟨.refl g, h, rfl, rfl, rfl⟩

theorem trans (h : g.Grows g') (h' : g'.Grows g'') : g.Grows g'' := by
  intro hl
  have a := h hl
  have b := h' a.limited
  exact ⟨a.src.trans b.src, b.limited, b.limit.trans a.limit, b.roots.trans a.roots,
    b.wrapped.trans a.wrapped⟩

theorem fresh (g : Cfg) (name : Option String) : g.Grows (g.nextSym name).2 :=
  fun h => ⟨.fresh g name, h, rfl, rfl, rfl⟩

theorem addRule {r : CfgRule} {x : Cfg × Nat} (e : g.addRule r = .ok x) : g.Grows x.1 := by
  intro hl
  have hs := Cfg.SrcExt.addRule e
  cases hg : g.rhsLenInvariant with
  | none =>
    rw [addRule_none g r hg] at e
    cases e
    refine ⟨hs, ?_, rfl, rfl, rfl⟩
    intro n hn
    have hn : g.rhsLenInvariant = some n := hn
    rw [hg] at hn
    cases hn
  | some n =>
    obtain ⟨hn, hb⟩ := hl n hg
    obtain ⟨rs, h1, h2, -⟩ := addRule_spec g r n hn hg
    rw [h1] at e
    cases e
    refine ⟨hs, ?_, rfl, rfl, rfl⟩
    intro m hm
    have hm : g.rhsLenInvariant = some m := hm
    rw [hg] at hm
    cases hm
    refine ⟨hn, fun r' hr' => ?_⟩
    rcases List.mem_append.1 hr' with h | h
    · exact hb r' h
    · exact h2.len r' h

theorem addRules {rs : List CfgRule} (e : g.addRules rs = .ok g') : g.Grows g' := by
  induction rs generalizing g with
  | nil => cases e; exact refl _
  | cons r rs ih =>
    unfold Cfg.addRules at e
    rw [List.foldlM_cons] at e
    obtain ⟨g₁, e1, e2⟩ := Res.bind_eq_ok.1 e
    obtain ⟨x, e3, e4⟩ := Res.bind_eq_ok.1 e1
    cases e4
    exact (addRule e3).trans (ih e2)

theorem rwh {b : RuleBuilder} {syms : List Sym} {h : History} {x : RuleBuilder × Cfg}
    (e : b.rhsWithHistory g syms h = .ok x) : g.Grows x.2 := by
  unfold RuleBuilder.rhsWithHistory at e
  obtain ⟨lhs, -, e⟩ := Res.bind_eq_ok.1 e
  obtain ⟨y, e1, e⟩ := Res.bind_eq_ok.1 e
  cases e
  exact addRule e1

theorem seqRel : SeqRel fun st st' => st.g.Grows st'.g where
  same h _ := h ▸ refl _
  trans := trans
  fresh h _ := h ▸ fresh _ none
  add _ e := addRule e

theorem sequence {p : Profile} {seq : Sequence} (e : g.rewriteSequence p seq = .ok g') :
    g.Grows g' := by
  unfold Cfg.rewriteSequence at e
  obtain ⟨h₁, -, e⟩ := Res.bind_eq_ok.1 e
  obtain ⟨st, e1, e⟩ := Res.bind_eq_ok.1 e
  obtain ⟨h₂, -, e⟩ := Res.bind_eq_ok.1 e
  obtain ⟨st', e2, e⟩ := Res.bind_eq_ok.1 e
  cases e
  have h1 := SeqState.to_reduce seqRel p e1
  have h2 := SeqState.to_loop seqRel p _ e2
  exact h1.trans h2

theorem precRhs {b b' : PrecBuilder} {syms : List Sym} {h : History}
    (e : b.rhsWithHistory syms h = .ok b') : b.g.Grows b'.g := by
  unfold PrecBuilder.rhsWithHistory at e
  obtain ⟨h₁, -, e⟩ := Res.bind_eq_ok.1 e
  dsimp only at e
  split at e
  · cases e; exact refl _
  · obtain ⟨x, e2, e⟩ := Res.bind_eq_ok.1 e
    cases e
    exact addRule e2
  · obtain ⟨x, e2, e⟩ := Res.bind_eq_ok.1 e
    cases e
    exact addRule e2

theorem precCall {b b' : PrecBuilder} {c : PrecCall} (e : b.call c = .ok b') : b.g.Grows b'.g := by
  cases c with
  | history h => cases e; exact refl _
  | rhs syms => exact precRhs (b := { b with history := none }) e
  | rhsWithHistory syms h => exact precRhs e
  | associativity a => cases e; exact refl _
  | lowerPrecedence =>
    change b.lowerPrecedence = _ at e
    unfold PrecBuilder.lowerPrecedence at e
    dsimp only at e
    obtain ⟨x, e1, e⟩ := Res.bind_eq_ok.1 e
    cases e
    exact (fresh b.g none).trans (rwh e1)

theorem precRun {cs : List PrecCall} : ∀ {b b' : PrecBuilder}, b.run cs = .ok b' →
    b.g.Grows b'.g := by
  induction cs with
  | nil => intro b b' e; cases e; exact refl _
  | cons c cs ih =>
    intro b b' e
    obtain ⟨b₁, e1, e2⟩ := Res.bind_eq_ok.1 e
    exact (precCall e1).trans (ih e2)

theorem precGroup {lhs loosest : Sym} {rs : List CfgRule} : ∀ {g g' : Cfg},
    PrecBuilder.addGroup lhs loosest g rs = .ok g' → g.Grows g' := by
  induction rs with
  | nil => intro g g' e; cases e; exact refl _
  | cons r rs ih =>
    intro g g' e
    obtain ⟨x, e1, e2⟩ := Res.bind_eq_ok.1 e
    exact (addRule e1).trans (ih e2)

theorem precedenced {lhs : Sym} {calls : List PrecCall} (e : g.precedencedRule lhs calls = .ok g') :
    g.Grows g' := by
  unfold Cfg.precedencedRule at e
  obtain ⟨b, e1, e⟩ := Res.bind_eq_ok.1 e
  unfold PrecBuilder.finalize at e
  obtain ⟨g₁, e2, e⟩ := Res.bind_eq_ok.1 e
  obtain ⟨x, e3, e⟩ := Res.bind_eq_ok.1 e
  cases e
  have h0 : g.Grows (PrecBuilder.new g lhs).g := fresh g none
  exact ((h0.trans (precRun e1)).trans (precGroup e2)).trans (rwh e3)

theorem lr0 {start : Sym} {x : Cfg × List Lr0Node} (e : g.makeLr0Fsm start = .ok x) :
    g.Grows x.1 := by
  unfold Cfg.makeLr0Fsm at e
  obtain ⟨t, -, e⟩ := Res.bind_eq_ok.1 e
  obtain ⟨y, e1, e⟩ := Res.bind_eq_ok.1 e
  obtain ⟨i, -, e⟩ := Res.bind_eq_ok.1 e
  obtain ⟨n, -, e⟩ := Res.bind_eq_ok.1 e
  cases e
  unfold Cfg.lr0Augment at e1
  dsimp only at e1
  obtain ⟨z, e2, e1⟩ := Res.bind_eq_ok.1 e1
  cases e1
  exact (fresh g none).trans (rwh e2)

theorem lr0_lt {start : Sym} {x : Cfg × List Lr0Node} (hl : g.Limited)
    (e : g.makeLr0Fsm start = .ok x) : g.numSyms < x.1.numSyms := by
  unfold Cfg.makeLr0Fsm at e
  obtain ⟨t, -, e⟩ := Res.bind_eq_ok.1 e
  obtain ⟨y, e1, e⟩ := Res.bind_eq_ok.1 e
  obtain ⟨i, -, e⟩ := Res.bind_eq_ok.1 e
  obtain ⟨n, -, e⟩ := Res.bind_eq_ok.1 e
  cases e
  unfold Cfg.lr0Augment at e1
  dsimp only at e1
  obtain ⟨z, e2, e1⟩ := Res.bind_eq_ok.1 e1
  cases e1
  have h := ((rwh e2) (fresh g none hl).limited).src.le
  exact h

theorem wrapOne {r : Sym} (hl : g.Limited) (e : g.wrapOne r = .ok g') : g'.Limited := by
  unfold Cfg.wrapOne at e
  dsimp only at e
  obtain ⟨x, e1, e⟩ := Res.bind_eq_ok.1 e
  cases e
  exact ((((fresh g _).trans (fresh _ _)).trans (fresh _ _)).trans (addRule e1) hl).limited

theorem wrapInput (hl : g.Limited) (e : g.wrapInput = .ok g') : g'.Limited := by
  have key : ∀ (rs : List Sym) (g₁ : Cfg), g₁.Limited → rs.foldlM Cfg.wrapOne g₁ = .ok g' →
      g'.Limited := by
    intro rs
    induction rs with
    | nil => intro g₁ h e; cases e; exact h
    | cons r rs ih =>
      intro g₁ h e
      rw [List.foldlM_cons] at e
      obtain ⟨g₂, e1, e2⟩ := Res.bind_eq_ok.1 e
      exact ih g₂ (wrapOne h e1) e2
  exact key g.roots _ (by exact hl) e

end Cfg.Grows

theorem makeProper_eq {g g' : Cfg} {b : Bool} (h : g.makeProper = .ok (g', b)) :
    ∃ rules, g' = { g with rules := rules } := by
  unfold Cfg.makeProper at h
  obtain ⟨u, -, h⟩ := Res.bind_eq_ok.1 h
  dsimp only at h
  split at h
  · obtain ⟨g₁, h1, h⟩ := Res.bind_eq_ok.1 h
    cases h
    unfold Usefulness.removeUselessRules at h1
    split at h1
    · cases h1; exact ⟨_, rfl⟩
    · obtain ⟨rs, -, h1⟩ := Res.bind_eq_ok.1 h1
      cases h1; exact ⟨_, rfl⟩
  · cases h; exact ⟨_, rfl⟩

theorem ElimSpec.two {g g₁ g' res : Cfg} (hs : ElimSpec g g₁ g' res) :
    ∀ r ∈ g'.rules, r.rhs.length ≤ 2 := by
  intro r hr
  rcases hs.prods with ⟨-, rfl⟩ | ⟨-, hp⟩
  · exact hs.len r hr
  · obtain ⟨⟨h1 | ⟨α, h1, a, b, rfl, h2⟩, -⟩, -⟩ := (hp r.lhs r.rhs).1 ⟨r, hr, rfl, rfl⟩
    · obtain ⟨r', hr', -, e⟩ := h1
      rw [← e]; exact hs.len r' hr'
    · rcases h2 with ⟨e, -⟩ | ⟨e, -⟩ <;> rw [e] <;> simp

namespace Cfg.Sound

variable {g g' : Cfg}

theorem src_names (hs : g.Sound) (h : g.SrcExt g') : g'.src.names.length ≤ g'.numSyms := by
  obtain ⟨l, h1, h2⟩ := h
  rw [h1, h2, List.length_append]
  have := hs.names
  omega

theorem roots_le (hs : g.Sound) (h : g.numSyms ≤ g'.numSyms) (hr : g'.roots = g.roots)
    (hw : g'.wrappedRoots = g.wrappedRoots) : g'.RootsIn (· < g'.numSyms) := by
  unfold Cfg.RootsIn
  rw [hr, hw]
  refine ⟨fun a ha => lt_of_lt_of_le (hs.roots.1 a ha) h, fun w hw => ?_⟩
  obtain ⟨h1, h2, h3, h4⟩ := hs.roots.2 w hw
  exact ⟨by omega, by omega, by omega, by omega⟩

theorem grows (hs : g.Sound) (h : g.Grows g') (hwf : g'.WF) : g'.Sound :=
  have h := h hs.limit
  ⟨hwf, hs.roots_le h.src.le h.roots h.wrapped, h.limited, hs.src_names h.src⟩

/-- Calls that only change the list of rules. -/
theorem of_rules (hs : g.Sound) {rules : List CfgRule} (h : ∀ r ∈ rules,
    (r.lhs < g.numSyms ∧ ∀ s ∈ r.rhs, s < g.numSyms) ∧
      ∀ n, g.rhsLenInvariant = some n → r.rhs.length ≤ n) :
    Cfg.Sound { g with rules := rules } :=
  ⟨fun r hr => (h r hr).1, hs.roots, fun n hn => ⟨(hs.limit n hn).1, fun r hr => (h r hr).2 n hn⟩,
    hs.names⟩

theorem rule (hs : g.Sound) {r : CfgRule} (hr : r ∈ g.rules) :
    (r.lhs < g.numSyms ∧ ∀ s ∈ r.rhs, s < g.numSyms) ∧
      ∀ n, g.rhsLenInvariant = some n → r.rhs.length ≤ n :=
  ⟨hs.rules r hr, fun n hn => (hs.limit n hn).2 r hr⟩

theorem of_sub (hs : g.Sound) {rules : List CfgRule} (h : ∀ r ∈ rules, r ∈ g.rules) :
    Cfg.Sound { g with rules := rules } := hs.of_rules fun r hr => hs.rule (h r hr)

/-- Renaming. -/
theorem renamed (hs : g.Sound) {U : Sym → Prop} {σ : Sym → Sym} (h : Cfg.Renaming U σ g g')
    (hwf : g'.WF) (hr : g'.RootsIn (· < g'.numSyms)) (hn : g'.src.names.length ≤ g'.numSyms) :
    g'.Sound := by
  refine ⟨hwf, hr, fun n hn => ?_, hn⟩
  rw [h.limit] at hn
  obtain ⟨h1, h2⟩ := hs.limit n hn
  refine ⟨h1, fun r hr => ?_⟩
  obtain ⟨r', hr', rfl⟩ := List.mem_map.1 (h.rules.mem_iff.1 hr)
  simpa [CfgRule.rename] using h2 r' hr'

theorem addRule (hs : g.Sound) {r : CfgRule} (h1 : r.lhs < g.numSyms)
    (h2 : ∀ s ∈ r.rhs, s < g.numSyms) :
    ∃ x, g.addRule r = .ok x ∧ x.1.Sound ∧ g.numSyms ≤ x.1.numSyms := by
  obtain ⟨g', k, e, hi, -, -, -, hle, -⟩ := addRule_inv (SplitInv.refl hs.rules) hs.limit.ok r h1 h2
  exact ⟨_, e, hs.grows (.addRule e) hi.wf, hle⟩

theorem addRules (hs : g.Sound) {rs : List CfgRule}
    (h : ∀ r ∈ rs, r.lhs < g.numSyms ∧ ∀ s ∈ r.rhs, s < g.numSyms) :
    ∃ g', g.addRules rs = .ok g' ∧ g'.Sound := by
  obtain ⟨g', e, hi, -⟩ := addRules_inv rs (SplitInv.refl hs.rules) hs.limit.ok h
  exact ⟨_, e, hs.grows (.addRules e) hi.wf⟩

theorem rewriteCycles (hs : g.Sound) :
    ∃ c c', Cycles.new g = .ok c ∧ c.rewriteCycles = .ok c' ∧ c'.grammar.Sound := by
  classical
  obtain ⟨c, e, hf⟩ := new_spec hs.rules
  obtain ⟨c', e', hi, -⟩ := hf.rewrite hs.rules hs.limit.ok
  refine ⟨c, c', e, e', ?_⟩
  obtain ⟨b, h1, h2⟩ := hf.isCycleFree
  unfold Cycles.rewriteCycles at e'
  rw [h1] at e'
  cases b
  · obtain ⟨tr, h3, -⟩ := hf.collect hs.rules g.rules (fun _ h => h) (fun _ => none) (by simp)
    simp only [Res.bind_ok, Bool.false_eq_true, if_false, hf.grammar, h3] at e'
    obtain ⟨g₁, e1, e'⟩ := Res.bind_eq_ok.1 e'
    cases e'
    have h0 := hs.of_sub (rules := (g.rules.filter fun r => ¬ CycleRule g.prod r.lhs r.rhs).filter
        fun rule => !tr.changes rule)
      fun r hr => List.mem_of_mem_filter (List.mem_of_mem_filter hr)
    exact h0.grows (.addRules e1) hi.wf
  · cases e'
    show c.grammar.Sound
    rw [hf.grammar]
    exact hs

end Cfg.Sound

end Verif
