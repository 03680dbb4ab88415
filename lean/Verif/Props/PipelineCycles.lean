import Verif.Props.Pipeline
import Verif.Props.SplitAnalyses
import Verif.Props.CycleTerminals
import Verif.Props.TreesFinite

/-! # Property C153: preparing a grammar and rewriting its cycles -/

namespace Verif

open Cfg Cycles

/-- A symbol that is on no right side stays so when nulling rules are eliminated. -/
theorem eliminate_not_right {g g' res : Cfg} (hwf : g.WF)
    (e : g.binarizeAndEliminateNulling = .ok (g', res)) {s : Sym} (hs : s < g.numSyms)
    (hn : ∀ q ∈ g.rules, s ∉ q.rhs) : ∀ q ∈ g'.rules, s ∉ q.rhs := by
  obtain ⟨g₁, g₂, res', e', hsp⟩ := elim_spec hwf
  obtain ⟨rfl, rfl⟩ := Prod.mk.inj (Res.ok.inj (e'.symm.trans e))
  obtain ⟨h, hu, -⟩ := split_unfolds hwf (limit := some 2) (by rintro n ⟨⟩; exact Nat.le_refl 2)
    hsp.split
  have h1 : ∀ A α, g₁.prod A α → s ∉ α := by
    intro A α hp hm
    have hm' : s ∈ α.flatMap h := List.mem_flatMap.2 ⟨s, hm, by rw [hu.old s hs]; simp⟩
    by_cases hA : A < g.numSyms
    · obtain ⟨q, hq, -, e⟩ := hu.prod_old hA hp
      exact hn q hq (by rw [e]; exact hm')
    · have hA' : g.numSyms ≤ A := by omega
      have hlt : A < g₁.numSyms := by
        obtain ⟨r, hr, rfl, -⟩ := hp
        exact (hu.wf' r hr).1
      obtain ⟨q, hq, hsub⟩ := hu.part A hA' hlt
      rw [(hu.prod_new hA' hp).1] at hm'
      exact hn q hq (hsub.subset hm')
  intro q hq hm
  rcases hsp.prods with ⟨-, rfl⟩ | ⟨-, hp⟩
  · exact h1 _ _ ⟨q, hq, rfl, rfl⟩ hm
  · obtain ⟨⟨h2 | ⟨α, h2, a, b, rfl, h3⟩, -⟩, -⟩ := (hp q.lhs q.rhs).1 ⟨q, hq, rfl, rfl⟩
    · exact h1 _ _ h2 hm
    · refine h1 _ _ h2 ?_
      rcases h3 with ⟨e, -⟩ | ⟨e, -⟩ <;> rw [e] at hm <;> simp [List.mem_singleton.1 hm]

/-- A symbol that is on no right side is on no cycle. -/
theorem not_right_not_cycle {g : Cfg} {s : Sym} (hn : ∀ q ∈ g.rules, s ∉ q.rhs) :
    ¬ UnitChain g.prod s s := by
  intro h
  have key : ∀ a b, UnitChain g.prod a b → ∃ q ∈ g.rules, b ∈ q.rhs := by
    intro a b h
    cases h with
    | single h => obtain ⟨⟨q, hq, -, e⟩, -⟩ := h; exact ⟨q, hq, by rw [e]; simp⟩
    | tail _ h => obtain ⟨⟨q, hq, -, e⟩, -⟩ := h; exact ⟨q, hq, by rw [e]; simp⟩
  obtain ⟨q, hq, hm⟩ := key s s h
  exact hn q hq hm

/-- **C153.** Prepare a grammar as in C115 and rewrite the cycles of the result. The call returns, a
fresh analysis finds no cycle, every rule has one or two symbols on the right, and the roots are
the same. Each root derives, over the terminals of the new grammar, `start · w · end` exactly if
the old root derived `w`, for every string `w` of old terminals that are left; these keep their names. If the prepared
grammar has no rule `A ::= A`, every string has finitely many parse trees. -/
theorem C153_prepare_cycles {g : Cfg} (hwf : g.WF) (hroots : ∀ s ∈ g.roots, s < g.numSyms)
    (hne : g.roots ≠ []) (hprod : ∀ s ∈ g.roots, ∃ w, g.Lang s w) (hlim : g.rhsLenInvariant = none)
    (hnames : g.src.names.length = g.numSyms) :
    ∃ g₁ b g₂ g₃ res r c c' d d', ∃ σ : Sym → Sym, g.makeProper = .ok (g₁, b) ∧
      g₁.wrapInput = .ok g₂ ∧ g₂.binarizeAndEliminateNulling = .ok (g₃, res) ∧
      (Remap.new g₃).removeUnusedSymbols = .ok r ∧
      Cycles.new r.g = .ok c ∧ c.rewriteCycles = .ok c' ∧
      Cycles.new c'.grammar = .ok d ∧ d.isCycleFree = .ok (true, d') ∧
      c'.grammar.roots = r.g.roots ∧ c'.grammar.roots.length = g.roots.length ∧
      (∀ q ∈ c'.grammar.rules, 1 ≤ q.rhs.length ∧ q.rhs.length ≤ 2) ∧
      (∀ a b, g₃.Used a → g₃.Used b → σ a = σ b → a = b) ∧
      (∀ a, g.Term a → g₃.Used a → c'.grammar.Term (σ a) ∧
        c'.grammar.src.originalNameOf (σ a) = g.src.originalNameOf a) ∧
      (∀ (i : Nat) root, g.roots[i]? = some root → ∃ wr, c'.grammar.wrappedRoots[i]? = some wr ∧
        c'.grammar.roots[i]? = some wr.root ∧
        c'.grammar.Term wr.startOfInput ∧ c'.grammar.Term wr.endOfInput ∧
        (∀ w, g.Lang root w → ∀ a ∈ w, g₃.Used a) ∧
        ∀ w, (∀ a ∈ w, g.Term a ∧ g₃.Used a) →
          (c'.grammar.Lang wr.root ([wr.startOfInput] ++ w.map σ ++ [wr.endOfInput]) ↔
            g.Lang root w)) ∧
      ((∀ q ∈ r.g.rules, q.rhs ≠ [q.lhs]) → ∀ A w, Finite (c'.grammar.Trees A w)) := by
  obtain ⟨g₁, b, g₂, g₃, res, r, σ, e1, e2, e3, e4, p1, p2, -, p4, p5, hren, p6, p7⟩ :=
    prepare_core hwf hroots hne hprod hlim hnames
  -- the passes before
  obtain ⟨_, _, e1', hc, hr1, -⟩ := makeProper_spec hwf hroots
  obtain ⟨rfl, rfl⟩ := Prod.mk.inj (Res.ok.inj (e1.symm.trans e1'))
  obtain ⟨-, m2⟩ := makeProper_keeps e1
  have hwf1 : g₁.WF := hc.wf hwf
  have hlim1 : g₁.rhsLenInvariant = none := m2.trans hlim
  have hroots1 : ∀ s ∈ g₁.roots, s < g₁.numSyms := by rw [hr1, hc.numSyms]; exact hroots
  obtain ⟨_, e2', hw⟩ := wrapInput_inv g₁ hwf1 (fun n h => by rw [hlim1] at h; cases h) hroots1
  obtain rfl := Res.ok.inj (e2.symm.trans e2')
  obtain ⟨_, _, _, e3', hs⟩ := elim_spec hw.wf
  obtain ⟨rfl, rfl⟩ := Prod.mk.inj (Res.ok.inj (e3.symm.trans e3'))
  obtain ⟨_, _, e3', -, hkeep, -⟩ := C27_terminals_partial hw.wf
  obtain ⟨rfl, rfl⟩ := Prod.mk.inj (Res.ok.inj (e3.symm.trans e3'))
  -- the limit of the prepared grammar
  have hlen : ∀ n, r.g.rhsLenInvariant = some n →
      2 ≤ n ∧ ∀ q ∈ r.g.rules, q.rhs.length ≤ n := by
    intro n hn
    rw [hren.limit, hs.limit] at hn
    cases hn
    exact ⟨Nat.le_refl 2, fun q hq => (p2 q hq).2⟩
  have hlimOk : r.g.LimitOk := fun n hn => (hlen n hn).1
  -- the wrapped roots are on no right side
  have hfresh : ∀ wr ∈ g₂.wrappedRoots, ∀ q ∈ g₂.rules, wr.root ∉ q.rhs := by
    intro wr hwr q hq hm
    have hge : ∀ x ∈ [wr.root, wr.startOfInput, wr.endOfInput], g₁.numSyms ≤ x := fun x hx =>
      (hw.fresh x (List.mem_flatMap.2 ⟨wr, hwr, hx⟩)).1
    have h0 := hge wr.root (by simp)
    rcases wrapInput_rules hlim1 e2 q hq with ho | ⟨wr', h5, h6⟩
    · exact Nat.not_lt.2 h0 ((hwf1 q ho).2 _ hm)
    · rw [h6] at hm
      have hin : wr'.innerRoot < g₁.numSyms := by
        apply hroots1
        rw [← hw.inner]
        exact List.mem_map_of_mem h5
      have hrule : ∃ q ∈ g₂.rules, q.lhs = wr.root := by
        have hd := (hw.wraps wr hwr).2
        rcases Der.single_iff.1 (derives_iff_der.1 hd) with e | ⟨α, ⟨q, hq, e, -⟩, -⟩
        · simp at e
        · exact ⟨q, hq, e⟩
      obtain ⟨q', hq', e'⟩ := hrule
      simp only [List.mem_cons, List.not_mem_nil, or_false] at hm
      rcases hm with hm | hm | hm
      · exact (hw.new wr' h5).1.2 q' hq' (e'.trans hm)
      · omega
      · exact (hw.new wr' h5).2.1.2 q' hq' (e'.trans hm)
  have hright : ∀ wr ∈ r.g.wrappedRoots, ∀ q ∈ r.g.rules, wr.root ∉ q.rhs := by
    intro wr hwr q hq hm
    rw [hren.wrappedRoots, hs.roots.2] at hwr
    obtain ⟨wr₀, h0, rfl⟩ := List.mem_map.1 hwr
    have hlt := (hw.fresh wr₀.root (List.mem_flatMap.2 ⟨wr₀, h0, by simp⟩)).2
    have h1 := eliminate_not_right hw.wf e3 hlt (hfresh wr₀ h0)
    obtain ⟨q', hq', rfl⟩ := List.mem_map.1 (hren.rules.mem_iff.1 hq)
    obtain ⟨x, hx, ex⟩ := List.mem_map.1 hm
    have hin : wr₀.innerRoot ∈ g.roots := by
      rw [← hr1, ← hw.inner]
      exact List.mem_map_of_mem h0
    obtain ⟨w₀, hw₀⟩ := hprod _ hin
    have hl : g₂.Lang wr₀.root ([wr₀.startOfInput] ++ w₀ ++ [wr₀.endOfInput]) :=
      ((hw.new wr₀ h0).2.2 _).2 ⟨w₀, (hc.lang ⟨_, hin, .refl _⟩ ⟨w₀, hw₀⟩ w₀).2 hw₀, rfl⟩
    have hrule : ∃ q ∈ g₂.rules, q.lhs = wr₀.root := by
      rcases Der.single_iff.1 (derives_iff_der.1 hl.1) with e | ⟨α, ⟨q, hq, e, -⟩, -⟩
      · simp at e
      · exact ⟨q, hq, e⟩
    obtain ⟨q₃, hq₃, e₃⟩ := hkeep _ hlt hrule ⟨_, by simp, hl⟩
    have := hren.inj x wr₀.root ⟨q', hq', .inr hx⟩ ⟨q₃, hq₃, .inl e₃⟩ ex
    exact h1 q' hq' (this ▸ hx)
  -- rewriting cycles
  obtain ⟨c, c', k1, k2, τ, k3, -, -, k6, -⟩ := C151_rewritten_partial p1 hlen
  obtain ⟨_, _, l1, l2, lroots, ρ, l3, -, l4⟩ := C36_language_partial p1 hlimOk
  obtain rfl := Res.ok.inj (k1.symm.trans l1)
  obtain rfl := Res.ok.inj (k2.symm.trans l2)
  obtain ⟨_, _, l1, l2, d, d', d1, d2⟩ := C37_cycle_free p1 hlimOk
  obtain rfl := Res.ok.inj (k1.symm.trans l1)
  obtain rfl := Res.ok.inj (k2.symm.trans l2)
  obtain ⟨_, _, l1, l2, φ, -, -, f3⟩ := C149_rules p1 hlen
  obtain rfl := Res.ok.inj (k1.symm.trans l1)
  obtain rfl := Res.ok.inj (k2.symm.trans l2)
  have hterm : ∀ a, r.g.Term a → c'.grammar.Term a := by
    intro a ha
    have hcyc : ¬ UnitChain r.g.prod a a := by
      intro hh
      obtain ⟨α, ⟨q, hq, e, -⟩, -⟩ := hh.rule
      exact ha.2 q hq e
    have := (k6 a ha.1).2 (.inl ha)
    rwa [k3 a hcyc] at this
  refine ⟨g₁, b, g₂, g₃, res, r, c, c', d, d', σ, e1, e2, e3, e4, k1, k2, d1, d2, lroots,
    by rw [lroots]; exact p4, ?_, p5, fun a ha hu => ⟨hterm _ (p6 a ha hu).1, by
      rw [f3]; exact (p6 a ha hu).2⟩, ?_, fun hloop => ?_⟩
  · intro q hq
    rw [f3] at hq
    simp only [List.mem_append, List.mem_map, List.mem_filter] at hq
    rcases hq with ⟨hq, -⟩ | ⟨q', ⟨hq', -⟩, rfl⟩
    · exact p2 q hq
    · have := p2 q' hq'
      simpa using this
  · intro i root hi
    obtain ⟨wr, q1, q2, q3, q4, q5, q6⟩ := p7 i root hi
    refine ⟨wr, by rw [f3]; exact q1, by rw [lroots]; exact q2, hterm _ q3, hterm _ q4, q5,
      fun w hT => ?_⟩
    have hwr : wr ∈ r.g.wrappedRoots := List.mem_of_getElem? q1
    have hcyc := not_right_not_cycle (hright wr hwr)
    have hlt : wr.root < r.g.numSyms := by
      obtain ⟨w₀, hw₀⟩ := hprod root (List.mem_of_getElem? hi)
      have hl := (q6 w₀ fun a ha => ⟨hw₀.2 a ha, q5 w₀ hw₀ a ha⟩).1.2 hw₀
      rcases Der.single_iff.1 (derives_iff_der.1 hl.1) with e | ⟨α, ⟨q, hq, e, -⟩, -⟩
      · simp at e
      · exact e ▸ (p1 q hq).1
    rw [← (q6 w hT).1]
    have h4 := l4 wr.root hlt ([wr.startOfInput] ++ w.map σ ++ [wr.endOfInput])
    rw [l3 _ hcyc] at h4
    have hTw : ∀ a ∈ [wr.startOfInput] ++ w.map σ ++ [wr.endOfInput], r.g.Term a := by
      intro a ha
      simp only [List.cons_append, List.nil_append, List.mem_cons, List.mem_append,
        List.not_mem_nil, or_false, List.mem_map] at ha
      rcases ha with rfl | ⟨x, hx, rfl⟩ | rfl
      exacts [q3, (p6 x (hT x hx).1 (hT x hx).2).1, q4]
    constructor
    · rintro ⟨hd, -⟩
      exact h4.1 ⟨hd, hTw⟩
    · intro hl
      exact ⟨(h4.2 hl).1, fun a ha => hterm a (hTw a ha)⟩
  · obtain ⟨_, _, l1, l2, hf⟩ := rewritten_finite p1 hlimOk (fun q hq e => by
      have := (p2 q hq).1
      rw [e] at this
      simp at this) hloop
    obtain rfl := Res.ok.inj (k1.symm.trans l1)
    obtain rfl := Res.ok.inj (k2.symm.trans l2)
    exact hf

/-- `S ::= A | x`, `A ::= B N`, `B ::= A | y`, `N ::= n |`, root `S`: eliminating nulling rules makes
the cycle `A ::= B`, `B ::= A`. Symbols `S A B N x y n = 0 .. 6`. -/
def exPrepCycle : Cfg :=
  { src := ⟨7, [some "S", some "A", some "B", some "N", some "x", some "y", some "n"]⟩
    rules := [⟨0, [1], {}⟩, ⟨0, [4], {}⟩, ⟨1, [2, 3], {}⟩, ⟨2, [1], {}⟩, ⟨2, [5], {}⟩, ⟨3, [6], {}⟩,
      ⟨3, [], {}⟩]
    roots := [0] }

/-- The hypotheses are met. -/
example : exPrepCycle.WF ∧ (∀ s ∈ exPrepCycle.roots, s < exPrepCycle.numSyms) ∧
    exPrepCycle.roots ≠ [] ∧ (∀ s ∈ exPrepCycle.roots, ∃ w, exPrepCycle.Lang s w) ∧
    exPrepCycle.rhsLenInvariant = none ∧
    exPrepCycle.src.names.length = exPrepCycle.numSyms := by
  refine ⟨by decide +kernel, by decide +kernel, by decide +kernel, ?_, rfl, rfl⟩
  intro s hs
  obtain rfl : s = 0 := by simpa [exPrepCycle] using hs
  exact ⟨[4], .prod (by decide +kernel), by decide +kernel⟩

/-- The grammar with eliminated nulling rules has a cycle, and it is gone after rewriting. -/
example : (do
    let (g₁, _) ← exPrepCycle.makeProper
    let g₂ ← Cfg.wrapInput g₁
    let (g₃, _) ← Cfg.binarizeAndEliminateNulling g₂
    let c ← Cycles.new g₃
    let (b, _) ← c.isCycleFree
    let c' ← (← Cycles.new g₃).rewriteCycles
    let (b', _) ← (← Cycles.new c'.grammar).isCycleFree
    .ok (b, b')) = .ok (false, true) := by decide +kernel

open Basic in
/-- **C153**, from a text: a text of BNF rules, the first of which is for a productive name, is loaded
and prepared, and its cycles are rewritten. The only root of the result derives the start marker, a
string of names and the end marker exactly if the name on the left of the first rule stands for the
string of names. -/
theorem C153_prepare_cycles_text {R : Recognizer Terminal} (hR : R.Correct bnfSyntax Nonterminal.start)
    (p : Profile) {text : Text} {ts : List Token} (hl : Lexed text ts []) {first : Stmt}
    {rest : List Stmt} (hb : IsBnf (first :: rest) ts) :
    ∃ (g : Cfg) (sym : Text → Sym), load R p text = .ok (.ok g) ∧
      (∀ n ∈ (first :: rest).flatMap Stmt.names, ∀ n' ∈ (first :: rest).flatMap Stmt.names,
        sym n = sym n' → n = n') ∧
      ((∃ w, InLang (bnfProd (first :: rest) sym) (bnfTerm (first :: rest) sym) (sym first.lhs) w) →
      ∃ g₁ b g₂ g₃ res r c c' d d' root start stop, ∃ (new : Text → Sym), g.makeProper = .ok (g₁, b) ∧
        g₁.wrapInput = .ok g₂ ∧ g₂.binarizeAndEliminateNulling = .ok (g₃, res) ∧
        (Remap.new g₃).removeUnusedSymbols = .ok r ∧
        Cycles.new r.g = .ok c ∧ c.rewriteCycles = .ok c' ∧
        Cycles.new c'.grammar = .ok d ∧ d.isCycleFree = .ok (true, d') ∧
        (∀ q ∈ c'.grammar.rules, 1 ≤ q.rhs.length ∧ q.rhs.length ≤ 2) ∧ c'.grammar.roots = [root] ∧
        c'.grammar.Term start ∧ c'.grammar.Term stop ∧
        (∀ w, InLang (bnfProd (first :: rest) sym) (bnfTerm (first :: rest) sym) (sym first.lhs) w →
          ∀ a ∈ w, g₃.Used a) ∧
        (∀ n ∈ (first :: rest).flatMap Stmt.names, ∀ n' ∈ (first :: rest).flatMap Stmt.names,
          g₃.Used (sym n) → g₃.Used (sym n') → new n = new n' → n = n') ∧
        ∀ ns : List Text, (∀ n ∈ ns, n ∈ (first :: rest).flatMap Stmt.names ∧
            (∀ s ∈ first :: rest, s.lhs ≠ n) ∧ g₃.Used (sym n)) →
          (∀ n ∈ ns, c'.grammar.Term (new n) ∧
            c'.grammar.src.originalNameOf (new n) = some (String.ofList n)) ∧
          (c'.grammar.Lang root ([start] ++ ns.map new ++ [stop]) ↔
            InLang (bnfProd (first :: rest) sym) (bnfTerm (first :: rest) sym) (sym first.lhs)
              (ns.map sym))) := by
  obtain ⟨g, sym, e, h⟩ := build_spec p hb.1
  obtain ⟨hlim, hlen⟩ := build_named e
  refine ⟨g, sym, (load_of_bnf hR p hl ((C66_tokens text ts).2 hl) hb).trans e, h.inj, fun hp => ?_⟩
  have hf : first.lhs ∈ (first :: rest).flatMap Stmt.names := by simp [Stmt.names]
  have hr : g.roots = [sym first.lhs] := by
    obtain ⟨s, hs, hr⟩ := h.roots
    cases hs
    exact hr
  obtain ⟨w, hw⟩ := hp
  obtain ⟨g₁, b, g₂, g₃, res, r, c, c', d, d', σ, e1, e2, e3, e4, e5, e6, e7, e8, -, hone, h1, h2, h3,
    h4, -⟩ := C153_prepare_cycles h.wf
    (by rw [hr]; simpa using (h.names _ hf).1) (by rw [hr]; simp)
    (by rw [hr]; simpa using ⟨w, (h.lang _ hf w).2 hw⟩) hlim hlen
  obtain ⟨wr, k1, k2, k3, k4, k5, k6⟩ := h4 0 (sym first.lhs) (by rw [hr]; rfl)
  rw [hr] at hone
  refine ⟨g₁, b, g₂, g₃, res, r, c, c', d, d', wr.root, wr.startOfInput, wr.endOfInput,
    fun n => σ (sym n), e1, e2, e3, e4, e5, e6, e7, e8, h1, ?_, k3, k4,
    fun w hw => k5 w ((h.lang _ hf w).2 hw),
    fun n hn n' hn' u u' he => h.inj n hn n' hn' (h2 _ _ u u' he), fun ns hns => ?_⟩
  · obtain ⟨x, hx⟩ := List.length_eq_one_iff.1 hone
    rw [hx] at k2 ⊢
    cases k2
    rfl
  have ht : ∀ n ∈ ns, g.Term (sym n) := fun n hn => (h.term _).2 ⟨n, (hns n hn).1, rfl, (hns n hn).2.1⟩
  refine ⟨fun n hn => ?_, ?_⟩
  · obtain ⟨t1, t2⟩ := h3 _ (ht n hn) (hns n hn).2.2
    exact ⟨t1, t2.trans (h.names n (hns n hn).1).2⟩
  · rw [← h.lang _ hf, ← k6 (ns.map sym) fun a ha => ?_, List.map_map]
    · rfl
    · obtain ⟨n, hn, rfl⟩ := List.mem_map.1 ha
      exact ⟨ht n hn, (hns n hn).2.2⟩

open Basic in
/-- `sampleText` meets the hypotheses, as in `Props/Pipeline.lean`. -/
example (sym : Text → Sym) : ∃ w, InLang
    (bnfProd [⟨"S".toList, [[.name "a".toList .none, .name "S".toList .none,
      .name "b".toList .zeroOrMore], [.unit]]⟩, ⟨"T".toList, []⟩] sym)
    (bnfTerm [⟨"S".toList, [[.name "a".toList .none, .name "S".toList .none,
      .name "b".toList .zeroOrMore], [.unit]]⟩, ⟨"T".toList, []⟩] sym) (sym "S".toList) w := by
  refine ⟨[], derives_iff_der.2 (.prod ⟨_, .head _, rfl, [.unit], ?_, ?_⟩), by simp⟩
  · simp [Stmt.choices]
  · exact ⟨[[]], .cons (by simp [Elem.Means]) .nil, rfl⟩

end Verif
