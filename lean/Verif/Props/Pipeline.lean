import Verif.Proofs.Pipeline
import Verif.Props.Load

/-! # Property C115: preparing a grammar for a recogniser

`make_proper()`, `wrap_input()`, `binarize_and_eliminate_nulling_rules()` and
`remove_unused_symbols()` one after the other. -/

namespace Verif

open Cfg

/-- C115 with the renaming at the end. -/
theorem prepare_core {g : Cfg} (hwf : g.WF) (hroots : ∀ s ∈ g.roots, s < g.numSyms)
    (hne : g.roots ≠ []) (hprod : ∀ s ∈ g.roots, ∃ w, g.Lang s w) (hlim : g.rhsLenInvariant = none)
    (hnames : g.src.names.length = g.numSyms) :
    ∃ g₁ b g₂ g₃ res r σ, g.makeProper = .ok (g₁, b) ∧ g₁.wrapInput = .ok g₂ ∧
      g₂.binarizeAndEliminateNulling = .ok (g₃, res) ∧
      (Remap.new g₃).removeUnusedSymbols = .ok r ∧
      r.g.WF ∧ (∀ q ∈ r.g.rules, 1 ≤ q.rhs.length ∧ q.rhs.length ≤ 2) ∧
      (∀ x, x < r.g.numSyms → r.g.Used x) ∧ r.g.roots.length = g.roots.length ∧
      (∀ a b, g₃.Used a → g₃.Used b → σ a = σ b → a = b) ∧
      Cfg.Renaming g₃.Used σ g₃ r.g ∧
      (∀ a, g.Term a → g₃.Used a → r.g.Term (σ a) ∧
        r.g.src.originalNameOf (σ a) = g.src.originalNameOf a) ∧
      ∀ (i : Nat) root, g.roots[i]? = some root → ∃ wr, r.g.wrappedRoots[i]? = some wr ∧
        r.g.roots[i]? = some wr.root ∧ r.g.Term wr.startOfInput ∧ r.g.Term wr.endOfInput ∧
        (∀ w, g.Lang root w → ∀ a ∈ w, g₃.Used a) ∧
        ∀ w, (∀ a ∈ w, g.Term a ∧ g₃.Used a) →
          (r.g.Lang wr.root ([wr.startOfInput] ++ w.map σ ++ [wr.endOfInput]) ↔ g.Lang root w) ∧
          NoMore (r.g.Trees wr.root ([wr.startOfInput] ++ w.map σ ++ [wr.endOfInput]))
            (g.Trees root w) ∧
          ((∀ s, s < g.numSyms → Subsingleton (g.Trees s [])) →
            SameNumber (r.g.Trees wr.root ([wr.startOfInput] ++ w.map σ ++ [wr.endOfInput]))
              (g.Trees root w)) := by
  -- make_proper
  obtain ⟨g₁, b, e1, hc, hr1, -⟩ := makeProper_spec hwf hroots
  obtain ⟨k1, k2⟩ := makeProper_keeps e1
  have hwf1 : g₁.WF := hc.wf hwf
  have hn1 : g₁.numSyms = g.numSyms := hc.numSyms
  have hlim1 : g₁.rhsLenInvariant = none := k2.trans hlim
  have hroots1 : ∀ s ∈ g₁.roots, s < g₁.numSyms := by rw [hr1, hn1]; exact hroots
  have hlimOk : ∀ n, g₁.rhsLenInvariant = some n → 2 ≤ n := fun n h => by rw [hlim1] at h; cases h
  -- wrap_input
  obtain ⟨g₂, e2, hw⟩ := wrapInput_inv g₁ hwf1 hlimOk hroots1
  obtain ⟨g₂', e2', t21, t22⟩ := C107_wrap_input hwf1 hlimOk hroots1
  obtain rfl := Res.ok.inj (e2.symm.trans e2')
  -- binarize_and_eliminate_nulling_rules
  obtain ⟨g₂s, g₃, res, e3, hs⟩ := elim_spec hw.wf
  obtain ⟨_, _, e3', b3⟩ := C25_binary hw.wf
  obtain ⟨rfl, rfl⟩ := Prod.mk.inj (Res.ok.inj (e3.symm.trans e3'))
  obtain ⟨_, _, e3', l3, -⟩ := C24_language hw.wf
  obtain ⟨rfl, rfl⟩ := Prod.mk.inj (Res.ok.inj (e3.symm.trans e3'))
  obtain ⟨_, _, e3', tm3, -⟩ := C27_terminals_partial hw.wf
  obtain ⟨rfl, rfl⟩ := Prod.mk.inj (Res.ok.inj (e3.symm.trans e3'))
  obtain ⟨_, _, e3', t3⟩ := C113_no_more hw.wf
  obtain ⟨rfl, rfl⟩ := Prod.mk.inj (Res.ok.inj (e3.symm.trans e3'))
  have hwf3 : g₃.WF := hs.wf
  have ext12 := Cfg.SrcExt.wrapInput e2
  have ext23 := Cfg.SrcExt.eliminate e3
  have ext3 : g.SrcExt g₃ := ((Cfg.SrcExt.of_eq k1).trans ext12).trans ext23
  have hle3 := ext23.le
  -- languages from the first to the third grammar
  have old1 : ∀ a, g.Term a → g₂.Term a := fun a ha => by
    have h1 := hc.term_mono ha
    exact Cfg.term_iff_lang.2 ((hw.old a h1.1 _).2 (Cfg.term_iff_lang.1 h1))
  have wrs : ∀ (i : Nat) root, g.roots[i]? = some root → ∃ wr, g₂.wrappedRoots[i]? = some wr ∧
      wr ∈ g₂.wrappedRoots ∧ wr.innerRoot = root ∧ root ∈ g.roots := by
    intro i root hi
    have := hw.inner
    rw [hr1] at this
    rw [← this, List.getElem?_map, Option.map_eq_some_iff] at hi
    obtain ⟨wr, h1, h2⟩ := hi
    refine ⟨wr, h1, List.mem_of_getElem? h1, h2, ?_⟩
    rw [← this, ← h2]
    exact List.mem_map_of_mem (List.mem_of_getElem? h1)
  have lang12 : ∀ wr ∈ g₂.wrappedRoots, wr.innerRoot ∈ g.roots → ∀ w,
      g₂.Lang wr.root ([wr.startOfInput] ++ w ++ [wr.endOfInput]) ↔ g.Lang wr.innerRoot w := by
    intro wr hwr hm w
    obtain ⟨w₀, hw₀⟩ := hprod _ hm
    rw [((hw.new wr hwr).2.2 _)]
    have : ∀ u, g₁.Lang wr.innerRoot u ↔ g.Lang wr.innerRoot u := fun u =>
      hc.lang ⟨_, hm, .refl _⟩ ⟨w₀, hw₀⟩ u
    simp only [this]
    constructor
    · rintro ⟨u, hu, e⟩
      simp only [List.cons_append, List.nil_append, List.cons.injEq, true_and] at e
      rw [List.append_inj_left' e rfl]
      exact hu
    · exact fun h => ⟨w, h, rfl⟩
  have lang3 : ∀ wr ∈ g₂.wrappedRoots, wr.innerRoot ∈ g.roots → ∀ w, (∀ a ∈ w, g.Term a) →
      (g₃.Lang wr.root ([wr.startOfInput] ++ w ++ [wr.endOfInput]) ↔ g.Lang wr.innerRoot w) := by
    intro wr hwr hm w hT
    have f := hw.fresh wr.root (List.mem_flatMap.2 ⟨wr, hwr, by simp⟩)
    obtain ⟨ts, te, -⟩ := hw.new wr hwr
    have hT2 : ∀ a ∈ [wr.startOfInput] ++ w ++ [wr.endOfInput], g₂.Term a := by
      intro a ha
      simp only [List.cons_append, List.nil_append, List.mem_cons, List.mem_append,
        List.not_mem_nil, or_false] at ha
      rcases ha with rfl | ha | rfl
      · exact ts
      · exact old1 a (hT a ha)
      · exact te
    rw [← lang12 wr hwr hm w]
    have := l3 wr.root ([wr.startOfInput] ++ w ++ [wr.endOfInput]) f.2 (by simp)
    constructor
    · exact fun h => this.1 ⟨h.1, hT2⟩
    · exact fun h => ⟨(this.2 h).1, fun a ha => tm3 a (hT2 a ha)⟩
  have hasRule : ∀ wr ∈ g₂.wrappedRoots, wr.innerRoot ∈ g.roots → ∃ q ∈ g₃.rules, q.lhs = wr.root := by
    intro wr hwr hm
    obtain ⟨w₀, hw₀⟩ := hprod _ hm
    have h := (lang3 wr hwr hm w₀ hw₀.2).2 hw₀
    rcases Der.single_iff.1 (derives_iff_der.1 h.1) with e | ⟨α, ⟨q, hq, e, -⟩, -⟩
    · simp at e
    · exact ⟨q, hq, e⟩
  have used3 : ∀ wr ∈ g₂.wrappedRoots, wr.innerRoot ∈ g.roots → ∀ w, g.Lang wr.innerRoot w →
      g₃.Used wr.root ∧ ∀ a ∈ [wr.startOfInput] ++ w ++ [wr.endOfInput], g₃.Used a :=
    fun wr hwr hm w h => Cfg.used_of_lang ((lang3 wr hwr hm w h.2).2 h) (hasRule wr hwr hm)
  -- remove_unused_symbols
  have hne3 : g₃.rules ≠ [] := by
    obtain ⟨root, l, e⟩ := List.exists_cons_of_ne_nil hne
    obtain ⟨wr, -, h1, h2, h3⟩ := wrs 0 root (by rw [e]; rfl)
    obtain ⟨q, hq, -⟩ := hasRule wr h1 (h2 ▸ h3)
    exact List.ne_nil_of_mem hq
  have hrin : g₃.RootsIn (· < g₃.numSyms) := by
    have hfr : ∀ wr ∈ g₂.wrappedRoots, wr.startOfInput < g₃.numSyms ∧ wr.innerRoot < g₃.numSyms ∧
        wr.endOfInput < g₃.numSyms ∧ wr.root < g₃.numSyms := by
      intro wr hwr
      have f := fun s hm => (hw.fresh s (List.mem_flatMap.2 ⟨wr, hwr, hm⟩)).2
      have f1 := f wr.root (by simp)
      have f2 := f wr.startOfInput (by simp)
      have f3 := f wr.endOfInput (by simp)
      have f4 := (hw.wraps wr hwr).1
      omega
    refine ⟨fun a ha => ?_, fun wr hwr => hfr wr (hs.roots.2 ▸ hwr)⟩
    rw [hs.roots.1, hw.roots] at ha
    obtain ⟨wr, hwr, rfl⟩ := List.mem_map.1 ha
    exact (hfr wr hwr).2.2.2
  have hlim3 : g₃.Limited := by
    intro n hn
    rw [hs.limit] at hn
    cases hn
    exact ⟨Nat.le_refl _, fun q hq => (b3 q hq).2⟩
  obtain ⟨r, σ, e4, -, hren, hlang, -, hwf4, hused4, -⟩ := C85_remove_unused_symbols g₃ hwf3 hrin hlim3
    (Nat.le_of_eq (ext3.named hnames)) hne3
  have hU : ∀ q ∈ g₃.rules, g₃.Used q.lhs ∧ ∀ a ∈ q.rhs, g₃.Used a :=
    fun q hq => ⟨⟨q, hq, .inl rfl⟩, fun a ha => ⟨q, hq, .inr ha⟩⟩
  have hlt : ∀ a, g₃.Used a → a < g₃.numSyms := by
    rintro a ⟨q, hq, rfl | ha⟩
    · exact (hwf3 q hq).1
    · exact (hwf3 q hq).2 a ha
  have term4 : ∀ a, g₃.Term a → g₃.Used a → r.g.Term (σ a) := fun a ha hu =>
    Cfg.term_iff_lang.2 ((hlang a hu _).2 ⟨[a], rfl, Cfg.term_iff_lang.1 ha⟩)
  refine ⟨g₁, b, g₂, g₃, res, r, σ, e1, e2, e3, e4, hwf4, ?_, hused4, ?_, hren.inj, hren, ?_, ?_⟩
  · intro q hq
    obtain ⟨q', hq', rfl⟩ := List.mem_map.1 (hren.rules.mem_iff.1 hq)
    have := b3 q' hq'
    simpa [CfgRule.rename] using this
  · rw [hren.roots, hs.roots.1, hw.roots, ← hr1, ← hw.inner]
    simp only [List.length_map]
  · exact fun a ha hu => ⟨term4 a (tm3 a (old1 a ha)) hu, (hren.names a hu).trans (ext3.name hnames ha.1)⟩
  intro i root hi
  obtain ⟨wr, h1, h2, h3, h4⟩ := wrs i root hi
  subst h3
  obtain ⟨w₀, hw₀⟩ := hprod _ h4
  obtain ⟨ts, te, -⟩ := hw.new wr h2
  have u0 := used3 wr h2 h4 w₀ hw₀
  have us : g₃.Used wr.startOfInput := u0.2 _ (by simp)
  have ue : g₃.Used wr.endOfInput := u0.2 _ (by simp)
  have fr := hw.fresh wr.root (List.mem_flatMap.2 ⟨wr, h2, by simp⟩)
  refine ⟨wr.rename σ, ?_, ?_, term4 _ (tm3 _ ts) us, term4 _ (tm3 _ te) ue,
    fun w h a ha => (used3 wr h2 h4 w h).2 a (by simp [ha]), ?_⟩
  · rw [hren.wrappedRoots, hs.roots.2, List.getElem?_map, h1]; rfl
  · rw [hren.roots, hs.roots.1, hw.roots, List.getElem?_map, List.getElem?_map, h1]; rfl
  intro w hT
  have hmap : [(wr.rename σ).startOfInput] ++ w.map σ ++ [(wr.rename σ).endOfInput] =
      ([wr.startOfInput] ++ w ++ [wr.endOfInput]).map σ := by simp [WrappedRoot.rename]
  have hUw : ∀ a ∈ [wr.startOfInput] ++ w ++ [wr.endOfInput], g₃.Used a := by
    intro a ha
    simp only [List.cons_append, List.nil_append, List.mem_cons, List.mem_append,
      List.not_mem_nil, or_false] at ha
    rcases ha with rfl | ha | rfl
    exacts [us, (hT a ha).2, ue]
  have hTw : ∀ a ∈ [wr.startOfInput] ++ w ++ [wr.endOfInput], g₂.Term a := by
    intro a ha
    simp only [List.cons_append, List.nil_append, List.mem_cons, List.mem_append,
      List.not_mem_nil, or_false] at ha
    rcases ha with rfl | ha | rfl
    exacts [ts, old1 a (hT a ha).1, te]
  rw [hmap]
  have T4 : SameNumber (g₃.Trees wr.root ([wr.startOfInput] ++ w ++ [wr.endOfInput]))
      (r.g.Trees (wr.rename σ).root (([wr.startOfInput] ++ w ++ [wr.endOfInput]).map σ)) :=
    hren.trees hU hlt u0.1 hUw
  have T1 : SameNumber (g.Trees wr.innerRoot w) (g₁.Trees wr.innerRoot w) :=
    hc.trees ⟨_, h4, .refl _⟩ ⟨w₀, hw₀⟩ w
  have T2 := t22 wr h2 w
  refine ⟨?_, ?_, fun hu => ?_⟩
  · rw [← lang3 wr h2 h4 w fun a ha => (hT a ha).1, Cfg.lang_iff_trees, Cfg.lang_iff_trees]
    obtain ⟨e⟩ := T4
    exact ⟨fun ⟨t⟩ => ⟨e.symm t⟩, fun ⟨t⟩ => ⟨e t⟩⟩
  · exact (T4.symm.noMore.trans (t3 wr.root fr.2 _ hTw)).trans (T2.symm.trans T1.symm).noMore
  · have hu2 : ∀ s, s < g₂.numSyms → Subsingleton (g₂.Trees s []) := by
      intro s _
      by_cases h : s < g₁.numSyms
      · exact (t21 s h []).subsingleton (hc.empty_unique hwf hu s)
      · refine ⟨fun t => ?_⟩
        exfalso
        have d := (Cfg.lang_iff_trees g₂ s []).2 ⟨t⟩
        rcases Der.single_iff.1 (derives_iff_der.1 d.1) with e | ⟨α, ⟨q, hq, e, rfl⟩, hd⟩
        · simp at e
        rcases wrapInput_rules hlim1 e2 q hq with ho | ⟨wr', h5, h6⟩
        · exact h (e ▸ (hwf1 q ho).1)
        · rw [h6] at hd
          rcases Der.single_iff.1 (derives_iff_der.1 (hd.nullable_mem wr'.startOfInput (by simp))) with
            e' | ⟨β, ⟨q', hq', e', -⟩, -⟩
          · simp at e'
          · exact (hw.new wr' h5).1.2 q' hq' e'
    obtain ⟨_, _, e3', t3'⟩ := C113_same hw.wf hu2
    obtain ⟨rfl, rfl⟩ := Prod.mk.inj (Res.ok.inj (e3.symm.trans e3'))
    exact (T4.symm.trans (t3' wr.root fr.2 _ (by simp) hTw)).trans (T2.symm.trans T1.symm)

/-- **C115.** For a grammar without a length limit whose roots are productive, the four calls return.
In the end every rule has one or two symbols on the right and every symbol is used. Each root has a
wrapped root in the same place, which derives `start · w · end` exactly if the old root derived `w`,
for every string `w` of old terminals that are left (all terminals of sentences are left); it has no
more parse trees for it than the old root for `w`, and as many if the empty string had at most one
tree for each symbol. The terminals keep their names. -/
theorem C115_prepare {g : Cfg} (hwf : g.WF) (hroots : ∀ s ∈ g.roots, s < g.numSyms)
    (hne : g.roots ≠ []) (hprod : ∀ s ∈ g.roots, ∃ w, g.Lang s w) (hlim : g.rhsLenInvariant = none)
    (hnames : g.src.names.length = g.numSyms) :
    ∃ g₁ b g₂ g₃ res r σ, g.makeProper = .ok (g₁, b) ∧ g₁.wrapInput = .ok g₂ ∧
      g₂.binarizeAndEliminateNulling = .ok (g₃, res) ∧
      (Remap.new g₃).removeUnusedSymbols = .ok r ∧
      r.g.WF ∧ (∀ q ∈ r.g.rules, 1 ≤ q.rhs.length ∧ q.rhs.length ≤ 2) ∧
      (∀ x, x < r.g.numSyms → r.g.Used x) ∧ r.g.roots.length = g.roots.length ∧
      (∀ a b, g₃.Used a → g₃.Used b → σ a = σ b → a = b) ∧
      (∀ a, g.Term a → g₃.Used a → r.g.Term (σ a) ∧
        r.g.src.originalNameOf (σ a) = g.src.originalNameOf a) ∧
      ∀ (i : Nat) root, g.roots[i]? = some root → ∃ wr, r.g.wrappedRoots[i]? = some wr ∧
        r.g.roots[i]? = some wr.root ∧ r.g.Term wr.startOfInput ∧ r.g.Term wr.endOfInput ∧
        (∀ w, g.Lang root w → ∀ a ∈ w, g₃.Used a) ∧
        ∀ w, (∀ a ∈ w, g.Term a ∧ g₃.Used a) →
          (r.g.Lang wr.root ([wr.startOfInput] ++ w.map σ ++ [wr.endOfInput]) ↔ g.Lang root w) ∧
          NoMore (r.g.Trees wr.root ([wr.startOfInput] ++ w.map σ ++ [wr.endOfInput]))
            (g.Trees root w) ∧
          ((∀ s, s < g.numSyms → Subsingleton (g.Trees s [])) →
            SameNumber (r.g.Trees wr.root ([wr.startOfInput] ++ w.map σ ++ [wr.endOfInput]))
              (g.Trees root w)) := by
  obtain ⟨g₁, b, g₂, g₃, res, r, σ, e1, e2, e3, e4, h1, h2, h3, h4, h5, -, h6, h7⟩ :=
    prepare_core hwf hroots hne hprod hlim hnames
  exact ⟨g₁, b, g₂, g₃, res, r, σ, e1, e2, e3, e4, h1, h2, h3, h4, h5, h6, h7⟩

/-- The hypotheses are met by `exNulling`, of which one rule of length 4 has to be split, a symbol is
nullable and two symbols are useless (that the empty string has one tree is shown in
`Props/TreesNulling.lean`). -/
example : exNulling.WF ∧ (∀ s ∈ exNulling.roots, s < exNulling.numSyms) ∧ exNulling.roots ≠ [] ∧
    (∀ s ∈ exNulling.roots, ∃ w, exNulling.Lang s w) ∧ exNulling.rhsLenInvariant = none ∧
    exNulling.src.names.length = exNulling.numSyms := by
  refine ⟨exNulling_wf, by decide +kernel, by decide +kernel, ?_, rfl, rfl⟩
  intro s hs
  obtain rfl : s = 0 := by simpa [exNulling] using hs
  have d1 : Der exNulling.prod [1] [] := .prod ⟨⟨1, [], {}⟩, by decide +kernel, rfl, rfl⟩
  have d0 : Der exNulling.prod [0] [1, 5, 1, 6] := .prod ⟨⟨0, [1, 5, 1, 6], {}⟩, by decide +kernel, rfl, rfl⟩
  exact ⟨[5, 6], derives_iff_der.2
    (d0.trans (d1.append ((Der.refl [5]).append (d1.append (Der.refl [6]))))), by decide +kernel⟩

open Basic in
/-- **C115**, from a text: a text of BNF rules, the first of which is for a productive name, is loaded
and prepared. The only root of the result derives the start marker, a string of names and the end
marker exactly if the name on the left of the first rule stands for the string of names. -/
theorem C115_prepare_text {R : Recognizer Terminal} (hR : R.Correct bnfSyntax Nonterminal.start)
    (p : Profile) {text : Text} {ts : List Token} (hl : Lexed text ts []) {first : Stmt}
    {rest : List Stmt} (hb : IsBnf (first :: rest) ts) :
    ∃ (g : Cfg) (sym : Text → Sym), load R p text = .ok (.ok g) ∧
      (∀ n ∈ (first :: rest).flatMap Stmt.names, ∀ n' ∈ (first :: rest).flatMap Stmt.names,
        sym n = sym n' → n = n') ∧
      ((∃ w, InLang (bnfProd (first :: rest) sym) (bnfTerm (first :: rest) sym) (sym first.lhs) w) →
      ∃ g₁ b g₂ g₃ res r root start stop, ∃ (new : Text → Sym), g.makeProper = .ok (g₁, b) ∧
        g₁.wrapInput = .ok g₂ ∧ g₂.binarizeAndEliminateNulling = .ok (g₃, res) ∧
        (Remap.new g₃).removeUnusedSymbols = .ok r ∧
        (∀ q ∈ r.g.rules, 1 ≤ q.rhs.length ∧ q.rhs.length ≤ 2) ∧ r.g.roots = [root] ∧
        r.g.Term start ∧ r.g.Term stop ∧
        (∀ w, InLang (bnfProd (first :: rest) sym) (bnfTerm (first :: rest) sym) (sym first.lhs) w →
          ∀ a ∈ w, g₃.Used a) ∧
        (∀ n ∈ (first :: rest).flatMap Stmt.names, ∀ n' ∈ (first :: rest).flatMap Stmt.names,
          g₃.Used (sym n) → g₃.Used (sym n') → new n = new n' → n = n') ∧
        ∀ ns : List Text, (∀ n ∈ ns, n ∈ (first :: rest).flatMap Stmt.names ∧
            (∀ s ∈ first :: rest, s.lhs ≠ n) ∧ g₃.Used (sym n)) →
          (∀ n ∈ ns, r.g.Term (new n) ∧ r.g.src.originalNameOf (new n) = some (String.ofList n)) ∧
          (r.g.Lang root ([start] ++ ns.map new ++ [stop]) ↔
            InLang (bnfProd (first :: rest) sym) (bnfTerm (first :: rest) sym) (sym first.lhs)
              (ns.map sym))) := by
  obtain ⟨g, sym, e, h⟩ := build_spec p hb.1
  obtain ⟨hlim, hlen⟩ := build_named e
  refine ⟨g, sym, (load_of_bnf hR p hl ((C66_tokens text ts).2 hl) hb).trans e, h.inj, fun hp => ?_⟩
  have hf : first.lhs ∈ (first :: rest).flatMap Stmt.names := by simp [Stmt.names]
  have hr : g.roots = [sym first.lhs] := by
    obtain ⟨s, hs, hr⟩ := h.roots
    cases hs
    exact hr
  obtain ⟨w, hw⟩ := hp
  obtain ⟨g₁, b, g₂, g₃, res, r, σ, e1, e2, e3, e4, -, h1, -, hone, h2, h3, h4⟩ := C115_prepare h.wf
    (by rw [hr]; simpa using (h.names _ hf).1) (by rw [hr]; simp)
    (by rw [hr]; simpa using ⟨w, (h.lang _ hf w).2 hw⟩) hlim hlen
  obtain ⟨wr, k1, k2, k3, k4, k5, k6⟩ := h4 0 (sym first.lhs) (by rw [hr]; rfl)
  rw [hr] at hone
  refine ⟨g₁, b, g₂, g₃, res, r, wr.root, wr.startOfInput, wr.endOfInput, fun n => σ (sym n), e1, e2, e3,
    e4, h1, ?_, k3, k4, fun w hw => k5 w ((h.lang _ hf w).2 hw),
    fun n hn n' hn' u u' he => h.inj n hn n' hn' (h2 _ _ u u' he), fun ns hns => ?_⟩
  · obtain ⟨x, hx⟩ := List.length_eq_one_iff.1 hone
    rw [hx] at k2 ⊢
    cases k2
    rfl
  have ht : ∀ n ∈ ns, g.Term (sym n) := fun n hn => (h.term _).2 ⟨n, (hns n hn).1, rfl, (hns n hn).2.1⟩
  refine ⟨fun n hn => ?_, ?_⟩
  · obtain ⟨t1, t2⟩ := h3 _ (ht n hn) (hns n hn).2.2
    exact ⟨t1, t2.trans (h.names n (hns n hn).1).2⟩
  · rw [← h.lang _ hf, ← (k6 (ns.map sym) fun a ha => ?_).1, List.map_map]
    · rfl
    · obtain ⟨n, hn, rfl⟩ := List.mem_map.1 ha
      exact ⟨ht n hn, (hns n hn).2.2⟩

open Basic in
/-- `sampleText` meets the hypotheses (see `Props/Load.lean`): its first name is productive, however the
names are numbered. -/
example (sym : Text → Sym) : ∃ w, InLang
    (bnfProd [⟨"S".toList, [[.name "a".toList .none, .name "S".toList .none,
      .name "b".toList .zeroOrMore], [.unit]]⟩, ⟨"T".toList, []⟩] sym)
    (bnfTerm [⟨"S".toList, [[.name "a".toList .none, .name "S".toList .none,
      .name "b".toList .zeroOrMore], [.unit]]⟩, ⟨"T".toList, []⟩] sym) (sym "S".toList) w := by
  refine ⟨[], derives_iff_der.2 (.prod ⟨_, .head _, rfl, [.unit], ?_, ?_⟩), by simp⟩
  · simp [Stmt.choices]
  · exact ⟨[[]], .cons (by simp [Elem.Means]) .nil, rfl⟩

end Verif
