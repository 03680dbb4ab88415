import Verif.Props.Pipeline
import Verif.Props.NullingHistory
import Verif.Props.LoadOrigins

/-! # Property C150: rules of a prepared grammar can be traced to the rules written -/

namespace Verif

open Cfg

/-- Without a length limit, the rules that `wrap_input` adds are those of the new roots and have the
origin 0. -/
theorem wrapInput_origins {g g' : Cfg} (hlim : g.rhsLenInvariant = none) (h : g.wrapInput = .ok g') :
    ∀ r ∈ g'.rules, r ∈ g.rules ∨ r.lhs ∈ g'.roots ∧ r.history.origin = 0 := by
  have key : ∀ (rs : List Sym) (g₁ : Cfg), g₁.rhsLenInvariant = none →
      (∀ r ∈ g₁.rules, r ∈ g.rules ∨ r.lhs ∈ g₁.roots ∧ r.history.origin = 0) →
      rs.foldlM Cfg.wrapOne g₁ = .ok g' →
      ∀ r ∈ g'.rules, r ∈ g.rules ∨ r.lhs ∈ g'.roots ∧ r.history.origin = 0 := by
    intro rs
    induction rs with
    | nil => intro g₁ _ h1 h; cases h; exact h1
    | cons root rs ih =>
      intro g₁ hl h1 h
      rw [List.foldlM_cons] at h
      obtain ⟨g₂, h2, h⟩ := Res.bind_eq_ok.1 h
      unfold Cfg.wrapOne at h2
      dsimp only at h2
      rw [addRule_push (by exact hl)] at h2
      cases h2
      refine ih _ ?_ ?_ h
      · exact hl
      intro r hr
      rcases List.mem_append.1 hr with hr | hr
      · exact (h1 r hr).imp id fun ⟨h2, h3⟩ => ⟨List.mem_append_left _ h2, h3⟩
      · rw [List.mem_singleton.1 hr]
        exact .inr ⟨List.mem_append_right _ (List.mem_singleton.2 rfl), rfl⟩
  exact key g.roots { g with wrappedRoots := [], roots := [] } hlim (fun r hr => .inl hr) h

/-- Without a length limit, `wrap_input` keeps the rules. -/
theorem wrapInput_sub {g g' : Cfg} (hlim : g.rhsLenInvariant = none) (h : g.wrapInput = .ok g') :
    ∀ r ∈ g.rules, r ∈ g'.rules := by
  have key : ∀ (rs : List Sym) (g₁ : Cfg), g₁.rhsLenInvariant = none →
      rs.foldlM Cfg.wrapOne g₁ = .ok g' → ∀ r ∈ g₁.rules, r ∈ g'.rules := by
    intro rs
    induction rs with
    | nil => intro g₁ _ h; cases h; exact fun r hr => hr
    | cons root rs ih =>
      intro g₁ hl h r hr
      rw [List.foldlM_cons] at h
      obtain ⟨g₂, h2, h⟩ := Res.bind_eq_ok.1 h
      unfold Cfg.wrapOne at h2
      dsimp only at h2
      rw [addRule_push (by exact hl)] at h2
      cases h2
      exact ih _ (by exact hl) h r (List.mem_append_left _ hr)
  exact key g.roots { g with wrappedRoots := [], roots := [] } hlim h

/-- **C150.** Prepare a grammar as in C115. Every rule of the result has no origin, or the origin 0
and a root on the left, or the origin of a rule of the old grammar with the same left side: the
symbol of the new rule has the same name, and different old symbols stay different. Conversely, every
useful old rule with a symbol on its right, whose left side derives a string of at least one terminal,
has such a rule. -/
theorem C150_prepare {g : Cfg} (hwf : g.WF) (hroots : ∀ s ∈ g.roots, s < g.numSyms)
    (hne : g.roots ≠ []) (hprod : ∀ s ∈ g.roots, ∃ w, g.Lang s w) (hlim : g.rhsLenInvariant = none)
    (hnames : g.src.names.length = g.numSyms) :
    ∃ g₁ b g₂ g₃ res r, ∃ σ : Sym → Sym, g.makeProper = .ok (g₁, b) ∧ g₁.wrapInput = .ok g₂ ∧
      g₂.binarizeAndEliminateNulling = .ok (g₃, res) ∧
      (Remap.new g₃).removeUnusedSymbols = .ok r ∧
      (∀ a b, g₃.Used a → g₃.Used b → σ a = σ b → a = b) ∧
      (∀ a, a < g.numSyms → g₃.Used a →
        r.g.src.originalNameOf (σ a) = g.src.originalNameOf a) ∧
      (∀ q ∈ r.g.rules, q.history.origin = 2 ^ 32 - 1 ∨
        q.history.origin = 0 ∧ q.lhs ∈ r.g.roots ∨
        ∃ q₀ ∈ g.rules, q.history.origin = q₀.history.origin ∧ q.lhs = σ q₀.lhs ∧
          g₃.Used q₀.lhs) ∧
      ∀ q₀ ∈ g.rules, UsefulRule g.prod g.Term g.roots q₀.lhs q₀.rhs → q₀.rhs ≠ [] →
        (∃ w, w ≠ [] ∧ g.Lang q₀.lhs w) → g₃.Used q₀.lhs ∧
          ∃ q ∈ r.g.rules, q.history.origin = q₀.history.origin ∧ q.lhs = σ q₀.lhs := by
  obtain ⟨g₁, b, g₂, g₃, res, r, σ, e1, e2, e3, e4, -, -, -, -, -, hren, -⟩ :=
    prepare_core hwf hroots hne hprod hlim hnames
  obtain ⟨g₁', b', e1', hc, hr1, -⟩ := makeProper_spec hwf hroots
  obtain ⟨rfl, rfl⟩ := Prod.mk.inj (Res.ok.inj (e1.symm.trans e1'))
  obtain ⟨k1, k2⟩ := makeProper_keeps e1
  have hwf1 : g₁.WF := hc.wf hwf
  have hn1 : g₁.numSyms = g.numSyms := hc.numSyms
  have hlim1 : g₁.rhsLenInvariant = none := k2.trans hlim
  have hroots1 : ∀ s ∈ g₁.roots, s < g₁.numSyms := by rw [hr1, hn1]; exact hroots
  have hlimOk : ∀ n, g₁.rhsLenInvariant = some n → 2 ≤ n := fun n h => by rw [hlim1] at h; cases h
  obtain ⟨g₂', e2', hw⟩ := wrapInput_inv g₁ hwf1 hlimOk hroots1
  obtain rfl := Res.ok.inj (e2.symm.trans e2')
  obtain ⟨g₂s, _, _, e3', hs⟩ := elim_spec hw.wf
  obtain ⟨rfl, rfl⟩ := Prod.mk.inj (Res.ok.inj (e3.symm.trans e3'))
  obtain ⟨_, _, e3', o3⟩ := C147_origins hw.wf
  obtain ⟨rfl, rfl⟩ := Prod.mk.inj (Res.ok.inj (e3.symm.trans e3'))
  obtain ⟨_, _, e3', c3⟩ := C147_kept hw.wf
  obtain ⟨rfl, rfl⟩ := Prod.mk.inj (Res.ok.inj (e3.symm.trans e3'))
  have ext12 := Cfg.SrcExt.wrapInput e2
  have ext23 := Cfg.SrcExt.eliminate e3
  have ext3 : g.SrcExt g₃ := ((Cfg.SrcExt.of_eq k1).trans ext12).trans ext23
  refine ⟨g₁, b, g₂, g₃, res, r, σ, e1, e2, e3, e4, hren.inj,
    fun a ha hu => (hren.names a hu).trans (ext3.name hnames ha), fun q hq => ?_,
    fun q₀ hq₀ hu hne₀ ⟨w, hw₀, hl⟩ => ?_⟩
  swap
  · have h1 : q₀ ∈ g₁.rules := (hc.rules q₀).2 ⟨hq₀, hu⟩
    have h2 := wrapInput_sub hlim1 e2 q₀ h1
    have h3 : g₁.Lang q₀.lhs w := (hc.lang hu.1 ⟨w, hl⟩ w).2 hl
    obtain ⟨q, k1, k2, k3⟩ := c3 q₀ h2 hne₀ ⟨w, hw₀, (hw.old _ (hwf1 q₀ h1).1 w).2 h3⟩
    refine ⟨⟨q, k1, .inl k2⟩, q.rename σ, hren.rules.mem_iff.2 (List.mem_map_of_mem k1), k3, ?_⟩
    exact congrArg σ k2
  obtain ⟨q', hq', rfl⟩ := List.mem_map.1 (hren.rules.mem_iff.1 hq)
  have hu : g₃.Used q'.lhs := ⟨q', hq', .inl rfl⟩
  rcases o3 q' (List.mem_append_left _ hq') with h | ⟨q₂, hq₂, h1, h2⟩
  · exact .inl h
  · right
    rcases wrapInput_origins hlim1 e2 q₂ hq₂ with h3 | ⟨h3, h4⟩
    · exact .inr ⟨q₂, hc.sub.subset h3, h2.symm, congrArg σ h1.symm, h1 ▸ hu⟩
    · refine .inl ⟨h2.symm.trans h4, ?_⟩
      rw [hren.roots, hs.roots.1]
      exact List.mem_map.2 ⟨q₂.lhs, h3, congrArg σ h1⟩

/-- `S ::= A b A c`, `A ::= a |` with the origins 1 to 3; symbols `S A a b c = 0 .. 4`. -/
def exOrigins : Cfg :=
  { src := ⟨5, [none, none, none, none, none]⟩
    rules := [⟨0, [1, 3, 1, 4], History.new 1⟩, ⟨1, [2], History.new 2⟩, ⟨1, [], History.new 3⟩]
    roots := [0] }

example : exOrigins.WF ∧ (∀ s ∈ exOrigins.roots, s < exOrigins.numSyms) ∧ exOrigins.roots ≠ [] ∧
    (∀ s ∈ exOrigins.roots, ∃ w, exOrigins.Lang s w) ∧ exOrigins.rhsLenInvariant = none ∧
    exOrigins.src.names.length = exOrigins.numSyms := by
  refine ⟨by decide +kernel, by decide +kernel, by decide +kernel, ?_, rfl, rfl⟩
  intro s hs
  obtain rfl : s = 0 := by simpa [exOrigins] using hs
  have d1 : Der exOrigins.prod [1] [] := .prod ⟨⟨1, [], History.new 3⟩, by decide +kernel, rfl, rfl⟩
  have d0 : Der exOrigins.prod [0] [1, 3, 1, 4] :=
    .prod ⟨⟨0, [1, 3, 1, 4], History.new 1⟩, by decide +kernel, rfl, rfl⟩
  exact ⟨[3, 4], derives_iff_der.2
    (d0.trans (d1.append ((Der.refl [3]).append (d1.append (Der.refl [4]))))), by decide +kernel⟩

/-- The first rule is useful and `S` derives `b c`. -/
example : UsefulRule exOrigins.prod exOrigins.Term exOrigins.roots 0 [1, 3, 1, 4] ∧
    ∃ w, w ≠ [] ∧ exOrigins.Lang 0 w := by
  have d1 : Der exOrigins.prod [1] [] := .prod ⟨⟨1, [], History.new 3⟩, by decide +kernel, rfl, rfl⟩
  have d0 : Der exOrigins.prod [0] [1, 3, 1, 4] :=
    .prod ⟨⟨0, [1, 3, 1, 4], History.new 1⟩, by decide +kernel, rfl, rfl⟩
  have p1 : Productive exOrigins.prod exOrigins.Term 1 := ⟨[], derives_iff_der.2 d1, by simp⟩
  have p3 : Productive exOrigins.prod exOrigins.Term 3 := ⟨[3], .refl, by decide +kernel⟩
  have p4 : Productive exOrigins.prod exOrigins.Term 4 := ⟨[4], .refl, by decide +kernel⟩
  refine ⟨⟨⟨0, by decide +kernel, .refl _⟩, by simp [p1, p3, p4]⟩, [3, 4], by simp,
    derives_iff_der.2 (d0.trans (d1.append ((Der.refl [3]).append (d1.append (Der.refl [4]))))),
    by decide +kernel⟩

/-- Before the symbols are renumbered: the rules of `S` and `A` have their origins, the rules of the new
symbols 8, 9 and 10 have none, the rule of the root 5 has 0. -/
example : (do
    let (g₁, _) ← exOrigins.makeProper
    let g₂ ← g₁.wrapInput
    let (g₃, _) ← Cfg.binarizeAndEliminateNulling g₂
    .ok (g₃.rules.map fun q : CfgRule => (q.lhs, q.rhs, q.history.origin))) =
    .ok [(8, [1, 3], u32Max), (9, [8, 1], u32Max), (0, [9, 4], 1), (1, [2], 2),
      (10, [6, 0], u32Max), (5, [10, 7], 0), (8, [3], u32Max), (9, [8], u32Max)] := by
  decide +kernel

open Basic in
/-- **C150, for a text.** A text of BNF rules, the first of which is for a productive name, is loaded
and prepared. Every rule of the result has no origin, or the origin 0 (rules of the root and of
repetitions), or the number of an alternative of the text, counted from one, as its origin. In the
last case the symbol on its left has the name that is on the left of that alternative. -/
theorem C150_prepare_text {R : Recognizer Terminal} (hR : R.Correct bnfSyntax Nonterminal.start)
    (p : Profile) {text : Text} {ts : List Token} (hl : Lexed text ts []) {first : Stmt}
    {rest : List Stmt} (hb : IsBnf (first :: rest) ts)
    (hlt : (alternatives (first :: rest)).length < u32Max) :
    ∃ (g : Cfg) (sym : Text → Sym), load R p text = .ok (.ok g) ∧
      (∀ n ∈ (first :: rest).flatMap Stmt.names, ∀ n' ∈ (first :: rest).flatMap Stmt.names,
        sym n = sym n' → n = n') ∧
      ((∃ w, InLang (bnfProd (first :: rest) sym) (bnfTerm (first :: rest) sym) (sym first.lhs) w) →
      ∃ g₁ b g₂ g₃ res r, g.makeProper = .ok (g₁, b) ∧ g₁.wrapInput = .ok g₂ ∧
        g₂.binarizeAndEliminateNulling = .ok (g₃, res) ∧
        (Remap.new g₃).removeUnusedSymbols = .ok r ∧
        ∀ q ∈ r.g.rules, q.history.origin = 2 ^ 32 - 1 ∨ q.history.origin = 0 ∨
          ∃ k alt, (alternatives (first :: rest))[k]? = some alt ∧ q.history.origin = k + 1 ∧
            r.g.src.originalNameOf q.lhs = some (String.ofList alt.1)) := by
  obtain ⟨g, sym, e, h⟩ := build_spec p hb.1
  obtain ⟨hlim, hlen⟩ := build_named e
  have hload := (load_of_bnf hR p hl ((C66_tokens text ts).2 hl) hb).trans e
  obtain ⟨g', sym', hload', -, hname, horig, hfor⟩ := C141_origins hR p hl hb hlt
  obtain rfl : g = g' := by
    have := hload.symm.trans hload'
    simpa using this
  refine ⟨g, sym, hload, h.inj, fun hp => ?_⟩
  have hf : first.lhs ∈ (first :: rest).flatMap Stmt.names := by simp [Stmt.names]
  have hr : g.roots = [sym first.lhs] := by
    obtain ⟨s, hs, hr⟩ := h.roots
    cases hs
    exact hr
  obtain ⟨w, hw⟩ := hp
  obtain ⟨g₁, b, g₂, g₃, res, r, σ, e1, e2, e3, e4, h1, h2, h3, -⟩ := C150_prepare h.wf
    (by rw [hr]; simpa using (h.names _ hf).1) (by rw [hr]; simp)
    (by rw [hr]; simpa using ⟨w, (h.lang _ hf w).2 hw⟩) hlim hlen
  refine ⟨g₁, b, g₂, g₃, res, r, e1, e2, e3, e4, fun q hq => ?_⟩
  rcases h3 q hq with h3 | ⟨h3, h4⟩ | ⟨q₀, hq₀, h4, h5, h6⟩
  · exact .inl h3
  · exact .inr (.inl h3)
  · by_cases ho : q₀.history.origin ≠ 0 ∧ q₀.history.origin ≠ u32Max
    · right; right
      have hm : q₀ ∈ Advanced.originRules g := List.mem_filter.2 ⟨hq₀, by simpa using ho⟩
      obtain ⟨k, hk, rfl⟩ := List.mem_iff_getElem.1 hm
      have hlen' := hfor.length_eq
      have hk' : k < (alternatives (first :: rest)).length := by omega
      refine ⟨k, (alternatives (first :: rest))[k], by simp [hk'], ?_, ?_⟩
      · rw [h4]
        have := congrArg (·[k]?) horig
        simpa [hk, hk'] using this
      · have := (hfor.get hk' hk).1
        have hmem : (alternatives (first :: rest))[k].1 ∈ (first :: rest).flatMap Stmt.names := by
          have hk2 := List.getElem_mem hk'
          unfold alternatives at hk2
          obtain ⟨s, hs, hk3⟩ := List.mem_flatMap.1 hk2
          obtain ⟨alt, -, hk4⟩ := List.mem_map.1 hk3
          refine List.mem_flatMap.2 ⟨s, hs, ?_⟩
          unfold alternatives
          rw [← hk4]
          simp [Stmt.names]
        rw [h5, h2 _ (h.wf _ hq₀).1 h6]
        simp only [List.get_eq_getElem] at this
        rw [this]
        exact (hname _ hmem).2
    · rw [h4]
      unfold u32Max at ho
      omega

open Basic in
/-- The alternatives of `sampleText`, which is a text of BNF rules (see `Props/Load.lean`), the first
name of which is productive (see `Props/Pipeline.lean`). -/
example : (alternatives [⟨"S".toList, [[.name "a".toList .none, .name "S".toList .none,
    .name "b".toList .zeroOrMore], [.unit]]⟩, ⟨"T".toList, []⟩]).length < u32Max := by decide +kernel

end Verif
