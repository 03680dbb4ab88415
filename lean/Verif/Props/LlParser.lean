import Verif.Proofs.LlParser
import Verif.Props.LlTrees

/-! # C124: the LL(1) table drives a parser -/

namespace Verif

/-- The rules of the symbols reachable from `A` are found. -/
theorem finds_of {g : Cfg} {t : LlTable} (ht : ∀ B a (i : Nat) (r : CfgRule),
      g.rules[i]? = some r → r.lhs = B → LeadsEmpty g.prod g.Term r.rhs →
      (FirstOf g.prod g.Term r.rhs a ∨ (Derives g.prod r.rhs [] ∧ FollowOf g.prod g.Term B a)) →
      i ∈ (t.get? (B, a)).getD []) {A : Sym}
    (hlead : ∀ r ∈ g.rules, Reaches g.prod A r.lhs → LeadsEmpty g.prod g.Term r.rhs) :
    Finds g t (Reaches g.prod A) := by
  rintro B β a hB ⟨r, hr, rfl, rfl⟩ h
  obtain ⟨i, hi⟩ := List.mem_iff_getElem?.1 hr
  exact ⟨i, r, ht r.lhs a i r hi rfl (hlead r hr hB) h, hi, rfl⟩

theorem closedU_reaches (g : Cfg) (A : Sym) : ClosedU g (Reaches g.prod A) :=
  fun _ _ h hp _ hs => h.tail hp hs

/-- **C124, what is read.** Whatever the parser reads to the end can be derived from its stack, for
every grammar. If `a` can follow `A`, the parser started with `A` above `a` reads `w a` exactly if `A`
derives the string `w`, provided that the nullable symbols at the front of right sides derive only the
empty string.

Missing from the full statement: without this condition it is false (`C124_violated_lost`). -/
theorem C124_reads_partial {g : Cfg} (hwf : g.WF) :
    ∃ t, g.llParseTable = .ok t ∧
      (∀ α w, LlReads g t α w → Derives g.prod α w ∧ ∀ a ∈ w, g.Term a) ∧
      ∀ A a, FollowOf g.prod g.Term A a →
        (∀ r ∈ g.rules, Reaches g.prod A r.lhs → LeadsEmpty g.prod g.Term r.rhs) →
        ∀ w, LlReads g t [A, a] (w ++ [a]) ↔ g.Lang A w := by
  obtain ⟨t, e, ht⟩ := C46_cells_partial hwf
  have hs : ∀ {α w}, LlReads g t α w → Der g.prod α w ∧ ∀ a ∈ w, g.Term a := fun h =>
    h.sound fun A a i hi => let ⟨r, h1, h2, _⟩ := (ht A a).2.1 i hi; ⟨r, h1, h2⟩
  refine ⟨t, e, fun α w h => ⟨derives_iff_der.2 (hs h).1, (hs h).2⟩, fun A a hfol hlead w => ⟨?_, ?_⟩⟩
  · intro h
    obtain ⟨h1, h2⟩ := hs h
    obtain ⟨x, y, e', hx, hy⟩ := Der.split (u₁ := [A]) (u₂ := [a]) h1
    have hy' : y = [a] := by
      rcases Der.single_iff.1 hy with h | ⟨α, ⟨r, hr, h, -⟩, -⟩
      · exact h
      · exact absurd h (hfol.1.2 r hr)
    rw [hy'] at e'
    obtain rfl := List.append_cancel_right e'
    exact ⟨derives_iff_der.2 hx, fun b hb => h2 b (by simp [hb])⟩
  · rintro ⟨h1, h2⟩
    obtain ⟨hta, B, p, q, hd⟩ := hfol
    refine (reads_word (finds_of (fun B a => (ht B a).2.2) hlead) (closedU_reaches g A)
      (derives_iff_der.1 h1) h2 (by rintro s hs; rw [List.mem_singleton.1 hs]; exact Reaches.refl A)
      (v := []) hta ⟨B, p, q, by simpa using hd⟩ [a]).trans (.single (.read hta))

/-- The states that a run of the parser from `A` in front of terminals goes through. -/
def LlState (g : Cfg) (A : Sym) (s : List Sym × List Sym) : Prop :=
  ∀ x ∈ s.1, Reaches g.prod A x ∨ g.Term x

theorem LlState.step {g : Cfg} {t : LlTable} (ht : ∀ A a, ∀ i ∈ (t.get? (A, a)).getD [],
      ∃ r, g.rules[i]? = some r ∧ r.lhs = A) {A : Sym} {s s' : List Sym × List Sym}
    (h : LlState g A s) (hm : LlMove g t s s') : LlState g A s' := by
  cases hm with
  | read => exact fun x hx => h x (List.mem_cons_of_mem _ hx)
  | @expand B a α w i r hi hr =>
    obtain ⟨r', hr', hA⟩ := ht _ _ _ hi
    obtain rfl := Option.some.inj (hr.symm.trans hr')
    intro x hx
    rcases List.mem_append.1 hx with hx | hx
    · rcases h B List.mem_cons_self with hB | hB
      · exact .inl (hB.tail ⟨r, List.mem_of_getElem? hr, hA, rfl⟩ hx)
      · exact absurd hA (hB.2 r (List.mem_of_getElem? hr))
    · exact h x (List.mem_cons_of_mem _ hx)

theorem LlState.det {g : Cfg} {t : LlTable} (ht : ∀ A a, ∀ i ∈ (t.get? (A, a)).getD [],
      ∃ r, g.rules[i]? = some r ∧ r.lhs = A) {A : Sym}
    (hcells : ∀ B a, Reaches g.prod A B → ((t.get? (B, a)).getD []).length < 2)
    {s s₁ s₂ : List Sym × List Sym} (h : LlState g A s) (h₁ : LlMove g t s s₁)
    (h₂ : LlMove g t s s₂) : s₁ = s₂ := by
  have hterm : ∀ {B a : Sym} {i : Nat}, i ∈ (t.get? (B, a)).getD [] → ¬ g.Term B := by
    intro B a i hi hB
    obtain ⟨r, hr, hA⟩ := ht _ _ _ hi
    exact hB.2 r (List.mem_of_getElem? hr) hA
  cases h₁ with
  | read ha =>
    cases h₂ with
    | read => rfl
    | expand hi => exact absurd ha (hterm hi)
  | @expand B a α w i r hi hr =>
    cases h₂ with
    | read ha => exact absurd ha (hterm hi)
    | @expand _ _ _ _ j r' hj hr' =>
      have hB : Reaches g.prod A B := (h B List.mem_cons_self).resolve_right (hterm hi)
      have hlen := hcells B a hB
      have : i = j := by
        cases hl : (t.get? (B, a)).getD [] with
        | nil => rw [hl] at hi; cases hi
        | cons k l =>
          rw [hl] at hi hj hlen
          cases l with
          | nil => rw [List.mem_singleton.1 hi, List.mem_singleton.1 hj]
          | cons k' l => exact absurd hlen (by simp)
      subst this
      obtain rfl := Option.some.inj (hr.symm.trans hr')
      rfl

/-- **C124, one way.** If `classify` gives `A` the class `Ll1`, the parser started with `A` above a
terminal never has a choice, whatever the input. -/
theorem C124_deterministic {g : Cfg} (hwf : g.WF) :
    ∃ t c, g.llParseTable = .ok t ∧ g.llClassify t = .ok c ∧ ∀ A, c A = some .ll1 →
      ∀ a w s, g.Term a → Relation.ReflTransGen (LlMove g t) ([A, a], w) s →
        ∀ s₁ s₂, LlMove g t s s₁ → LlMove g t s s₂ → s₁ = s₂ := by
  obtain ⟨t, c, e, e', hc⟩ := C76_classes hwf
  obtain ⟨t', e'', ht⟩ := C46_cells_partial hwf
  obtain rfl := Res.ok.inj (e.symm.trans e'')
  have ht' : ∀ A a, ∀ i ∈ (t.get? (A, a)).getD [], ∃ r, g.rules[i]? = some r ∧ r.lhs = A :=
    fun A a i hi => let ⟨r, h1, h2, _⟩ := (ht A a).2.1 i hi; ⟨r, h1, h2⟩
  refine ⟨t, c, e, e', fun A hA a w s ha hr s₁ s₂ h₁ h₂ => ?_⟩
  refine LlState.det ht' ((hc A).2.2.1 hA).2 ?_ h₁ h₂
  clear h₁ h₂
  induction hr with
  | refl =>
    intro x hx
    simp only [List.mem_cons, List.not_mem_nil, or_false] at hx
    rcases hx with rfl | rfl
    · exact .inl (Reaches.refl _)
    · exact .inr ha
  | tail _ hm ih => exact ih.step ht' hm

/-- **C124, the end of every run.** If `classify` gives `A` the class `Ll1`, each run of the parser
from `A` above a terminal stops, whatever the input, provided that all symbols of rules that `A`
reaches are productive, and that nullable symbols at the front of right sides derive only the empty
string.

Missing from the full statement: without these conditions it is false (`C124_violated_loop`). -/
theorem C124_stops_partial {g : Cfg} (hwf : g.WF) :
    ∃ t c, g.llParseTable = .ok t ∧ g.llClassify t = .ok c ∧ ∀ A, c A = some .ll1 →
      (∀ r ∈ g.rules, Reaches g.prod A r.lhs → LeadsEmpty g.prod g.Term r.rhs ∧
        ∀ s ∈ r.rhs, Productive g.prod g.Term s) →
      ∀ a w, g.Term a → Acc (fun s' s => LlMove g t s s') ([A, a], w) := by
  obtain ⟨t, c, e, e', hc⟩ := C76_classes hwf
  obtain ⟨t', e'', ht⟩ := C46_cells_partial hwf
  obtain rfl := Res.ok.inj (e.symm.trans e'')
  have ht' : ∀ A a, ∀ i ∈ (t.get? (A, a)).getD [], ∃ r, g.rules[i]? = some r ∧ r.lhs = A :=
    fun A a i hi => let ⟨r, h1, h2, _⟩ := (ht A a).2.1 i hi; ⟨r, h1, h2⟩
  refine ⟨t, c, e, e', fun A hA hrules a w ha => ?_⟩
  have hcells := ((hc A).2.2.1 hA).2
  have hf := finds_of (fun B a => (ht B a).2.2) fun r hr h => (hrules r hr h).1
  have hU := closedU_reaches g A
  -- a run to a state from which all runs stop
  have back : ∀ {s s'}, Relation.ReflTransGen (LlMove g t) s s' → LlState g A s →
      (LlState g A s' → Acc (fun s' s => LlMove g t s s') s') →
      Acc (fun s' s => LlMove g t s s') s := by
    intro s s' h
    induction h using Relation.ReflTransGen.head_induction_on with
    | refl => exact fun h1 h2 => h2 h1
    | head hm _ ih =>
      intro h1 h2
      have := ih (h1.step ht' hm) h2
      refine ⟨_, fun y hy => ?_⟩
      rwa [← h1.det ht' hcells hm hy]
  have main : ∀ n : Nat, ∀ w : List Sym, w.length = n → ∀ m : Nat, ∀ α : List Sym, α.length = m →
      LlState g A (α, w) → Acc (fun s' s => LlMove g t s s') (α, w) := by
    intro n
    induction n using Nat.strong_induction_on with
    | _ n ihn =>
    intro w hw m
    induction m using Nat.strong_induction_on with
    | _ m ihm =>
    intro α hα hst
    refine ⟨_, fun y hy => ?_⟩
    have hst' := hst.step ht' hy
    cases hy with
    | read =>
      exact ihn _ (by simp only [List.length_cons] at hw; omega) _ rfl _ _ rfl hst'
    | @expand B b α v i r hi hr =>
      obtain ⟨r', hr', hB, hcell⟩ := (ht B b).2.1 i hi
      obtain rfl := Option.some.inj (hr.symm.trans hr')
      have hmem := List.mem_of_getElem? hr
      have hAB : Reaches g.prod A B := (hst B List.mem_cons_self).resolve_right
        fun h => h.2 r hmem hB
      have hp : g.prod B r.rhs := ⟨r, hmem, hB, rfl⟩
      have hUr : ∀ s ∈ r.rhs, Reaches g.prod A s := fun s hs => hAB.tail hp hs
      rcases hcell (hrules r hmem (hB ▸ hAB)).2 with ⟨hb, γ, hγ⟩ | ⟨hn, hb, C, p, q, hd⟩
      · obtain ⟨β', hrun⟩ := reads_first hf hU hb (derives_iff_der.1 hγ) hUr rfl
          ⟨B, [], derives_iff_der.2 (by simpa using Der.prod hp)⟩ α v
        refine back hrun hst' fun h => ?_
        exact ihn _ (by simp only [List.length_cons] at hw; omega) _ rfl _ _ rfl h
      · have hctx : Derives g.prod [C] (p ++ r.rhs ++ b :: q) := by
          refine derives_iff_der.2 ((derives_iff_der.1 hd).trans ?_)
          have := (Der.refl (P := g.prod) p).append ((Der.prod hp).append (Der.refl (b :: q)))
          simpa using this
        have hrun := reads_word hf hU (derives_iff_der.1 hn) (by simp) hUr (v := v) hb
          ⟨C, p, q, hctx⟩ α
        refine back hrun hst' fun h => ?_
        exact ihm α.length (by simp only [List.length_cons] at hα; omega) α rfl h
  refine main _ w rfl _ _ rfl ?_
  intro x hx
  simp only [List.mem_cons, List.not_mem_nil, or_false] at hx
  rcases hx with rfl | rfl
  · exact .inl (Reaches.refl _)
  · exact .inr ha

/-- **C124 for a wrapped grammar.** After `wrap_input`, the parser started with an old root above its
end mark reads a string with the end mark behind it exactly if the string is in the language of the
root, under the condition of `C124_reads_partial`. -/
theorem C124_wrapped_partial {g : Cfg} (hwf : g.WF)
    (hlim : ∀ n, g.rhsLenInvariant = some n → 2 ≤ n) (hroots : ∀ r ∈ g.roots, r < g.numSyms) :
    ∃ g' t, g.wrapInput = .ok g' ∧ g'.llParseTable = .ok t ∧
      g'.wrappedRoots.map (·.innerRoot) = g.roots ∧
      ∀ wr ∈ g'.wrappedRoots,
        (∀ r ∈ g'.rules, Reaches g'.prod wr.innerRoot r.lhs → LeadsEmpty g'.prod g'.Term r.rhs) →
        ∀ w, LlReads g' t [wr.innerRoot, wr.endOfInput] (w ++ [wr.endOfInput]) ↔
          g.Lang wr.innerRoot w := by
  obtain ⟨g', h1, h2⟩ := g.wrapInput_inv hwf hlim hroots
  obtain ⟨t, e, -, ht⟩ := C124_reads_partial h2.wf
  refine ⟨g', t, h1, e, h2.inner, fun wr hwr hlead w => ?_⟩
  refine (ht wr.innerRoot wr.endOfInput ⟨(h2.new wr hwr).2.1, wr.root,
    [wr.startOfInput], [], (h2.wraps wr hwr).2⟩ hlead w).trans (h2.old _ (hroots _ ?_) w)
  rw [← h2.inner]
  exact List.mem_map.2 ⟨wr, hwr, rfl⟩

/-! ## Examples -/

/-- The symbols of `exLlTrees` are productive; with the example above, it meets the hypotheses of all
parts of C124. -/
example : ∀ r ∈ exLlTrees.rules, ∀ s ∈ r.rhs, Productive exLlTrees.prod exLlTrees.Term s := by
  have h1 : Productive exLlTrees.prod exLlTrees.Term 1 := ⟨[], derives_iff_der.2
    (.prod ⟨⟨1, [], {}⟩, by decide, rfl, rfl⟩), by simp⟩
  have ht : ∀ s, exLlTrees.Term s → Productive exLlTrees.prod exLlTrees.Term s := fun s hs =>
    ⟨[s], .refl, by simpa using hs⟩
  intro r hr s hs
  simp only [exLlTrees, List.mem_cons, List.not_mem_nil, or_false] at hr
  rcases hr with rfl | rfl | rfl | rfl <;>
    simp only [List.mem_cons, List.not_mem_nil, or_false] at hs
  · rcases hs with rfl | rfl | rfl
    · exact ht _ (by decide)
    · exact h1
    · exact ht _ (by decide)
  · subst hs
    exact ht _ (by decide)
  · rcases hs with rfl | rfl
    · exact ht _ (by decide)
    · exact h1

/-- `S ::= Y a`, `Y ::= b | ε`; symbols `S Y a b = 0 .. 3`. -/
def exLlLost : Cfg :=
  { src := ⟨4, [none, none, none, none]⟩
    rules := [⟨0, [1, 2], {}⟩, ⟨1, [3], {}⟩, ⟨1, [], {}⟩]
    roots := [0] }

/-- **C124 does not hold**: in `exLlLost`, where both nonterminals get the class `Ll1`, the string
`a` is a sentence, but no rule is found for `S` in front of `a`. -/
theorem C124_violated_lost : exLlLost.WF ∧ exLlLost.Lang 0 [2] ∧
    ∃ t c, exLlLost.llParseTable = .ok t ∧ exLlLost.llClassify t = .ok c ∧
      c 0 = some .ll1 ∧ c 1 = some .ll1 ∧ ∀ α w s, ¬ LlMove exLlLost t (0 :: α, 2 :: w) s := by
  refine ⟨by decide +kernel, ⟨?_, by decide⟩, ?_⟩
  · refine .head (b := [1, 2]) ⟨0, [1, 2], [], [], ⟨⟨0, [1, 2], {}⟩, by decide, rfl, rfl⟩, rfl, rfl⟩ ?_
    exact .single ⟨1, [], [], [2], ⟨⟨1, [], {}⟩, by decide, rfl, rfl⟩, rfl, rfl⟩
  · have h : (do let t ← exLlLost.llParseTable
                 let c ← exLlLost.llClassify t
                 .ok (t.get? (0, 2), [0, 1].map c)) = .ok (none, [some .ll1, some .ll1]) := by
      decide +kernel
    obtain ⟨t, e, h⟩ := Res.bind_eq_ok.1 h
    obtain ⟨c, e', h⟩ := Res.bind_eq_ok.1 h
    simp only [Res.ok.injEq, Prod.mk.injEq, List.map_cons, List.map_nil, List.cons.injEq,
      and_true] at h
    refine ⟨t, c, e, e', h.2.1, h.2.2, fun α w s hm => ?_⟩
    cases hm with
    | expand hi => rw [h.1] at hi; cases hi

/-- **C124 does not hold**: in `exLlExtra`, where both nonterminals get the class `Ll1`, the parser
replaces `U` by `U` in front of `c` forever. -/
theorem C124_violated_loop : exLlExtra.WF ∧
    ∃ t c, exLlExtra.llParseTable = .ok t ∧ exLlExtra.llClassify t = .ok c ∧
      c 0 = some .ll1 ∧ c 1 = some .ll1 ∧
      LlMove exLlExtra t ([0, 2], [2, 2]) ([1, 2, 2], [2, 2]) ∧
      LlMove exLlExtra t ([1, 2, 2], [2, 2]) ([1, 2, 2], [2, 2]) := by
  refine ⟨by decide +kernel, ?_⟩
  have h : (do let t ← exLlExtra.llParseTable
               let c ← exLlExtra.llClassify t
               .ok (t.get? (0, 2), t.get? (1, 2), [0, 1].map c)) =
      .ok (some [0], some [1], [some .ll1, some .ll1]) := by
    decide +kernel
  obtain ⟨t, e, h⟩ := Res.bind_eq_ok.1 h
  obtain ⟨c, e', h⟩ := Res.bind_eq_ok.1 h
  simp only [Res.ok.injEq, Prod.mk.injEq, List.map_cons, List.map_nil, List.cons.injEq,
    and_true] at h
  refine ⟨t, c, e, e', h.2.2.1, h.2.2.2, ?_, ?_⟩
  · exact .expand (i := 0) (r := ⟨0, [1, 2], {}⟩) (by rw [h.1]; simp) rfl
  · exact .expand (i := 1) (r := ⟨1, [1], {}⟩) (by rw [h.2.1]; simp) rfl

end Verif
