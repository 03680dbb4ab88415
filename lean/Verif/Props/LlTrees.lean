import Verif.Proofs.LlTrees
import Verif.Props.Predict
import Verif.Proofs.TreesOps

/-! # C112: nonterminals classified as LL(1) are unambiguous -/

namespace Verif

/-- The trees of a nonterminal that is classified as LL(1), in front of a text that can follow it. -/
theorem ll1_unique {g : Cfg} {t : LlTable} (ht : ∀ B a, (∀ k r, g.rules[k]? = some r → r.lhs = B →
      LeadsEmpty g.prod g.Term r.rhs → (FirstOf g.prod g.Term r.rhs a ∨
        (Derives g.prod r.rhs [] ∧ FollowOf g.prod g.Term B a)) → k ∈ (t.get? (B, a)).getD []))
    {A : Sym} (hcells : ∀ B a, Reaches g.prod A B → ((t.get? (B, a)).getD []).length < 2)
    (hlead : ∀ r ∈ g.rules, Reaches g.prod A r.lhs → LeadsEmpty g.prod g.Term r.rhs)
    {x w : List Sym} (hx : x = [] → ∀ B, Reaches g.prod A B → Subsingleton (g.Trees B []))
    (hfol : ∀ a x', x = a :: x' → FollowOf g.prod g.Term A a) : Subsingleton (g.Trees A w) := by
  refine ⟨fun ⟨f, hf⟩ ⟨f', hf'⟩ => ?_⟩
  have hbef : Before g.pairs g.Term [A] x := by
    refine ⟨⟨A, [], [], .refl _⟩, fun α1 B α2 a x' e _ e' => ?_⟩
    rw [g.pairs_prod]
    cases α1 with
    | nil =>
      obtain ⟨rfl, -⟩ := List.cons.inj e
      exact hfol a x' e'
    | cons _ α1 => cases α1 <;> cases (List.cons.inj e).2
  refine Subtype.ext (lookahead_unique (U := fun B => Reaches g.prod A B) ?_ ?_ ?_ hf hf' (x := x)
    (y := x) (by rintro B hB; rw [List.mem_singleton.1 hB]; exact Reaches.refl A) hbef hbef hx rfl).1
  · intro B β hr hB C hC
    exact hB.tail (Cfg.mem_pairs.1 hr) hC
  · intro i j B β γ a hB hi hj h1 h2
    rw [g.pairs_prod] at h1 h2
    have entry : ∀ {k : Nat} {δ : List Sym}, g.pairs[k]? = some (B, δ) →
        (FirstOf g.prod g.Term δ a ∨ (Derives g.prod δ [] ∧ FollowOf g.prod g.Term B a)) →
        k ∈ (t.get? (B, a)).getD [] := by
      intro k δ hk hδ
      unfold Cfg.pairs at hk
      rw [List.getElem?_map, Option.map_eq_some_iff] at hk
      obtain ⟨r, hr, hrB⟩ := hk
      obtain ⟨rfl, rfl⟩ := Prod.mk.inj hrB
      exact ht r.lhs a k r hr rfl (hlead r (List.mem_of_getElem? hr) hB) hδ
    have hlen := hcells B a hB
    have hi' := entry hi h1
    have hj' := entry hj h2
    cases hl : (t.get? (B, a)).getD [] with
    | nil => rw [hl] at hi'; cases hi'
    | cons k l =>
      rw [hl] at hi' hj' hlen
      cases l with
      | nil => rw [List.mem_singleton.1 hi', List.mem_singleton.1 hj']
      | cons k' l => exact absurd hlen (by simp)
  · intro h B f f' hB h1 h2
    exact congrArg Subtype.val ((h B hB).elim ⟨f, h1⟩ ⟨f', h2⟩)

/-- **C112, in part.** If `classify` gives a nonterminal the class `Ll1`, every string has at most one
parse tree with it at the root, provided that some terminal can follow the nonterminal, or for the
symbols reachable from it the empty string has at most one parse tree; and that the nullable symbols at
the front of right sides derive only the empty string.

Missing from the full statement: without these conditions it is false (`C112_violated_end`,
`C112_violated_front`). -/
theorem C112_unambiguous_partial {g : Cfg} (hwf : g.WF) :
    ∃ t c, g.llParseTable = .ok t ∧ g.llClassify t = .ok c ∧ ∀ A, c A = some .ll1 →
      ((∃ a, FollowOf g.prod g.Term A a) ∨
        ∀ B, Reaches g.prod A B → Subsingleton (g.Trees B [])) →
      (∀ r ∈ g.rules, Reaches g.prod A r.lhs → LeadsEmpty g.prod g.Term r.rhs) →
      g.Unambiguous A := by
  obtain ⟨t, c, e, e', hc⟩ := C76_classes hwf
  obtain ⟨t', e'', ht⟩ := C46_cells_partial hwf
  obtain rfl := Res.ok.inj (e.symm.trans e'')
  refine ⟨t, c, e, e', fun A hA hemp hlead w => ?_⟩
  have hcells := ((hc A).2.2.1 hA).2
  rcases hemp with ⟨a, ha⟩ | hemp
  · exact ll1_unique (x := [a]) (fun B a => (ht B a).2.2) hcells hlead (fun h => nomatch h)
      (fun b x' h => by obtain ⟨rfl, -⟩ := List.cons.inj h; exact ha)
  · exact ll1_unique (x := []) (fun B a => (ht B a).2.2) hcells hlead (fun _ => hemp)
      (fun b x' h => nomatch h)

/-- **C112, in part.** With markers around the input, the class `Ll1` of a root means that it is
unambiguous, whatever trees the empty string has, provided that the nullable symbols at the front of
right sides derive only the empty string. -/
theorem C112_wrapped_partial {g : Cfg} (hwf : g.WF) (hlim : ∀ n, g.rhsLenInvariant = some n → 2 ≤ n)
    (hroots : ∀ r ∈ g.roots, r < g.numSyms) :
    ∃ g' t c, g.wrapInput = .ok g' ∧ g'.llParseTable = .ok t ∧ g'.llClassify t = .ok c ∧
      ∀ A ∈ g.roots, c A = some .ll1 →
        (∀ r ∈ g'.rules, Reaches g'.prod A r.lhs → LeadsEmpty g'.prod g'.Term r.rhs) →
        g.Unambiguous A := by
  obtain ⟨g', h1, h2⟩ := g.wrapInput_inv hwf hlim hroots
  obtain ⟨g'', h1', h3, -⟩ := Cfg.wrapInput_trees hwf hlim hroots
  obtain rfl := Res.ok.inj (h1.symm.trans h1')
  obtain ⟨t, c, e, e', hc⟩ := C112_unambiguous_partial h2.wf
  refine ⟨g', t, c, h1, e, e', fun A hA hcA hlead w => ?_⟩
  obtain ⟨wr, hwr, rfl⟩ := List.mem_map.1 (h2.inner ▸ hA)
  have hu := hc wr.innerRoot hcA (.inl ⟨wr.endOfInput, (h2.new wr hwr).2.1, wr.root,
    [wr.startOfInput], [], (h2.wraps wr hwr).2⟩) hlead w
  obtain ⟨e⟩ := h3 wr.innerRoot (hroots _ hA) w
  exact e.subsingleton

/-! ## Examples -/

/-- `S ::= a X c | d`, `X ::= b X | ε`; symbols `S X a b c d = 0 .. 5`. -/
def exLlTrees : Cfg :=
  { src := ⟨6, [none, none, none, none, none, none]⟩
    rules := [⟨0, [2, 1, 4], {}⟩, ⟨0, [5], {}⟩, ⟨1, [3, 1], {}⟩, ⟨1, [], {}⟩]
    roots := [0] }

theorem leadsEmpty_term {P : Productions} {T : Sym → Prop} {a : Sym} {α : List Sym}
    (h : ¬ Nullable P a) : LeadsEmpty P T (a :: α) := by
  intro pre s post e hd hn
  cases pre with
  | nil =>
    obtain ⟨rfl, -⟩ := List.cons.inj e
    exact absurd hn h
  | cons b pre =>
    obtain ⟨rfl, -⟩ := List.cons.inj e
    exact absurd (der_nil_iff.1 (derives_iff_der.1 hd) a (by simp)) h

theorem term_not_nullable {g : Cfg} {a : Sym} (h : g.Term a) : ¬ Nullable g.prod a := by
  intro hn
  rcases Der.single_iff.1 (derives_iff_der.1 hn) with e | ⟨α, ⟨r, hr, h1, -⟩, -⟩
  · cases e
  · exact h.2 r hr h1

theorem not_empty_forest {rules : List (Sym × List Sym)} {T : Sym → Prop} {a : Sym} {α : List Sym}
    {f : Forest} (ha : T a) : ¬ IsForest rules T (a :: α) f [] := by
  intro h
  generalize e : ([] : List Sym) = w at h
  cases h with
  | leaf => cases e
  | node _ hn => exact hn ha

/-- A grammar that meets the hypotheses of `C112_unambiguous_partial`, although the nullable symbol `X`
derives strings that are not empty. -/
example : exLlTrees.WF ∧
    (do let t ← exLlTrees.llParseTable
        let c ← exLlTrees.llClassify t
        .ok ([0, 1].map c)) = .ok [some .ll1, some .ll1] ∧
    (∀ B, Subsingleton (exLlTrees.Trees B [])) ∧
    ∀ r ∈ exLlTrees.rules, LeadsEmpty exLlTrees.prod exLlTrees.Term r.rhs := by
  refine ⟨by decide +kernel, by decide +kernel, fun B => ⟨?_⟩, ?_⟩
  · have key : ∀ f, IsForest exLlTrees.pairs exLlTrees.Term [B] f [] → f = .node 3 .nil .nil := by
      intro f h
      generalize e : ([] : List Sym) = w at h
      cases h with
      | leaf => cases e
      | @node i A c f β u v α hi hn hc hf =>
        obtain ⟨rfl, rfl⟩ := List.append_eq_nil_iff.1 e.symm
        cases hf
        rcases i with _ | _ | _ | _ | i
        · cases hi
          exact absurd hc (not_empty_forest (by decide))
        · cases hi
          exact absurd hc (not_empty_forest (by decide))
        · cases hi
          exact absurd hc (not_empty_forest (by decide))
        · cases hi
          cases hc
          rfl
        · simp [Cfg.pairs, exLlTrees] at hi
    exact fun f f' => Subtype.ext ((key _ f.2).trans (key _ f'.2).symm)
  · intro r hr
    simp only [exLlTrees, List.mem_cons, List.not_mem_nil, or_false] at hr
    rcases hr with rfl | rfl | rfl | rfl
    · exact leadsEmpty_term (term_not_nullable (by decide))
    · exact leadsEmpty_term (term_not_nullable (by decide))
    · exact leadsEmpty_term (term_not_nullable (by decide))
    · intro pre s post e
      simp at e

/-- In the same grammar, the terminal `c` can follow `X`. -/
example : FollowOf exLlTrees.prod exLlTrees.Term 1 4 :=
  ⟨by decide, 0, [2], [], derives_iff_der.2 (.prod ⟨_, List.mem_cons_self, rfl, rfl⟩)⟩

/-- `exLlTrees` after `wrap_input`. -/
def exLlWrapped : Cfg :=
  { src := ⟨9, [none, none, none, none, none, none, some "root", some "start_of_input",
      some "end_of_input"]⟩
    rules := [⟨0, [2, 1, 4], {}⟩, ⟨0, [5], {}⟩, ⟨1, [3, 1], {}⟩, ⟨1, [], {}⟩, ⟨6, [7, 0, 8], {}⟩]
    roots := [6]
    wrappedRoots := [⟨7, 0, 8, 6⟩] }

/-- The same grammar meets the hypotheses of `C112_wrapped_partial`. -/
example : exLlTrees.WF ∧ (∀ n, exLlTrees.rhsLenInvariant = some n → 2 ≤ n) ∧
    (∀ r ∈ exLlTrees.roots, r < exLlTrees.numSyms) ∧ exLlTrees.wrapInput = .ok exLlWrapped ∧
    (do let t ← exLlWrapped.llParseTable
        let c ← exLlWrapped.llClassify t
        .ok (c 0)) = .ok (some .ll1) ∧
    ∀ r ∈ exLlWrapped.rules, LeadsEmpty exLlWrapped.prod exLlWrapped.Term r.rhs := by
  refine ⟨by decide +kernel, by simp [exLlTrees], by decide, by decide +kernel, by decide +kernel, ?_⟩
  intro r hr
  simp only [exLlWrapped, List.mem_cons, List.not_mem_nil, or_false] at hr
  rcases hr with rfl | rfl | rfl | rfl | rfl
  · exact leadsEmpty_term (term_not_nullable (by decide))
  · exact leadsEmpty_term (term_not_nullable (by decide))
  · exact leadsEmpty_term (term_not_nullable (by decide))
  · intro pre s post e
    simp at e
  · exact leadsEmpty_term (term_not_nullable (by decide))

/-- **C112 does not hold**: the table has no column for the end of input. In `exEnd`, all
nonterminals that get a class get `Ll1`, and the string `a` has two parse trees. -/
theorem C112_violated_end : exEnd.WF ∧
    (do let t ← exEnd.llParseTable
        let c ← exEnd.llClassify t
        .ok ([0, 1, 2].map c)) = .ok [some .ll1, none, none] ∧ ¬ exEnd.Unambiguous 0 := by
  refine ⟨exEnd_wf, by decide +kernel, fun h => ?_⟩
  have h1 : IsForest exEnd.pairs exEnd.Term [0] (.node 0 (.leaf 3 (.node 1 .nil .nil)) .nil) [3] :=
    .node (u := [3]) (v := []) rfl (by decide) (.leaf (by decide) (.node (u := []) (v := []) rfl
      (by decide) .nil .nil)) .nil
  have h2 : IsForest exEnd.pairs exEnd.Term [0]
      (.node 0 (.leaf 3 (.node 2 (.node 3 .nil .nil) .nil)) .nil) [3] :=
    .node (u := [3]) (v := []) rfl (by decide) (.leaf (by decide) (.node (u := []) (v := []) rfl
      (by decide) (.node (u := []) (v := []) rfl (by decide) .nil .nil) .nil)) .nil
  have := congrArg Subtype.val ((h [3]).elim ⟨_, h1⟩ ⟨_, h2⟩)
  cases this

/-- `S ::= A b | b`, `A ::= a | ε`; symbols `S A a b = 0 .. 3`. -/
def exLlFront : Cfg :=
  { src := ⟨4, [none, none, none, none]⟩
    rules := [⟨0, [1, 3], {}⟩, ⟨0, [3], {}⟩, ⟨1, [2], {}⟩, ⟨1, [], {}⟩]
    roots := [0] }

/-- **C112 does not hold**: FIRST of `A b` lacks `b`. In `exLlFront`, all nonterminals get the class
`Ll1`, and the string `b` has two parse trees. -/
theorem C112_violated_front : exLlFront.WF ∧
    (do let t ← exLlFront.llParseTable
        let c ← exLlFront.llClassify t
        .ok ([0, 1].map c)) = .ok [some .ll1, some .ll1] ∧ ¬ exLlFront.Unambiguous 0 := by
  refine ⟨by decide +kernel, by decide +kernel, fun h => ?_⟩
  have h1 : IsForest exLlFront.pairs exLlFront.Term [0]
      (.node 0 (.node 3 .nil (.leaf 3 .nil)) .nil) [3] :=
    .node (u := [3]) (v := []) rfl (by decide) (.node (u := []) (v := [3]) rfl (by decide) .nil
      (.leaf (by decide) .nil)) .nil
  have h2 : IsForest exLlFront.pairs exLlFront.Term [0] (.node 1 (.leaf 3 .nil) .nil) [3] :=
    .node (u := [3]) (v := []) rfl (by decide) (.leaf (by decide) .nil) .nil
  have := congrArg Subtype.val ((h [3]).elim ⟨_, h1⟩ ⟨_, h2⟩)
  cases this

end Verif
