import Verif.Proofs.TreesNulling
import Verif.Props.Trees
import Verif.Props.Nulling

/-! # Property C113: elimination of nulling rules and parse trees -/

namespace Verif

theorem SameNumber.subsingleton {X Y : Type} (h : SameNumber X Y) (hX : Subsingleton X) : Subsingleton Y := by
  obtain ⟨e⟩ := h
  exact e.symm.subsingleton

theorem NoMore.subsingleton {X Y : Type} (h : NoMore X Y) (hY : Subsingleton Y) : Subsingleton X := by
  obtain ⟨f, hf⟩ := h
  exact ⟨fun a b => hf a b (Subsingleton.elim _ _)⟩

theorem ElimSpec.trees {g g₁ g' res : Cfg} (hwf : g.WF) (hs : ElimSpec g g₁ g' res) {A : Sym}
    (hA : A < g.numSyms) (w : List Sym) : SameNumber (g₁.Trees A w) (g.Trees A w) := by
  obtain ⟨g₁', h1, h2, -⟩ := C101_limit g hwf (some 2) (fun n hn => by cases hn; omega)
  obtain rfl : g₁' = g₁ := Res.ok.inj (h1.symm.trans hs.split)
  exact h2 A hA w

theorem ElimSpec.oldTerm {g g₁ g' res : Cfg} (hs : ElimSpec g g₁ g' res) (a : Sym) :
    g₁.Term a ↔ g.Term a := by
  rw [hs.inv.term, Cfg.term_iff_prod]

/-- **C113.** The elimination gives no non-empty string of the old terminals more parse trees. -/
theorem C113_no_more {g : Cfg} (hwf : g.WF) :
    ∃ g' res, g.binarizeAndEliminateNulling = .ok (g', res) ∧
      ∀ A, A < g.numSyms → ∀ w, (∀ a ∈ w, g.Term a) → NoMore (g'.Trees A w) (g.Trees A w) := by
  obtain ⟨g₁, g', res, h, hs⟩ := elim_spec hwf
  refine ⟨g', res, h, fun A hA w hw => ?_⟩
  obtain ⟨ann, he⟩ := hs.erasing
  obtain ⟨f, hf⟩ := he.embeds (A := A) (w := w) (fun s hN => (nullable_iff_tree g₁ s).1 hN)
    (fun a ha => (hs.oldTerm a).2 (hw a ha))
  obtain ⟨e⟩ := hs.trees hwf hA w
  exact ⟨fun x => e (f x), fun x x' hx => hf x x' (e.injective hx)⟩

/-- **C113.** If the empty string has at most one parse tree for each symbol, every non-empty string
of the old terminals keeps its number of parse trees. -/
theorem C113_same {g : Cfg} (hwf : g.WF)
    (hu : ∀ s, s < g.numSyms → Subsingleton (g.Trees s [])) :
    ∃ g' res, g.binarizeAndEliminateNulling = .ok (g', res) ∧
      ∀ A, A < g.numSyms → ∀ w, w ≠ [] → (∀ a ∈ w, g.Term a) →
        SameNumber (g'.Trees A w) (g.Trees A w) := by
  obtain ⟨g₁, g', res, h, hs⟩ := elim_spec hwf
  refine ⟨g', res, h, fun A hA w hne hw => ?_⟩
  obtain ⟨ann, he⟩ := hs.erasing
  exact (he.equiv (A := A) (w := w) (nullable_iff_tree g₁) (split_empty_unique hwf hs.split hu)
    (fun a ha => (hs.oldTerm a).2 (hw a ha)) hne).trans (hs.trees hwf hA w)

/-- **C113.** The strings of the old terminals with at most one parse tree keep that: the elimination
makes nothing ambiguous. -/
theorem C113_unambiguous {g : Cfg} (hwf : g.WF) :
    ∃ g' res, g.binarizeAndEliminateNulling = .ok (g', res) ∧
      ∀ A, A < g.numSyms → g.Unambiguous A → ∀ w, (∀ a ∈ w, g.Term a) →
        Subsingleton (g'.Trees A w) := by
  obtain ⟨g', res, h, hs⟩ := C113_no_more hwf
  exact ⟨g', res, h, fun A hA hu w hw => (hs A hA w hw).subsingleton (hu w)⟩

/-- **C113.** In the returned grammar the empty string has as many parse trees as before, for each
symbol. -/
theorem C113_nulling_trees {g : Cfg} (hwf : g.WF) :
    ∃ g' res, g.binarizeAndEliminateNulling = .ok (g', res) ∧
      ∀ A, A < g.numSyms → SameNumber (res.Trees A []) (g.Trees A []) := by
  obtain ⟨g₁, g', res, h, hs⟩ := elim_spec hwf
  exact ⟨g', res, h, fun A hA => (hs.nulling_trees A).trans (hs.trees hwf hA [])⟩

/-- `exNulling` meets the hypotheses of C113: no symbol has two trees of the empty string (symbol `3`
has one with two uses of `N ::= ε`), and `b c` has a tree. -/
example : exNulling.WF ∧ (∀ s, s < exNulling.numSyms → Subsingleton (exNulling.Trees s [])) ∧
    Nonempty (exNulling.Trees 3 []) ∧ Nonempty (exNulling.Trees 0 [5, 6]) ∧
    ∀ a ∈ [5, 6], exNulling.Term a := by
  have h1 : IsForest exNulling.pairs exNulling.Term [1] (.node 1 .nil .nil) [] :=
    .node (i := 1) (A := 1) (u := []) (v := []) (β := []) rfl (by decide +kernel) .nil .nil
  refine ⟨exNulling_wf, ?_, ⟨⟨.node 4 (.node 3 .nil (.node 3 .nil .nil)) .nil, ?_⟩⟩,
    ⟨⟨.node 0 (.node 1 .nil (.leaf 5 (.node 1 .nil (.leaf 6 .nil)))) .nil, ?_⟩⟩, by decide +kernel⟩
  · suffices H : ∀ α f w, IsForest exNulling.pairs exNulling.Term α f w → ∀ f', w = [] →
        IsForest exNulling.pairs exNulling.Term α f' [] → f = f' from
      fun s _ => ⟨fun f f' => Subtype.ext (H [s] f.1 [] f.2 f'.1 rfl f'.2)⟩
    -- rule numbers are determined by the symbol
    have hrule : ∀ (i : Nat) A β c, exNulling.pairs[i]? = some (A, β) →
        IsForest exNulling.pairs exNulling.Term β c [] → i = if A = 1 then 1 else if A = 2 then 3 else 4 := by
      have hno : ∀ a : Sym, exNulling.Term a → ∀ β c, a ∈ β →
          ¬ IsForest exNulling.pairs exNulling.Term β c [] := by
        intro a ha β c hm hf
        have hn := Der.nullable_mem (hf.der.1) a hm
        rw [Cfg.pairs_prod, Nullable, derives_iff_der] at hn
        rcases Der.single_iff.1 hn with h | ⟨γ, ⟨r, hr, e, -⟩, -⟩
        · cases h
        · exact ha.2 r hr e
      intro i A β c hi hc
      have hlt : i < 5 := (List.getElem?_eq_some_iff.1 hi).1
      have t5 : exNulling.Term 5 := by decide +kernel
      have t4 : exNulling.Term 4 := by decide +kernel
      match i, hlt with
      | 0, _ => cases hi; exact (hno 5 t5 _ _ (by simp) hc).elim
      | 1, _ => cases hi; rfl
      | 2, _ => cases hi; exact (hno 4 t4 _ _ (by simp) hc).elim
      | 3, _ => cases hi; rfl
      | 4, _ => cases hi; rfl
    intro α f w hf
    induction hf with
    | nil => intro f' _ hf'; cases hf'; rfl
    | leaf => intro f' hw; cases hw
    | @node i A c f β u v α hi hn hc hf ihc ih =>
      intro f' hw hf'
      obtain ⟨rfl, rfl⟩ := List.append_eq_nil_iff.1 hw
      suffices H : ∀ w', IsForest exNulling.pairs exNulling.Term (A :: α) f' w' → w' = [] →
          Forest.node i c f = f' from H [] hf' rfl
      clear hf'
      intro w' hf' hw'
      cases hf' with
      | leaf => cases hw'
      | @node i' _ c' f' β' u' v' _ hi' hn' hc' hf' =>
        obtain ⟨rfl, rfl⟩ := List.append_eq_nil_iff.1 hw'
        obtain rfl := (hrule i A β c hi hc).trans (hrule i' A β' c' hi' hc').symm
        cases hi.symm.trans hi'
        rw [ihc c' rfl hc', ih f' rfl hf']
  · have h3 : ∀ f α, IsForest exNulling.pairs exNulling.Term α f [] →
        IsForest exNulling.pairs exNulling.Term (2 :: α) (.node 3 .nil f) [] := fun f α hf =>
      .node (i := 3) (A := 2) (u := []) (v := []) (β := []) rfl (by decide +kernel) .nil hf
    exact .node (i := 4) (A := 3) (u := []) (v := []) (β := [2, 2]) rfl (by decide +kernel)
      (h3 _ _ (h3 _ _ .nil)) .nil
  · have h2 : ∀ f α w, IsForest exNulling.pairs exNulling.Term α f w →
        IsForest exNulling.pairs exNulling.Term (1 :: α) (.node 1 .nil f) w := fun f α w hf =>
      .node (i := 1) (A := 1) (u := []) (v := w) (β := []) rfl (by decide +kernel) .nil hf
    exact .node (i := 0) (A := 0) (u := [5, 6]) (v := []) (β := [1, 5, 1, 6]) rfl (by decide +kernel)
      (h2 _ _ _ (.leaf (by decide +kernel) (h2 _ _ _ (.leaf (by decide +kernel) .nil)))) .nil

/-- `S ::= a N`, `N ::= ε | ε`; `S N a = 0 1 2`. -/
def exTwoNulls : Cfg :=
  { src := ⟨3, [none, none, none]⟩, rules := [⟨0, [2, 1], {}⟩, ⟨1, [], {}⟩, ⟨1, [], {}⟩], roots := [0] }

/-- Why the second theorem asks for few trees of the empty string: here `a` has two parse trees
before and one after. -/
example : exTwoNulls.WF ∧ ¬ Subsingleton (exTwoNulls.Trees 0 [2]) ∧
    (fun p : Cfg × Cfg => p.1.pairs) <$> exTwoNulls.binarizeAndEliminateNulling
      = .ok [(0, [2, 1]), (0, [2])] := by
  refine ⟨by decide +kernel, fun h => ?_, by decide +kernel⟩
  have t : ∀ i, exTwoNulls.pairs[i]? = some (1, []) →
      IsForest exTwoNulls.pairs exTwoNulls.Term [0] (.node 0 (.leaf 2 (.node i .nil .nil)) .nil) [2] :=
    fun i hi => .node (i := 0) (A := 0) (u := [2]) (v := []) (β := [2, 1]) rfl (by decide +kernel)
      (.leaf (by decide +kernel) (.node (i := i) (A := 1) (u := []) (v := []) (β := []) hi
        (by decide +kernel) .nil .nil)) .nil
  have := congrArg Subtype.val (Subsingleton.elim (α := exTwoNulls.Trees 0 [2]) ⟨_, t 1 rfl⟩ ⟨_, t 2 rfl⟩)
  cases this

end Verif
