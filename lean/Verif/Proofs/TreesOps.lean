import Verif.Proofs.TreesRelabel
import Verif.Proofs.TreesCut
import Verif.Proofs.TreesSplit
import Verif.Proofs.Useful
import Verif.Proofs.Remap
import Verif.Proofs.Basic

/-! # Parse trees under reversal, sorting, renumbering, removal of useless rules and wrapping -/

namespace Verif

theorem SameNumber.of_eq {X Y : Type} (h : X = Y) : SameNumber X Y := h ▸ ⟨Equiv.refl _⟩

theorem Cfg.pairs_get {g : Cfg} {i : Nat} {A : Sym} {β : List Sym} :
    g.pairs[i]? = some (A, β) ↔ ∃ r, g.rules[i]? = some r ∧ r.lhs = A ∧ r.rhs = β := by
  rw [Cfg.pairs, List.getElem?_map]
  cases g.rules[i]? with
  | none => simp
  | some r => simp

/-- The same trees with the same rules and symbols. -/
theorem Cfg.trees_congr {g g' : Cfg} (h1 : g.pairs = g'.pairs) (h2 : g.numSyms = g'.numSyms)
    (A : Sym) (w : List Sym) : g.Trees A w = g'.Trees A w := by
  have : g.Term = g'.Term := by
    funext a
    have e : ∀ g : Cfg, g.Term a ↔ a < g.numSyms ∧ ∀ p ∈ g.pairs, p.1 ≠ a := by
      intro g; simp [Cfg.Term, Cfg.pairs]
    exact propext (by rw [e, e, h1, h2])
  unfold Cfg.Trees
  rw [h1, this]

theorem Cfg.trees_reverse (g : Cfg) (A : Sym) (w : List Sym) :
    SameNumber (g.Trees A w) (g.reverse.Trees A w.reverse) := by
  have ht : g.reverse.Term = g.Term := by
    funext a
    exact propext (g.term_reverse a)
  have hp : ∀ (g : Cfg) (i : Nat) A β, g.pairs[i]? = some (A, β) →
      g.reverse.pairs[i]? = some (A, β.reverse) := by
    intro g i A β h
    obtain ⟨r, hr, rfl, rfl⟩ := Cfg.pairs_get.1 h
    exact Cfg.pairs_get.2 ⟨{ r with rhs := r.rhs.reverse }, by simp [Cfg.reverse, hr], rfl, rfl⟩
  unfold Cfg.Trees
  rw [ht]
  refine mirror_equiv (hp g) (fun i A β h => ?_) [A] w
  have := hp g.reverse i A β h
  rwa [Cfg.reverse_reverse] at this

/-- Renumbered symbols, rules in any order. -/
theorem Cfg.Renaming.trees {U : Sym → Prop} {σ : Sym → Sym} {g g' : Cfg}
    (h : Cfg.Renaming U σ g g') (hU : ∀ r ∈ g.rules, U r.lhs ∧ ∀ a ∈ r.rhs, U a)
    (hlt : ∀ a, U a → a < g.numSyms) {A : Sym} (hA : U A) {w : List Sym} (hw : ∀ a ∈ w, U a) :
    SameNumber (g.Trees A w) (g'.Trees (σ A) (w.map σ)) := by
  obtain ⟨ρ, hρ⟩ := perm_positions h.rules.symm
  have hR : Relabel U g.Term g'.Term g.pairs g'.pairs σ ρ := by
    refine ⟨h.term hU hlt, h.inj, ?_, ?_⟩
    · intro i A β hi _ _
      obtain ⟨r, hr, rfl, rfl⟩ := Cfg.pairs_get.1 hi
      refine ⟨(hU r (List.mem_of_getElem? hr)).2, Cfg.pairs_get.2 ⟨r.rename σ, ?_, rfl, rfl⟩⟩
      rw [hρ, List.getElem?_map, hr]
      rfl
    · intro j A γ hj hA
      obtain ⟨r', hr', e1, rfl⟩ := Cfg.pairs_get.1 hj
      have := hρ (ρ.symm j)
      rw [Equiv.apply_symm_apply, hr', List.getElem?_map] at this
      obtain ⟨r, hr, rfl⟩ := Option.map_eq_some_iff.1 this.symm
      have hr0 := hU r (List.mem_of_getElem? hr)
      exact ⟨r.rhs, Cfg.pairs_get.2 ⟨r, hr, h.inj _ _ hr0.1 hA e1, rfl⟩, rfl, hr0.2⟩
  exact hR.equiv (α := [A]) (by simpa using hA) hw

theorem Cfg.trees_perm {g g' : Cfg} (h : g'.rules.Perm g.rules) (hn : g'.numSyms = g.numSyms)
    (A : Sym) (w : List Sym) : SameNumber (g.Trees A w) (g'.Trees A w) := by
  obtain ⟨ρ, hρ⟩ := perm_positions h.symm
  have hR : Relabel (fun _ => True) g.Term g'.Term g.pairs g'.pairs id ρ := by
    refine ⟨fun s _ => ?_, fun a b _ _ e => e, ?_, ?_⟩
    · unfold Cfg.Term
      simp [hn, h.mem_iff]
    · intro i A β hi _ _
      obtain ⟨r, hr, rfl, rfl⟩ := Cfg.pairs_get.1 hi
      exact ⟨fun _ _ => trivial, Cfg.pairs_get.2 ⟨r, by rw [hρ, hr], rfl, by simp⟩⟩
    · intro j A γ hj _
      obtain ⟨r, hr, rfl, rfl⟩ := Cfg.pairs_get.1 hj
      have := hρ (ρ.symm j)
      rw [Equiv.apply_symm_apply, hr] at this
      exact ⟨r.rhs, Cfg.pairs_get.2 ⟨r, this.symm, rfl, rfl⟩, by simp, fun _ _ => trivial⟩
  exact hR.equiv_same (α := [A]) (by simp) w

/-! ## Useless rules -/

theorem IsForest.productive {g : Cfg} {α : List Sym} {f : Forest} {w : List Sym}
    (h : IsForest g.pairs g.Term α f w) : ∀ s ∈ α, Productive g.prod g.Term s := by
  intro s hs
  obtain ⟨α₁, α₂, rfl⟩ := List.append_of_mem hs
  obtain ⟨f₁, f₂, u, v, -, -, -, h2⟩ := h.split
  obtain ⟨f₃, f₄, u', v', -, -, h3, -⟩ := IsForest.split (α := [s]) (β := α₂) h2
  exact ⟨u', (g.lang_iff_trees s u').2 ⟨⟨f₃, h3⟩⟩⟩

theorem Cleaned.trees {g g' : Cfg} {roots : List Sym} (h : Cleaned g roots g') {A : Sym}
    (hr : ReachableFrom g.prod roots A) (hp : Productive g.prod g.Term A) (w : List Sym) :
    SameNumber (g.Trees A w) (g'.Trees A w) := by
  obtain ⟨p, hfilter⟩ := h.filter
  obtain ⟨ρ, hρ⟩ := perm_positions (List.filter_append_perm p g.rules).symm
  have hp' : ∀ r ∈ g.rules, p r = true ↔ UsefulRule g.prod g.Term roots r.lhs r.rhs := by
    intro r hr
    have := h.rules r
    rw [hfilter, List.mem_filter] at this
    exact ⟨fun hp => (this.1 ⟨hr, hp⟩).2, fun hu => (this.2 ⟨hr, hu⟩).2⟩
  have hR : Relabel (fun a => ReachableFrom g.prod roots a ∧ Productive g.prod g.Term a)
      g.Term g'.Term g.pairs g'.pairs id ρ := by
    refine ⟨fun s hs => ⟨h.term hs.1 hs.2, h.term_mono⟩, fun a b _ _ e => e, ?_, ?_⟩
    · rintro i A β hi hA ⟨c, u, hc⟩
      obtain ⟨r, hr, rfl, rfl⟩ := Cfg.pairs_get.1 hi
      have hmem := List.mem_of_getElem? hr
      have hprod := hc.productive
      have hu : UsefulRule g.prod g.Term roots r.lhs r.rhs := ⟨hA.1, hprod⟩
      obtain ⟨root, h3, h4⟩ := hA.1
      refine ⟨fun s hs => ⟨⟨root, h3, h4.tail ⟨r, hmem, rfl, rfl⟩ hs⟩, hprod s hs⟩,
        Cfg.pairs_get.2 ⟨r, ?_, rfl, by simp⟩⟩
      rw [hfilter]
      have e := hρ i
      rw [hr] at e
      rcases Nat.lt_or_ge (ρ i) (g.rules.filter p).length with hlt | hge
      · rwa [List.getElem?_append_left hlt] at e
      · rw [List.getElem?_append_right hge] at e
        have := List.mem_of_getElem? e
        rw [List.mem_filter, (hp' r hmem).2 hu] at this
        simp at this
    · intro j A γ hj hA
      obtain ⟨r, hr, rfl, rfl⟩ := Cfg.pairs_get.1 hj
      rw [hfilter] at hr
      have hmem := List.mem_filter.1 (List.mem_of_getElem? hr)
      have e := hρ (ρ.symm j)
      rw [Equiv.apply_symm_apply, List.getElem?_append_left (List.getElem?_eq_some_iff.1 hr).1, hr]
        at e
      have hu := (hp' r hmem.1).1 hmem.2
      obtain ⟨root, h3, h4⟩ := hu.1
      exact ⟨r.rhs, Cfg.pairs_get.2 ⟨r, e.symm, rfl, rfl⟩, by simp,
        fun s hs => ⟨⟨root, h3, h4.tail ⟨r, hmem.1, rfl, rfl⟩ hs⟩, hu.2 s hs⟩⟩
  exact hR.equiv_same (α := [A]) (by simpa using ⟨hr, hp⟩) w

/-! ## Wrapping -/

/-- A grammar with a rule for a new symbol and further new symbols. -/
theorem Cfg.trees_extend {g g' : Cfg} (hwf : g.WF) {r : CfgRule} (hn : g.numSyms ≤ r.lhs)
    (hle : g.numSyms ≤ g'.numSyms) (hr : g'.rules = g.rules ++ [r]) {α : List Sym}
    (hα : ∀ a ∈ α, a < g.numSyms) (w : List Sym) :
    SameNumber {f : Forest // IsForest g.pairs g.Term α f w}
      {f : Forest // IsForest g'.pairs g'.Term α f w} := by
  have hR : Relabel (· < g.numSyms) g.Term g'.Term g.pairs g'.pairs id (Equiv.refl _) := by
    refine ⟨fun s hs => ?_, fun a b _ _ e => e, ?_, ?_⟩
    · unfold Cfg.Term
      rw [hr]
      simp only [id, List.mem_append, List.mem_singleton]
      constructor
      · rintro ⟨-, h⟩
        exact ⟨hs, fun q hq => h q (.inl hq)⟩
      · rintro ⟨-, h⟩
        refine ⟨Nat.lt_of_lt_of_le hs hle, fun q hq => hq.elim (h q) ?_⟩
        rintro rfl e
        omega
    · intro i A β hi _ _
      obtain ⟨q, hq, rfl, rfl⟩ := Cfg.pairs_get.1 hi
      refine ⟨(hwf q (List.mem_of_getElem? hq)).2, Cfg.pairs_get.2 ⟨q, ?_, rfl, by simp⟩⟩
      rw [Equiv.refl_apply, hr, List.getElem?_append_left (List.getElem?_eq_some_iff.1 hq).1, hq]
    · intro j A γ hj hA
      obtain ⟨q, hq, e, rfl⟩ := Cfg.pairs_get.1 hj
      rw [hr] at hq
      rcases Nat.lt_or_ge j g.rules.length with hlt | hge
      · rw [List.getElem?_append_left hlt] at hq
        exact ⟨q.rhs, Cfg.pairs_get.2 ⟨q, hq, e, rfl⟩, by simp, (hwf q (List.mem_of_getElem? hq)).2⟩
      · rw [List.getElem?_append_right hge] at hq
        have := List.mem_of_getElem? hq
        rw [List.mem_singleton] at this
        subst this
        simp only [id] at e
        omega
  exact hR.equiv_same hα w

/-- One rule for the root: start marker, inner root, end marker. -/
theorem wrapped_trees {rules : List (Sym × List Sym)} {T : Sym → Prop} {i : Nat} {A s r e : Sym}
    (hi : rules[i]? = some (A, [s, r, e])) (hu : ∀ (j : Nat) β, rules[j]? = some (A, β) → j = i)
    (hA : ¬ T A) (hs : T s) (he : T e) (hs' : ∀ p ∈ rules, p.1 ≠ s) (he' : ∀ p ∈ rules, p.1 ≠ e)
    (u : List Sym) :
    SameNumber {f : Forest // IsForest rules T [r] f u}
      {f : Forest // IsForest rules T [A] f ([s] ++ u ++ [e])} := by
  have mk : ∀ f, IsForest rules T [r] f u →
      IsForest rules T [A] (.node i (.leaf s (f.append (.leaf e .nil))) .nil) ([s] ++ u ++ [e]) := by
    intro f hf
    have := IsForest.node hi hA (.leaf hs (hf.append (.leaf he .nil))) (.nil (rules := rules) (T := T))
    simpa using this
  refine ⟨Equiv.ofBijective (fun f => ⟨_, mk f.1 f.2⟩) ⟨?_, ?_⟩⟩
  · intro f f' h
    have := congrArg Subtype.val h
    simp only [Forest.node.injEq, Forest.leaf.injEq, true_and, and_true] at this
    exact Subtype.ext (f.2.append_inj f'.2 this).1
  · rintro ⟨f, hf⟩
    suffices ∃ f₁, IsForest rules T [r] f₁ u ∧
        .node i (.leaf s (f₁.append (.leaf e .nil))) .nil = f by
      obtain ⟨f₁, h1, h2⟩ := this
      exact ⟨⟨f₁, h1⟩, Subtype.ext h2⟩
    generalize hw : [s] ++ u ++ [e] = w at hf
    cases hf with
    | leaf ht _ => exact absurd ht hA
    | @node j _ c f β v v' _ hj _ hc hnil =>
      cases hnil
      obtain rfl := hu j β hj
      obtain ⟨-, rfl⟩ := Prod.mk.inj (Option.some.inj (hi.symm.trans hj))
      cases hc with
      | node hj' _ _ _ => exact absurd rfl (hs' _ (List.mem_of_getElem? hj'))
      | leaf _ hc =>
        obtain ⟨f₁, f₂, u', v, rfl, rfl, h1, h2⟩ := IsForest.split (α := [r]) (β := [e]) hc
        cases h2 with
        | node hj' _ _ _ => exact absurd rfl (he' _ (List.mem_of_getElem? hj'))
        | leaf _ h2 =>
          cases h2
          have : u = u' := by simpa using hw
          subst this
          exact ⟨f₁, h1, rfl⟩

theorem Cfg.wrapOne_trees {g : Cfg} (hwf : g.WF) (hlim : g.LimitOk) {r : Sym} (hr : r < g.numSyms) :
    ∃ g', g.wrapOne r = .ok g' ∧
      (∀ A, A < g.numSyms → ∀ w, SameNumber (g.Trees A w) (g'.Trees A w)) ∧
      ∀ u, SameNumber (g.Trees r u)
        (g'.Trees g.numSyms ([g.numSyms + 1] ++ u ++ [g.numSyms + 2])) := by
  let rule : CfgRule := ⟨g.numSyms, [g.numSyms + 1, r, g.numSyms + 2],
    History.ofRoot (.rule g.numSyms)⟩
  let g₁ : Cfg := (((g.nextSym (some "root")).2.nextSym (some "start_of_input")).2.nextSym
    (some "end_of_input")).2
  have hrules : g₁.rules = g.rules := rfl
  have hnum : g₁.numSyms = g.numSyms + 3 := rfl
  have hwf₁ : g₁.WF := by
    intro q hq
    have := hwf q hq
    exact ⟨by omega, fun s hs => by have := this.2 s hs; omega⟩
  obtain ⟨g₂, k, h1, h2, -⟩ := (Folded.refl g₁ hwf₁).addRule hlim rule
    (by show g.numSyms < g₁.numSyms; omega) (by
      intro x hx
      show x < g₁.numSyms
      simp only [rule, List.mem_cons, List.not_mem_nil, or_false] at hx
      omega)
  let g₃ : Cfg := { g₁ with rules := g₁.rules ++ [rule] }
  have hfold : ∀ A, A < g.numSyms + 3 → ∀ w, SameNumber (g₂.Trees A w) (g₃.Trees A w) := by
    intro A hA w
    refine Folded.trees (g := g₃) ?_ A hA w
    simpa [g₃, pairs, CfgRule.pair, numSyms] using h2
  have hext : ∀ α : List Sym, (∀ a ∈ α, a < g.numSyms) → ∀ w,
      SameNumber {f : Forest // IsForest g.pairs g.Term α f w}
        {f : Forest // IsForest g₃.pairs g₃.Term α f w} := fun α hα w =>
    Cfg.trees_extend (g' := g₃) hwf (r := rule) (Nat.le_refl _)
      (show g.numSyms ≤ g₁.numSyms by omega) (by show g₁.rules ++ _ = _; rw [hrules]) hα w
  have hlhs : ∀ p ∈ g₃.pairs, p.1 ≤ g.numSyms := by
    intro p hp
    obtain ⟨q, hq, rfl⟩ := List.mem_map.1 hp
    rcases List.mem_append.1 hq with hq | hq
    · exact Nat.le_of_lt (hwf q hq).1
    · rw [List.mem_singleton.1 hq]
  have hterm : ∀ a, g.numSyms < a → a < g.numSyms + 3 → g₃.Term a := by
    intro a h1 h2
    refine ⟨h2, fun q hq e => ?_⟩
    have := hlhs _ (List.mem_map_of_mem (f := fun r => (r.lhs, r.rhs)) hq)
    simp only at this
    omega
  have key : ∀ u, SameNumber (g₃.Trees r u)
      (g₃.Trees g.numSyms ([g.numSyms + 1] ++ u ++ [g.numSyms + 2])) := by
    intro u
    refine wrapped_trees (i := g.rules.length) ?_ ?_ ?_ (hterm _ (by omega) (by omega))
      (hterm _ (by omega) (by omega)) (fun p hp => by have := hlhs p hp; omega)
      (fun p hp => by have := hlhs p hp; omega) u
    · exact Cfg.pairs_get.2 ⟨rule, by simp [g₃, hrules], rfl, rfl⟩
    · intro j β hj
      obtain ⟨q, hq, e, -⟩ := Cfg.pairs_get.1 hj
      by_contra hne
      have hlt : j < g.rules.length := by
        have := (List.getElem?_eq_some_iff.1 hq).1
        simp only [g₃, hrules, List.length_append, List.length_singleton] at this
        omega
      have hq : (g.rules ++ [rule])[j]? = some q := hq
      rw [List.getElem?_append_left hlt] at hq
      have := (hwf q (List.mem_of_getElem? hq)).1
      omega
    · intro ht
      exact ht.2 rule (by simp [g₃]) rfl
  refine ⟨{ g₂ with
      wrappedRoots := g₂.wrappedRoots ++ [⟨g.numSyms + 1, r, g.numSyms + 2, g.numSyms⟩]
      roots := g₂.roots ++ [g.numSyms] }, ?_, fun A hA w => ?_, fun u => ?_⟩
  · show (g₁.addRule rule >>= fun x => _) = _
    rw [h1]
    rfl
  · refine (hext [A] (by simpa using hA) w).trans ?_
    exact (hfold A (by omega) w).symm
  · refine (hext [r] (by simpa using hr) u).trans ((key u).trans ?_)
    exact (hfold _ (by omega) _).symm

/-- `wrap_input` keeps the trees of the old symbols; the trees of a wrapped root are the trees of the
root between the markers. -/
theorem Cfg.wrapInput_trees {g : Cfg} (hwf : g.WF) (hlim : g.LimitOk)
    (hroots : ∀ r ∈ g.roots, r < g.numSyms) :
    ∃ g', g.wrapInput = .ok g' ∧
      (∀ A, A < g.numSyms → ∀ w, SameNumber (g.Trees A w) (g'.Trees A w)) ∧
      ∀ wr ∈ g'.wrappedRoots, ∀ u, SameNumber (g.Trees wr.innerRoot u)
        (g'.Trees wr.root ([wr.startOfInput] ++ u ++ [wr.endOfInput])) := by
  have key : ∀ (rs : List Sym) (g₁ : Cfg) (done : List Sym), (∀ r ∈ rs, r < g.numSyms) →
      WrapInv g g₁ done →
      (∀ A, A < g.numSyms → ∀ w, SameNumber (g.Trees A w) (g₁.Trees A w)) →
      (∀ wr ∈ g₁.wrappedRoots, ∀ u, SameNumber (g.Trees wr.innerRoot u)
        (g₁.Trees wr.root ([wr.startOfInput] ++ u ++ [wr.endOfInput]))) →
      ∃ g', rs.foldlM wrapOne g₁ = .ok g' ∧
        (∀ A, A < g.numSyms → ∀ w, SameNumber (g.Trees A w) (g'.Trees A w)) ∧
        ∀ wr ∈ g'.wrappedRoots, ∀ u, SameNumber (g.Trees wr.innerRoot u)
          (g'.Trees wr.root ([wr.startOfInput] ++ u ++ [wr.endOfInput])) := by
    intro rs
    induction rs with
    | nil => intro g₁ done _ _ h1 h2; exact ⟨g₁, rfl, h1, h2⟩
    | cons r rs ih =>
      intro g₁ done hr h ht1 ht2
      have hr0 := hr r (by simp)
      have hle := h.le
      have hlim₁ : g₁.LimitOk := by unfold LimitOk; rw [h.limit]; exact hlim
      obtain ⟨g₂, e, hs⟩ := wrapOne_step g₁ h.wf hlim₁ r (by omega)
      obtain ⟨_, e', h3, h4⟩ := Cfg.wrapOne_trees h.wf hlim₁ (r := r) (by omega)
      obtain rfl := Res.ok.inj (e.symm.trans e')
      obtain ⟨g', e', h'⟩ := ih g₂ (done ++ [r]) (fun r hr' => hr r (by simp [hr']))
        (h.step hr0 hs) (fun A hA w => (ht1 A hA w).trans (h3 A (by omega) w)) (by
          rw [hs.wrapped]
          intro wr hm u
          rcases List.mem_append.1 hm with hm | hm
          · have f := h.fresh wr.root (List.mem_flatMap.2 ⟨wr, hm, by simp⟩)
            exact (ht2 wr hm u).trans (h3 _ f.2 _)
          · rw [List.mem_singleton.1 hm]
            exact (ht1 r hr0 u).trans (h4 u))
      exact ⟨g', by rw [List.foldlM_cons, e]; exact e', h'⟩
  exact key g.roots { g with wrappedRoots := [], roots := [] } [] hroots
    ⟨hwf, rfl, Nat.le_refl _, rfl, rfl, by simp, by simp, fun _ _ _ => Iff.rfl, by simp, by simp⟩
    (fun _ _ _ => ⟨Equiv.refl _⟩) (by simp)

end Verif
