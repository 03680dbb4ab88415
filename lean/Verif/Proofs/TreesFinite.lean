import Verif.Proofs.Trees
import Verif.Spec.Units
import Mathlib.Data.Set.Finite.Lattice
import Mathlib.Data.Finite.Prod
import Mathlib.Data.Set.Finite.Lemmas
import Mathlib.Data.Fintype.Pigeonhole
import Mathlib.Order.WellFounded

/-! # Parse trees: finitely many without cycles, infinitely many with cycles -/

namespace Verif

variable {rules : List (Sym × List Sym)} {T : Sym → Prop}

/-- The forests with roots `α` and leaves `w`. -/
def forestSet (rules : List (Sym × List Sym)) (T : Sym → Prop) (α w : List Sym) : Set Forest :=
  {f | IsForest rules T α f w}

theorem IsForest.length_le (hne : ∀ p ∈ rules, p.2 ≠ []) {α w : List Sym} {f : Forest}
    (h : IsForest rules T α f w) : α.length ≤ w.length := by
  induction h with
  | nil => exact Nat.le_refl _
  | leaf _ _ ih => simp only [List.length_cons]; omega
  | @node i A c f β u v α hi _ _ _ ihc ih =>
    have := List.length_pos_iff.2 (hne _ (List.mem_of_getElem? hi))
    simp only [List.length_cons, List.length_append]
    simp only at this
    omega

theorem forestSet_nil (w : List Sym) : (forestSet rules T [] w).Finite := by
  refine (Set.finite_singleton Forest.nil).subset fun f hf => ?_
  cases (hf : IsForest rules T [] f w)
  rfl

/-- Finitely many forests if there are finitely many for the parts. -/
theorem forestSet_cons {A : Sym} {α w : List Sym}
    (hleaf : ∀ w', w = A :: w' → (forestSet rules T α w').Finite)
    (hnode : ∀ (i : Nat) β u v, rules[i]? = some (A, β) → w = u ++ v →
      (forestSet rules T β u).Nonempty → (forestSet rules T α v).Nonempty →
      (forestSet rules T β u).Finite ∧ (forestSet rules T α v).Finite) :
    (forestSet rules T (A :: α) w).Finite := by
  let G : Nat × Nat → Set Forest := fun p =>
    {f | ∃ c r β, f = .node p.1 c r ∧ rules[p.1]? = some (A, β) ∧
      c ∈ forestSet rules T β (w.take p.2) ∧ r ∈ forestSet rules T α (w.drop p.2)}
  have hG : ∀ p, (G p).Finite := by
    intro p
    by_cases he : (G p).Nonempty
    · obtain ⟨_, c, r, β, -, h1, h2, h3⟩ := he
      obtain ⟨f1, f2⟩ := hnode p.1 β _ _ h1 (List.take_append_drop p.2 w).symm ⟨c, h2⟩ ⟨r, h3⟩
      refine (Set.Finite.image2 (fun c r => Forest.node p.1 c r) f1 f2).subset ?_
      rintro _ ⟨c, r, β', rfl, h1', h2', h3'⟩
      obtain rfl := (Prod.mk.inj (Option.some.inj (h1.symm.trans h1'))).2
      exact ⟨c, h2', r, h3', rfl⟩
    · rw [Set.not_nonempty_iff_eq_empty.1 he]
      exact Set.finite_empty
  have hL : {f | ∃ w' r, w = A :: w' ∧ r ∈ forestSet rules T α w' ∧ f = Forest.leaf A r}.Finite := by
    rcases w with _ | ⟨a, w'⟩
    · refine Set.finite_empty.subset ?_
      rintro f ⟨w', r, e, -⟩
      cases e
    · by_cases e : a = A
      · subst e
        refine ((hleaf w' rfl).image (Forest.leaf a)).subset ?_
        rintro _ ⟨w'', r, e, h, rfl⟩
        cases e
        exact ⟨r, h, rfl⟩
      · refine Set.finite_empty.subset ?_
        rintro f ⟨w'', r, e', -⟩
        exact absurd (List.cons.inj e').1 e
  have hF : (⋃ p ∈ {p : Nat × Nat | p.1 ≤ rules.length ∧ p.2 ≤ w.length}, G p).Finite :=
    (((Set.finite_le_nat rules.length).prod (Set.finite_le_nat w.length)).subset
      fun p hp => ⟨hp.1, hp.2⟩).biUnion fun p _ => hG p
  refine (hL.union hF).subset fun f hf => ?_
  cases (hf : IsForest rules T (A :: α) f w) with
  | leaf _ h => exact .inl ⟨_, _, rfl, h, rfl⟩
  | @node i _ c r β u v _ hi _ hc h =>
    refine .inr (Set.mem_biUnion (x := (i, u.length)) ⟨?_, ?_⟩ ⟨c, r, β, rfl, hi, ?_, ?_⟩)
    · exact Nat.le_of_lt (List.getElem?_eq_some_iff.1 hi).1
    · show u.length ≤ (u ++ v).length
      simp
    · simpa [forestSet] using hc
    · simpa [forestSet] using h

/-- Without empty rules and without cycles there are finitely many forests. -/
theorem forestSet_finite (hne : ∀ p ∈ rules, p.2 ≠ [])
    (hwf : WellFounded fun B A => (A, [B]) ∈ rules) (α w : List Sym) :
    (forestSet rules T α w).Finite := by
  generalize hn : w.length = n
  induction n using Nat.strong_induction_on generalizing α w with
  | _ n ih =>
    have long : ∀ A α', α' ≠ [] → ∀ w : List Sym, w.length = n →
        (forestSet rules T (A :: α') w).Finite := by
      intro A α' hα w hn
      refine forestSet_cons (fun w' e => ih w'.length ?_ _ _ rfl) ?_
      · rw [← hn, e]; simp
      · rintro i β u v hi rfl ⟨c, hc⟩ ⟨r, hr⟩
        have h1 := IsForest.length_le hne hc
        have h2 := IsForest.length_le hne hr
        have h3 := List.length_pos_iff.2 (hne _ (List.mem_of_getElem? hi))
        have h4 := List.length_pos_iff.2 hα
        rw [List.length_append] at hn
        simp only at h3
        exact ⟨ih _ (by omega) _ _ rfl, ih _ (by omega) _ _ rfl⟩
    have one : ∀ A, (forestSet rules T [A] w).Finite := by
      intro A
      induction A using hwf.induction with
      | _ A ihA =>
        refine forestSet_cons (fun w' _ => forestSet_nil w') ?_
        rintro i β u v hi e - ⟨r, hr⟩
        refine ⟨?_, forestSet_nil v⟩
        cases (hr : IsForest rules T [] r v)
        rw [List.append_nil] at e
        subst e
        rcases β with _ | ⟨B, _ | ⟨C, β⟩⟩
        · exact absurd rfl (hne _ (List.mem_of_getElem? hi))
        · exact ihA B (List.mem_of_getElem? hi)
        · exact long B (C :: β) (by simp) _ hn
    rcases α with _ | ⟨A, _ | ⟨B, α⟩⟩
    · exact forestSet_nil w
    · exact one A
    · exact long A (B :: α) (by simp) w hn

/-- Chains of one-symbol rules end if there is no cycle. -/
theorem units_wellFounded (hfree : CycleFree fun A α => (A, α) ∈ rules)
    (hloop : ∀ A, (A, [A]) ∉ rules) : WellFounded fun B A => (A, [B]) ∈ rules := by
  let S : Finset Sym := (rules.map Prod.fst).toFinset
  let R : S → S → Prop := fun b a => UnitChain (fun A α => (A, α) ∈ rules) a b
  have hR : WellFounded R := by
    have : IsTrans S R := ⟨fun a b c h h' => Relation.TransGen.trans h' h⟩
    have : Std.Irrefl R := ⟨fun a h => hfree a h⟩
    exact Finite.wellFounded_of_trans_of_irrefl R
  have acc : ∀ a : S, Acc (fun B A => (A, [B]) ∈ rules) a.1 := by
    intro a
    induction a using hR.induction with
    | _ a ih =>
      refine ⟨_, fun B hB => ?_⟩
      by_cases hS : B ∈ S
      · exact ih ⟨B, hS⟩ (.single ⟨hB, fun e => hloop B (by
          have := hB
          rwa [show a.1 = B from e] at this)⟩)
      · refine ⟨_, fun C hC => ?_⟩
        exact absurd (List.mem_toFinset.2 (List.mem_map_of_mem (f := Prod.fst) hC)) hS
  refine ⟨fun A => ?_⟩
  by_cases hS : A ∈ S
  · exact acc ⟨A, hS⟩
  · refine ⟨_, fun C hC => ?_⟩
    exact absurd (List.mem_toFinset.2 (List.mem_map_of_mem (f := Prod.fst) hC)) hS

/-- A chain of one-symbol rules makes a larger tree. -/
theorem chain_tree (hT : ∀ p ∈ rules, ¬ T p.1) {A B : Sym}
    (h : Relation.TransGen (fun A B => (A, [B]) ∈ rules) A B) :
    ∃ F : Forest → Forest, ∀ f w, IsForest rules T [B] f w →
      IsForest rules T [A] (F f) w ∧ f.size < (F f).size := by
  have step : ∀ A B, (A, [B]) ∈ rules → ∃ F : Forest → Forest, ∀ f w, IsForest rules T [B] f w →
      IsForest rules T [A] (F f) w ∧ f.size < (F f).size := by
    intro A B h
    obtain ⟨i, hi⟩ := List.mem_iff_getElem?.1 h
    refine ⟨fun f => .node i f .nil, fun f w hf => ⟨?_, ?_⟩⟩
    · have := IsForest.node hi (hT _ h) hf .nil
      rwa [List.append_nil] at this
    · simp [Forest.size]
  induction h with
  | single h => exact step _ _ h
  | tail _ h ih =>
    obtain ⟨F, hF⟩ := ih
    obtain ⟨G, hG⟩ := step _ _ h
    refine ⟨fun f => F (G f), fun f w hf => ?_⟩
    obtain ⟨h1, h2⟩ := hG f w hf
    obtain ⟨h3, h4⟩ := hF _ w h1
    exact ⟨h3, Nat.lt_trans h2 h4⟩

/-- A symbol on a cycle has no tree or infinitely many. -/
theorem cycle_infinite (hT : ∀ p ∈ rules, ¬ T p.1) {A : Sym}
    (h : Relation.TransGen (fun A B => (A, [B]) ∈ rules) A A) {w : List Sym}
    (hne : (forestSet rules T [A] w).Nonempty) : (forestSet rules T [A] w).Infinite := by
  intro hfin
  obtain ⟨F, hF⟩ := chain_tree hT h
  obtain ⟨f, hf, hmax⟩ := Set.exists_max_image _ Forest.size hfin hne
  obtain ⟨h1, h2⟩ := hF f w hf
  have := hmax _ h1
  omega

end Verif
