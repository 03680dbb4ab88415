import Verif.Props.SplitLl
import Verif.Props.Renumber

/-! # Property C130: LL(1) tables of a renumbered grammar -/

namespace Verif

open Cfg

theorem filter_indices {α : Type} (Q : α → Bool) : ∀ l : List α,
    ((List.range l.length).filter fun i => (l[i]?).any Q).filterMap (fun i => l[i]?) =
      l.filter Q := by
  intro l
  induction l using List.reverseRecOn with
  | nil => rfl
  | append_singleton l x ih =>
    rw [List.length_append, List.length_singleton, List.range_succ, List.filter_append,
      List.filterMap_append, List.filter_append]
    congr 1
    · rw [← ih]
      have e : ((List.range l.length).filter fun i => ((l ++ [x])[i]?).any Q) =
          (List.range l.length).filter fun i => (l[i]?).any Q :=
        List.filter_congr fun i hi => by
          rw [List.getElem?_append_left (List.mem_range.1 hi)]
      rw [e]
      refine List.filterMap_congr fun i hi => ?_
      rw [List.getElem?_append_left (List.mem_range.1 (List.mem_filter.1 hi).1)]
    · by_cases hx : Q x = true <;> simp [hx]

/-- The rules named by a cell. -/
theorem cell_rules {g : Cfg} {Q : CfgRule → Bool} {l : List Nat} (hs : l.Pairwise (· < ·))
    (hl : ∀ i : Nat, i ∈ l ↔ ∃ r, g.rules[i]? = some r ∧ Q r = true) :
    l.filterMap (fun i => g.rules[i]?) = g.rules.filter Q := by
  rw [← filter_indices Q g.rules]
  congr 1
  refine sorted_ext hs (List.Pairwise.filter _ List.pairwise_lt_range) fun i => ?_
  rw [hl, List.mem_filter, List.mem_range]
  constructor
  · rintro ⟨r, e, hq⟩
    exact ⟨(List.getElem?_eq_some_iff.1 e).1, by simp [e, hq]⟩
  · rintro ⟨hi, hq⟩
    rw [List.getElem?_eq_getElem hi] at hq ⊢
    exact ⟨_, rfl, by simpa using hq⟩

namespace Cfg.Renumbered

variable {U : Sym → Prop} {σ : Sym → Sym} {g g' : Cfg}

theorem first_U (h : Renumbered U σ g g') {A a : Sym} (hA : U A)
    (k : FirstOf g.prod g.Term [A] a) : U a := by
  obtain ⟨-, γ, d⟩ := k
  exact h.derU (derives_iff_der.1 d) (single hA) a (by simp)

theorem follow_U (h : Renumbered U σ g g') {A a : Sym} (k : FollowOf g.prod g.Term A a) : U a := by
  obtain ⟨-, B, α, γ, d⟩ := k
  rw [derives_iff_der, Der.single_iff] at d
  rcases d with e | ⟨β, hp, d⟩
  · have := congrArg List.length e
    simp only [List.length_append, List.length_cons, List.length_nil] at this
    omega
  · exact h.derU d (h.prodU hp).2 a (by simp)

theorem no_first_iff (h : Renumbered U σ g g') {A : Sym} (hA : U A) :
    (∀ b, ¬ FirstOf g'.prod g'.Term [σ A] b) ↔ ∀ b, ¬ FirstOf g.prod g.Term [A] b := by
  constructor
  · intro k b hb
    exact k (σ b) ((h.first_iff hA (h.first_U hA hb)).2 hb)
  · intro k x hx
    obtain ⟨b, hb, rfl⟩ := h.first_onto hx.1.1
    exact k b ((h.first_iff hA hb).1 hx)

theorem enters_iff (h : Renumbered U σ g g') {r : CfgRule} (hr : r ∈ g.rules) {a : Sym} (ha : U a) :
    Enters g' (r.rename σ) (σ a) ↔ Enters g r a := by
  obtain ⟨h1, h2⟩ := h.rules r hr
  unfold Enters
  refine or_congr ?_ (and_congr ?_ (h.follow_iff h1 ha))
  · constructor
    · rintro ⟨pre, x, post, e, hp, hx⟩
      obtain ⟨l1, l2, e', rfl, e2⟩ := List.map_eq_append_iff.1 e
      obtain ⟨y, γ, rfl, rfl, rfl⟩ := List.map_eq_cons_iff.1 e2
      refine ⟨l1, y, γ, e', fun s hs => ?_, (h.first_iff (h2 y (by rw [e']; simp)) ha).1 hx⟩
      exact (h.no_first_iff (h2 s (by rw [e']; simp [hs]))).1 (hp _ (List.mem_map_of_mem hs))
    · rintro ⟨pre, x, post, e, hp, hx⟩
      refine ⟨pre.map σ, σ x, post.map σ, by simp [CfgRule.rename, e], fun s hs => ?_,
        (h.first_iff (h2 x (by rw [e]; simp)) ha).2 hx⟩
      obtain ⟨y, hy, rfl⟩ := List.mem_map.1 hs
      exact (h.no_first_iff (h2 y (by rw [e]; simp [hy]))).2 (hp y hy)
  · constructor
    · intro k s hs
      exact (h.no_first_iff (h2 s hs)).1 (k _ (List.mem_map_of_mem hs))
    · intro k s hs
      obtain ⟨y, hy, rfl⟩ := List.mem_map.1 hs
      exact (h.no_first_iff (h2 y hy)).2 (k y hy)

theorem enters_U (h : Renumbered U σ g g') {r : CfgRule} (hr : r ∈ g.rules) {a : Sym}
    (k : Enters g r a) : U a := by
  rcases k with ⟨pre, x, post, e, -, hx⟩ | ⟨-, k⟩
  · exact h.first_U ((h.rules r hr).2 x (by rw [e]; simp)) hx
  · exact h.follow_U k

end Cfg.Renumbered

section

variable {U : Sym → Prop} {σ : Sym → Sym} {g g' : Cfg}

/-- **C130.** The cells of the LL(1) tables correspond: up to order, the cell of renumbered symbols
holds the renumbered rules of the old cell; the other cells are empty. -/
theorem C130_ll_table (h : Cfg.Renumbered U σ g g') :
    ∃ t t', g.llParseTable = .ok t ∧ g'.llParseTable = .ok t' ∧
      (∀ A a, U A → U a →
        (((t'.get? (σ A, σ a)).getD []).filterMap fun i => g'.rules[i]?).Perm
          ((((t.get? (A, a)).getD []).filterMap fun i => g.rules[i]?).map (·.rename σ)) ∧
        ((t'.get? (σ A, σ a)).getD []).length = ((t.get? (A, a)).getD []).length) ∧
      (∀ A a, ¬ (U A ∧ U a) → (t.get? (A, a)).getD [] = []) ∧
      ∀ x y, (t'.get? (x, y)).getD [] ≠ [] → ∃ A a, U A ∧ U a ∧ σ A = x ∧ σ a = y := by
  classical
  obtain ⟨t, h1, -, h2⟩ := llParseTable_spec h.wf
  obtain ⟨t', k1, -, k2⟩ := llParseTable_spec h.wf'
  have lenEq : ∀ {g : Cfg} {l : List Nat}, (∀ i ∈ l, ∃ r, g.rules[i]? = some r) →
      (l.filterMap fun i => g.rules[i]?).length = l.length := by
    intro g l hl
    induction l with
    | nil => rfl
    | cons i l ih =>
      obtain ⟨r, e⟩ := hl i (by simp)
      simp [e, ih fun j hj => hl j (by simp [hj])]
  have hperm : ∀ A a, U A → U a →
      ((t'.cell (σ A, σ a)).filterMap fun i => g'.rules[i]?).Perm
          (((t.cell (A, a)).filterMap fun i => g.rules[i]?).map (·.rename σ)) := by
    intro A a hA ha
    rw [cell_rules (Q := fun r => decide (r.lhs = A ∧ Enters g r a)) (h2 A a).1 (fun i => by
        rw [(h2 A a).2 i]; simp only [decide_eq_true_eq]),
      cell_rules (Q := fun r => decide (r.lhs = σ A ∧ Enters g' r (σ a))) (k2 (σ A) (σ a)).1
        (fun i => by rw [(k2 (σ A) (σ a)).2 i]; simp only [decide_eq_true_eq])]
    refine (h.ren.rules.filter _).trans (List.Perm.of_eq ?_)
    rw [List.filter_map]
    congr 1
    refine List.filter_congr fun r hr => ?_
    simp only [Function.comp]
    refine decide_eq_decide.2 (and_congr ?_ (h.enters_iff hr ha))
    exact ⟨fun e => h.ren.inj _ _ (h.rules r hr).1 hA e, fun e => by rw [← e]; rfl⟩
  refine ⟨t, t', h1, k1, fun A a hA ha => ⟨hperm A a hA ha, ?_⟩, fun A a hn => ?_, fun x y hn => ?_⟩
  · have := (hperm A a hA ha).length_eq
    rw [List.length_map, lenEq, lenEq] at this
    · exact this
    · intro i hi
      obtain ⟨r, e, -⟩ := ((h2 A a).2 i).1 hi
      exact ⟨r, e⟩
    · intro i hi
      obtain ⟨r, e, -⟩ := ((k2 (σ A) (σ a)).2 i).1 hi
      exact ⟨r, e⟩
  · refine List.eq_nil_iff_forall_not_mem.2 fun i hi => hn ?_
    obtain ⟨r, e, rfl, hE⟩ := ((h2 A a).2 i).1 hi
    exact ⟨(h.rules r (List.mem_of_getElem? e)).1, h.enters_U (List.mem_of_getElem? e) hE⟩
  · obtain ⟨i, hi⟩ := List.exists_mem_of_ne_nil _ hn
    obtain ⟨r, e, rfl, hE⟩ := ((k2 x y).2 i).1 hi
    obtain ⟨A, hA, eA⟩ := h.first_onto (h.wf' r (List.mem_of_getElem? e)).1
    have hy : g'.Term y := by
      rcases hE with ⟨pre, x, post, -, -, k⟩ | ⟨-, k⟩
      · exact k.1
      · exact k.1
    obtain ⟨a, ha, ea⟩ := h.first_onto hy.1
    exact ⟨A, a, hA, ha, eA, ea⟩

/-- **C130.** The classes correspond. -/
theorem C130_ll_classes (h : Cfg.Renumbered U σ g g') :
    ∃ t t' c c', g.llParseTable = .ok t ∧ g'.llParseTable = .ok t' ∧
      g.llClassify t = .ok c ∧ g'.llClassify t' = .ok c' ∧ ∀ A, U A → c' (σ A) = c A := by
  obtain ⟨t, t', h1, h2, h3, h4, h5⟩ := C130_ll_table h
  obtain ⟨t1, c, k1, k2, k3⟩ := C76_classes h.wf
  obtain ⟨t1', c', m1, m2, m3⟩ := C76_classes h.wf'
  cases k1.symm.trans h1
  cases m1.symm.trans h2
  refine ⟨t, t', c, c', h1, h2, k2, m2, fun A hA => ?_⟩
  have hempty : (∀ y, (t'.get? (σ A, y)).getD [] = []) ↔ ∀ a, (t.get? (A, a)).getD [] = [] := by
    constructor
    · intro k a
      by_cases ha : U a
      · rw [← List.length_eq_zero_iff, ← (h3 A a hA ha).2, k]; rfl
      · exact h4 A a fun k => ha k.2
    · intro k y
      by_contra hn
      obtain ⟨B, a, hB, ha, eB, rfl⟩ := h5 _ _ hn
      refine hn ?_
      rw [← List.length_eq_zero_iff, (h3 A a hA ha).2, k]; rfl
  have e1 : c' (σ A) = none ↔ c A = none := by
    rw [(m3 (σ A)).1, (k3 A).1]; exact hempty
  have ne : ∀ {f : Sym → List Nat}, (∃ a, f a ≠ []) ↔ ¬ ∀ a, f a = [] := by
    intro f; exact not_forall.symm
  have e2 : c' (σ A) = some .contextFree ↔ c A = some .contextFree := by
    rw [(m3 (σ A)).2.1, (k3 A).2.1]
    refine and_congr ?_ ?_
    · rw [ne (f := fun a => (t'.get? (σ A, a)).getD []), ne (f := fun a => (t.get? (A, a)).getD []),
        hempty]
    · constructor
      · rintro ⟨x, y, hR, hl⟩
        obtain ⟨B, a, hB, ha, rfl, rfl⟩ := h5 x y (by rintro e; rw [e] at hl; simp at hl)
        exact ⟨B, a, (h.reaches_iff hA hB).1 hR, by rwa [← (h3 B a hB ha).2]⟩
      · rintro ⟨B, a, hR, hl⟩
        have : U B ∧ U a := by
          by_contra hn
          rw [h4 B a hn] at hl
          simp at hl
        exact ⟨σ B, σ a, (h.reaches_iff hA this.1).2 hR, by rwa [(h3 B a this.1 this.2).2]⟩
  cases hc : c A with
  | none => exact e1.2 hc
  | some x =>
    cases x with
    | contextFree => exact e2.2 hc
    | ll1 =>
      cases hc' : c' (σ A) with
      | none => rw [e1.1 hc'] at hc; cases hc
      | some y =>
        cases y with
        | ll1 => rfl
        | contextFree => rw [e2.1 hc'] at hc; cases hc

end

/-- The grammar `exRenumber` and its copy with symbols in the order 3, 2, 1, 0 (a pair of renumbered
grammars, see `Props/Renumber.lean`): the two rules of `A` are in the cell of `A` and `a`, with other
indices. -/
example : (fun t => [(0, 2), (1, 2), (0, 3)].map (LlTable.get? t)) <$> exRenumber.llParseTable =
      .ok [some [0], some [1, 2], none] ∧
    (fun t => [(3, 1), (2, 1), (3, 0)].map (LlTable.get? t)) <$>
      ({ src := ⟨4, [none, none, none, none]⟩
         rules := [⟨2, [1], {}⟩, ⟨2, [2, 1], {}⟩, ⟨3, [], {}⟩, ⟨3, [2, 0], {}⟩],
         roots := [3] } : Cfg).llParseTable = .ok [some [3], some [0, 1], none] :=
  ⟨by decide +kernel, by decide +kernel⟩

end Verif
