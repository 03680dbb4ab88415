import Verif.Model.Lr0
import Verif.Spec.Lr0
import Verif.Spec.Grammar
import Verif.Proofs.BMap
import Verif.Proofs.BitSet
import Verif.Proofs.Binarize
import Mathlib.Data.List.Perm.Subperm

/-! # LR(0) item sets -/

namespace Verif

/-- The set of terminals fits the grammar. -/
structure LrCtx (g : Cfg) (t : BitSet) : Prop where
  rhs : ∀ r ∈ g.rules, ∀ s ∈ r.rhs, s < t.length
  term : ∀ s, s < t.length → (Has t s ↔ ∀ r ∈ g.rules, r.lhs ≠ s)

theorem itemSet_mem {rules : List CfgRule} {m : Lr0Items} (h : ItemsOk rules m) {i d : Nat}
    {r : CfgRule} (hr : rules[i]? = some r) : ItemSet m i d ↔ (i, ⟨r.rhs, d⟩) ∈ m := by
  constructor
  · rintro ⟨⟨rhs, dot⟩, h1, rfl⟩
    obtain ⟨r', h2, h3⟩ := h.2 _ _ h1
    rw [hr] at h2
    cases h2
    simp only at h3
    rw [← h3]
    exact h1
  · intro h1
    exact ⟨_, h1, rfl⟩

theorem nonterminalPostdot_spec {g : Cfg} {t : BitSet} (hc : LrCtx g t) {it : Lr0Item}
    (hit : ∃ r ∈ g.rules, it.rhs = r.rhs) :
    ∃ o, it.nonterminalPostdot t = .ok o ∧
      ∀ A, o = some A ↔ it.rhs[it.dot]? = some A ∧ ∃ s ∈ g.rules, s.lhs = A := by
  unfold Lr0Item.nonterminalPostdot
  cases h : it.rhs[it.dot]? with
  | none => exact ⟨none, rfl, by simp⟩
  | some A =>
    obtain ⟨r, hr, e⟩ := hit
    have hA : A < t.length := hc.rhs r hr A (by rw [← e]; exact List.mem_of_getElem? h)
    have hg : BitSet.get t A = .ok t[A] := by
      unfold BitSet.get
      exact Res.index_lt hA
    simp only [hg, Res.bind_ok]
    have ht := hc.term A hA
    unfold Has at ht
    rw [List.getElem?_eq_getElem hA] at ht
    refine ⟨_, rfl, fun B => ?_⟩
    cases hb : t[A] with
    | true =>
      rw [hb] at ht
      have := ht.1 rfl
      simp only [Bool.not_true, Bool.false_eq_true, if_false, reduceCtorEq, Option.some.injEq,
        false_iff, not_and, not_exists]
      rintro rfl s hs e
      exact this s hs e
    | false =>
      rw [hb] at ht
      simp only [Bool.not_false, if_true, Option.some.injEq, iff_self_and]
      rintro rfl
      by_contra hn
      exact absurd (ht.2 fun r hr e => hn ⟨r, hr, e⟩) (by simp)

/-- The inner loop. -/
theorem lr0Predict_spec (A : Sym) (rules : List (CfgRule × Nat))
    (hn : (rules.map (·.2)).Nodup) {m : Lr0Items} (hm : BMap.Sorted m) (q : List Lr0Item) :
    ∃ m' n, lr0Predict A rules m q = (m', q ++ n) ∧ BMap.Sorted m' ∧
      m'.length = m.length + n.length ∧
      (∀ i it, (i, it) ∈ m' ↔ (∃ r, (r, i) ∈ rules ∧ r.lhs = A ∧ it = ⟨r.rhs, 0⟩) ∨
        ((∀ r, (r, i) ∈ rules → r.lhs ≠ A) ∧ (i, it) ∈ m)) ∧
      (∀ it, it ∈ n ↔ ∃ r i, (r, i) ∈ rules ∧ r.lhs = A ∧ it = ⟨r.rhs, 0⟩ ∧ ∀ w, (i, w) ∉ m) := by
  induction rules generalizing m q with
  | nil => exact ⟨m, [], by simp [lr0Predict], hm, by simp, by simp, by simp⟩
  | cons p rules ih =>
    obtain ⟨r, k⟩ := p
    have hn' : (rules.map (·.2)).Nodup := (List.nodup_cons.1 hn).2
    have hk : ∀ r', (r', k) ∉ rules := fun r' h =>
      (List.nodup_cons.1 hn).1 (List.mem_map.2 ⟨_, h, rfl⟩)
    by_cases hl : r.lhs = A
    · obtain ⟨s1, s2, s3, s4⟩ := BMap.insert_spec k (⟨r.rhs, 0⟩ : Lr0Item) hm
      have hne : ∀ r' i, (r', i) ∈ rules → i ≠ k := by
        rintro r' i h rfl
        exact hk r' h
      cases ho : (BMap.insert k (⟨r.rhs, 0⟩ : Lr0Item) m).2 with
      | none =>
        have hk' := s3.1 ho
        obtain ⟨m', n, h1, h2, h3, h4, h5⟩ := ih hn' s1 (q ++ [⟨r.rhs, 0⟩])
        refine ⟨m', ⟨r.rhs, 0⟩ :: n, ?_, h2, ?_, ?_, ?_⟩
        · unfold lr0Predict
          rw [if_pos hl]
          simp only [ho, Option.isNone_none, if_true]
          rw [h1]
          simp
        · rw [ho] at s4
          simp only [Option.isNone_none, if_true] at s4
          simp only [h3, s4, List.length_cons]
          omega
        · intro i it
          rw [h4, s2]
          simp only [List.mem_cons, Prod.mk.injEq]
          constructor
          · rintro (⟨r', e1, e2⟩ | ⟨e1, ⟨rfl, rfl⟩ | ⟨e2, e3⟩⟩)
            · exact .inl ⟨r', .inr e1, e2⟩
            · exact .inl ⟨r, .inl ⟨rfl, rfl⟩, hl, rfl⟩
            · refine .inr ⟨?_, e3⟩
              rintro r' (⟨rfl, rfl⟩ | e)
              · exact absurd rfl e2
              · exact e1 r' e
          · rintro (⟨r', ⟨rfl, rfl⟩ | e1, e2, e3⟩ | ⟨e1, e2⟩)
            · exact .inr ⟨fun r'' h => absurd h (hk r''), .inl ⟨rfl, e3⟩⟩
            · exact .inl ⟨r', e1, e2, e3⟩
            · refine .inr ⟨fun r' h => e1 r' (.inr h), .inr ⟨?_, e2⟩⟩
              rintro rfl
              exact e1 r (.inl ⟨rfl, rfl⟩) hl
        · intro it
          simp only [List.mem_cons, h5, Prod.mk.injEq]
          constructor
          · rintro (rfl | ⟨r', i, e1, e2, e3, e4⟩)
            · exact ⟨r, k, .inl ⟨rfl, rfl⟩, hl, rfl, hk'⟩
            · refine ⟨r', i, .inr e1, e2, e3, fun w hw => ?_⟩
              exact e4 w ((s2 _ _).2 (.inr ⟨hne r' i e1, hw⟩))
          · rintro ⟨r', i, ⟨rfl, rfl⟩ | e1, e2, e3, e4⟩
            · exact .inl e3
            · refine .inr ⟨r', i, e1, e2, e3, fun w hw => ?_⟩
              rcases (s2 _ _).1 hw with ⟨e, -⟩ | ⟨-, e⟩
              · exact hne r' i e1 e
              · exact e4 w e
      | some old =>
        have hk' : ∃ w, (k, w) ∈ m := by
          by_contra hcon
          push Not at hcon
          have := s3.2 hcon
          rw [ho] at this
          cases this
        obtain ⟨m', n, h1, h2, h3, h4, h5⟩ := ih hn' s1 q
        refine ⟨m', n, ?_, h2, ?_, ?_, ?_⟩
        · unfold lr0Predict
          rw [if_pos hl]
          simp only [ho, Option.isNone_some, Bool.false_eq_true, if_false]
          rw [h1]
        · rw [ho] at s4
          simp only [Option.isNone_some, Bool.false_eq_true, if_false] at s4
          rw [h3, s4]
          omega
        · intro i it
          rw [h4, s2]
          simp only [List.mem_cons, Prod.mk.injEq]
          constructor
          · rintro (⟨r', e1, e2⟩ | ⟨e1, ⟨rfl, rfl⟩ | ⟨e2, e3⟩⟩)
            · exact .inl ⟨r', .inr e1, e2⟩
            · exact .inl ⟨r, .inl ⟨rfl, rfl⟩, hl, rfl⟩
            · refine .inr ⟨?_, e3⟩
              rintro r' (⟨rfl, rfl⟩ | e)
              · exact absurd rfl e2
              · exact e1 r' e
          · rintro (⟨r', ⟨rfl, rfl⟩ | e1, e2, e3⟩ | ⟨e1, e2⟩)
            · exact .inr ⟨fun r'' h => absurd h (hk r''), .inl ⟨rfl, e3⟩⟩
            · exact .inl ⟨r', e1, e2, e3⟩
            · refine .inr ⟨fun r' h => e1 r' (.inr h), .inr ⟨?_, e2⟩⟩
              rintro rfl
              exact e1 r (.inl ⟨rfl, rfl⟩) hl
        · intro it
          simp only [List.mem_cons, h5, Prod.mk.injEq]
          constructor
          · rintro ⟨r', i, e1, e2, e3, e4⟩
            refine ⟨r', i, .inr e1, e2, e3, fun w hw => ?_⟩
            exact e4 w ((s2 _ _).2 (.inr ⟨hne r' i e1, hw⟩))
          · rintro ⟨r', i, ⟨rfl, rfl⟩ | e1, e2, e3, e4⟩
            · obtain ⟨w, hw⟩ := hk'
              exact absurd hw (e4 w)
            · refine ⟨r', i, e1, e2, e3, fun w hw => ?_⟩
              rcases (s2 _ _).1 hw with ⟨e, -⟩ | ⟨-, e⟩
              · exact hne r' i e1 e
              · exact e4 w e
    · obtain ⟨m', n, h1, h2, h3, h4, h5⟩ := ih hn' hm q
      refine ⟨m', n, ?_, h2, h3, ?_, ?_⟩
      · unfold lr0Predict
        rw [if_neg hl, h1]
      · intro i it
        rw [h4]
        simp only [List.mem_cons, Prod.mk.injEq]
        constructor
        · rintro (⟨r', e1, e2⟩ | ⟨e1, e2⟩)
          · exact .inl ⟨r', .inr e1, e2⟩
          · refine .inr ⟨?_, e2⟩
            rintro r' (⟨rfl, rfl⟩ | e)
            · exact hl
            · exact e1 r' e
        · rintro (⟨r', ⟨rfl, rfl⟩ | e1, e2, e3⟩ | ⟨e1, e2⟩)
          · exact absurd e2 hl
          · exact .inl ⟨r', e1, e2, e3⟩
          · exact .inr ⟨fun r' h => e1 r' (.inr h), e2⟩
      · intro it
        simp only [List.mem_cons, h5, Prod.mk.injEq]
        constructor
        · rintro ⟨r', i, e1, e2⟩
          exact ⟨r', i, .inr e1, e2⟩
        · rintro ⟨r', i, ⟨rfl, rfl⟩ | e1, e2, e3⟩
          · exact absurd e2 hl
          · exact ⟨r', i, e1, e2, e3⟩

theorem mem_zipIdx_rules {rules : List CfgRule} {r : CfgRule} {i : Nat} :
    (r, i) ∈ rules.zipIdx ↔ rules[i]? = some r := by
  rw [List.mem_zipIdx_iff_getElem?]

/-- State of the closure loop: `D` are the symbols expanded so far. -/
structure LrInv (g : Cfg) (m0 : Lr0Items) (D : Sym → Prop) (m : Lr0Items) (q : List Lr0Item) :
    Prop where
  sorted : BMap.Sorted m
  exp : ∀ A, D A → Expanded g.rules (ItemSet m0) A
  mem : ∀ i it, (i, it) ∈ m ↔ ∃ r, g.rules[i]? = some r ∧
    (D r.lhs ∧ it = ⟨r.rhs, 0⟩ ∨ ¬ D r.lhs ∧ (i, it) ∈ m0)
  queue : ∀ it ∈ q, (∃ i, (i, it) ∈ m0) ∨
    ∃ i r, g.rules[i]? = some r ∧ D r.lhs ∧ (∀ w, (i, w) ∉ m0) ∧ it = ⟨r.rhs, 0⟩
  done : ∀ it, ((∃ i, (i, it) ∈ m0) ∨
    ∃ i r, g.rules[i]? = some r ∧ D r.lhs ∧ (∀ w, (i, w) ∉ m0) ∧ it = ⟨r.rhs, 0⟩) →
    it ∈ q ∨ ∀ A, it.rhs[it.dot]? = some A → (∃ s ∈ g.rules, s.lhs = A) → D A

theorem keys_length {rules : List CfgRule} {m : Lr0Items} (h : ItemsOk rules m) :
    m.length ≤ rules.length := by
  have hs : (m.map (·.1)) ⊆ List.range rules.length := by
    intro k hk
    obtain ⟨⟨i, it⟩, hp, rfl⟩ := List.mem_map.1 hk
    obtain ⟨r, hr, -⟩ := h.2 i it hp
    rw [List.mem_range]
    exact (List.getElem?_eq_some_iff.1 hr).1
  have := (List.subperm_of_subset h.1.nodup_keys hs).length_le
  simpa using this

theorem LrInv.itemsOk {g : Cfg} {m0 : Lr0Items} (h0 : ItemsOk g.rules m0) {D : Sym → Prop}
    {m : Lr0Items} {q : List Lr0Item} (h : LrInv g m0 D m q) : ItemsOk g.rules m := by
  refine ⟨h.sorted, fun i it hm => ?_⟩
  obtain ⟨r, hr, ⟨-, rfl⟩ | ⟨-, hm0⟩⟩ := (h.mem i it).1 hm
  · exact ⟨r, hr, rfl⟩
  · exact h0.2 i it hm0

theorem lr0ClosureLoop_spec {g : Cfg} {t : BitSet} (hc : LrCtx g t) {m0 : Lr0Items}
    (h0 : ItemsOk g.rules m0) (fuel : Nat) {D : Sym → Prop} {m : Lr0Items} {q : List Lr0Item}
    (h : LrInv g m0 D m q) (hf : q.length + (g.rules.length - m.length) < fuel) :
    ∃ m' D', lr0ClosureLoop g t fuel m q = .ok m' ∧ LrInv g m0 D' m' [] := by
  induction fuel generalizing D m q with
  | zero => omega
  | succ fuel ih =>
    cases q with
    | nil => exact ⟨m, D, rfl, h⟩
    | cons it q =>
      have hit : ∃ r ∈ g.rules, it.rhs = r.rhs := by
        rcases h.queue it (by simp) with ⟨i, hi⟩ | ⟨i, r, hr, -, -, rfl⟩
        · obtain ⟨r, hr, e⟩ := h0.2 i it hi
          exact ⟨r, List.mem_of_getElem? hr, e⟩
        · exact ⟨r, List.mem_of_getElem? hr, rfl⟩
      obtain ⟨o, ho, ho'⟩ := nonterminalPostdot_spec hc hit
      unfold lr0ClosureLoop
      simp only [ho, Res.bind_ok]
      cases o with
      | none =>
        simp only
        refine ih (D := D) ⟨h.sorted, h.exp, h.mem, fun x hx => h.queue x (by simp [hx]), ?_⟩ (by
          simp only [List.length_cons] at hf; omega)
        intro x hx
        rcases h.done x hx with hq | hd
        · rcases List.mem_cons.1 hq with rfl | hq
          · refine .inr fun A hA hs => ?_
            exact absurd ((ho' A).2 ⟨hA, hs⟩) (by simp)
          · exact .inl hq
        · exact .inr hd
      | some A =>
        simp only
        obtain ⟨hA, hs⟩ := (ho' A).1 rfl
        obtain ⟨m', n, p1, p2, p3, p4, p5⟩ := lr0Predict_spec A g.rules.zipIdx
          (by simp [List.nodup_range']) h.sorted q
        rw [p1]
        have hexp : Expanded g.rules (ItemSet m0) A := by
          rcases h.queue it (by simp) with ⟨i, hi⟩ | ⟨i, r, hr, hD, hk, rfl⟩
          · obtain ⟨r, hr, e⟩ := h0.2 i it hi
            exact .kernel ⟨it, hi, rfl⟩ hr (e ▸ hA) hs
          · exact .step (h.exp _ hD) hr (fun d ⟨w, hw, _⟩ => hk w hw) hA hs
        have hmem : ∀ i it, (i, it) ∈ m' ↔ ∃ r, g.rules[i]? = some r ∧
            ((D r.lhs ∨ r.lhs = A) ∧ it = ⟨r.rhs, 0⟩ ∨ ¬ (D r.lhs ∨ r.lhs = A) ∧ (i, it) ∈ m0) := by
          intro i x
          rw [p4]
          simp only [mem_zipIdx_rules]
          constructor
          · rintro (⟨r, hr, e1, e2⟩ | ⟨hne, hm⟩)
            · exact ⟨r, hr, .inl ⟨.inr e1, e2⟩⟩
            · obtain ⟨r, hr, ⟨hD, e⟩ | ⟨hD, hm⟩⟩ := (h.mem i x).1 hm
              · exact ⟨r, hr, .inl ⟨.inl hD, e⟩⟩
              · refine ⟨r, hr, .inr ⟨?_, hm⟩⟩
                rintro (hD' | e)
                · exact hD hD'
                · exact hne r hr e
          · rintro ⟨r, hr, ⟨hD, e⟩ | ⟨hD, hm⟩⟩
            · by_cases e' : r.lhs = A
              · exact .inl ⟨r, hr, e', e⟩
              · refine .inr ⟨?_, (h.mem i x).2 ⟨r, hr, .inl ⟨hD.resolve_right e', e⟩⟩⟩
                intro r' hr' e1
                rw [hr] at hr'
                cases hr'
                exact e' e1
            · refine .inr ⟨?_, (h.mem i x).2 ⟨r, hr, .inr ⟨fun h => hD (.inl h), hm⟩⟩⟩
              intro r' hr' e1
              rw [hr] at hr'
              cases hr'
              exact hD (.inr e1)
        have hn : ∀ x ∈ n, ∃ i r, g.rules[i]? = some r ∧ (D r.lhs ∨ r.lhs = A) ∧
            (∀ w, (i, w) ∉ m0) ∧ x = ⟨r.rhs, 0⟩ := by
          intro x hx
          obtain ⟨r, i, hr, e1, e2, e3⟩ := (p5 x).1 hx
          rw [mem_zipIdx_rules] at hr
          refine ⟨i, r, hr, .inr e1, fun w hw => ?_, e2⟩
          by_cases hD : D r.lhs
          · exact e3 _ ((h.mem i _).2 ⟨r, hr, .inl ⟨hD, rfl⟩⟩)
          · exact e3 _ ((h.mem i _).2 ⟨r, hr, .inr ⟨hD, hw⟩⟩)
        have hinv : LrInv g m0 (fun B => D B ∨ B = A) m' (q ++ n) := by
          refine ⟨p2, ?_, hmem, ?_, ?_⟩
          · rintro B (hB | rfl)
            · exact h.exp B hB
            · exact hexp
          · intro x hx
            rcases List.mem_append.1 hx with hx | hx
            · rcases h.queue x (by simp [hx]) with h' | ⟨i, r, e1, e2, e3⟩
              · exact .inl h'
              · exact .inr ⟨i, r, e1, .inl e2, e3⟩
            · exact .inr (hn x hx)
          · intro x hx
            have hold : ((∃ i, (i, x) ∈ m0) ∨ ∃ i r, g.rules[i]? = some r ∧ D r.lhs ∧
                (∀ w, (i, w) ∉ m0) ∧ x = ⟨r.rhs, 0⟩) → x ∈ q ++ n ∨
                ∀ B, x.rhs[x.dot]? = some B → (∃ s ∈ g.rules, s.lhs = B) → D B ∨ B = A := by
              intro hx
              rcases h.done x hx with hq | hd
              · rcases List.mem_cons.1 hq with rfl | hq
                · refine .inr fun B hB _ => .inr ?_
                  rw [hA] at hB
                  exact (Option.some.inj hB).symm
                · exact .inl (List.mem_append_left _ hq)
              · exact .inr fun B hB hs => .inl (hd B hB hs)
            rcases hx with hx | ⟨i, r, hr, hD, hk, rfl⟩
            · exact hold (.inl hx)
            · by_cases hD' : D r.lhs
              · exact hold (.inr ⟨i, r, hr, hD', hk, rfl⟩)
              · refine .inl (List.mem_append_right _ ((p5 _).2 ⟨r, i, mem_zipIdx_rules.2 hr,
                  hD.resolve_left hD', rfl, fun w hw => ?_⟩))
                obtain ⟨r', hr', ⟨h1, -⟩ | ⟨-, h1⟩⟩ := (h.mem i w).1 hw
                · rw [hr] at hr'
                  cases hr'
                  exact hD' h1
                · exact hk w h1
        refine ih hinv ?_
        have := keys_length (hinv.itemsOk h0)
        simp only [List.length_cons, List.length_append] at *
        omega

/-- The closure as the code computes it. -/
theorem lr0Closure_spec {g : Cfg} {t : BitSet} (hc : LrCtx g t) {m0 : Lr0Items}
    (h0 : ItemsOk g.rules m0) :
    ∃ m, lr0Closure g t m0 = .ok m ∧ ItemsOk g.rules m ∧
      ∀ i d, ItemSet m i d ↔ OneItemClosure g.rules (ItemSet m0) i d := by
  have hinv : LrInv g m0 (fun _ => False) m0 (m0.map (·.2)) := by
    refine ⟨h0.1, fun _ h => h.elim, ?_, ?_, ?_⟩
    · intro i it
      constructor
      · intro h
        obtain ⟨r, hr, -⟩ := h0.2 i it h
        exact ⟨r, hr, .inr ⟨id, h⟩⟩
      · rintro ⟨r, hr, ⟨h, -⟩ | ⟨-, h⟩⟩
        · exact h.elim
        · exact h
    · intro it h
      obtain ⟨⟨i, it'⟩, hm, rfl⟩ := List.mem_map.1 h
      exact .inl ⟨i, hm⟩
    · rintro it (⟨i, hi⟩ | ⟨i, r, -, h, -⟩)
      · exact .inl (List.mem_map.2 ⟨_, hi, rfl⟩)
      · exact h.elim
  obtain ⟨m, D, h1, h2⟩ := lr0ClosureLoop_spec hc h0 (m0.length + g.rules.length + 1) hinv (by
    simp only [List.length_map]; omega)
  have hD : ∀ A, Expanded g.rules (ItemSet m0) A → D A := by
    intro A hA
    induction hA with
    | @kernel i d r A hk hr hA hs =>
      obtain ⟨it, hm, rfl⟩ := hk
      obtain ⟨r', hr', e⟩ := h0.2 i it hm
      rw [hr] at hr'
      cases hr'
      rcases h2.done it (.inl ⟨i, hm⟩) with h | h
      · cases h
      · exact h A (e ▸ hA) hs
    | @step i r A _ hr hk hA hs ih =>
      rcases h2.done ⟨r.rhs, 0⟩ (.inr ⟨i, r, hr, ih, fun w hw => hk _ ⟨w, hw, rfl⟩, rfl⟩) with h | h
      · cases h
      · exact h A hA hs
  refine ⟨m, h1, h2.itemsOk h0, fun i d => ?_⟩
  constructor
  · rintro ⟨it, hm, rfl⟩
    obtain ⟨r, hr, ⟨h, rfl⟩ | ⟨h, hm⟩⟩ := (h2.mem i it).1 hm
    · exact ⟨r, hr, .inl ⟨h2.exp _ h, rfl⟩⟩
    · exact ⟨r, hr, .inr ⟨fun h' => h (hD _ h'), it, hm, rfl⟩⟩
  · rintro ⟨r, hr, ⟨h, rfl⟩ | ⟨h, it, hm, rfl⟩⟩
    · exact ⟨_, (h2.mem i _).2 ⟨r, hr, .inl ⟨hD _ h, rfl⟩⟩, rfl⟩
    · exact ⟨it, (h2.mem i it).2 ⟨r, hr, .inr ⟨fun h' => h (h2.exp _ h'), hm⟩⟩, rfl⟩

/-! ## The textbook closure -/

theorem Expanded.item {rules : List CfgRule} {K : Nat → Nat → Prop} {A : Sym}
    (h : Expanded rules K A) : ∃ i d r, ItemClosure rules K i d ∧ rules[i]? = some r ∧
      r.rhs[d]? = some A := by
  induction h with
  | @kernel i d r A hk hr hA _ => exact ⟨i, d, r, .kernel hk, hr, hA⟩
  | @step i r A _ hr _ hA _ ih =>
    obtain ⟨j, e, s, h1, h2, h3⟩ := ih
    exact ⟨i, 0, r, .predict h1 h2 hr h3, hr, hA⟩

theorem oneItemClosure_iff {rules : List CfgRule} {K : Nat → Nat → Prop}
    (hK : ∀ i d, K i d → ∃ r, rules[i]? = some r)
    (h : ∀ i d, K i d → ItemClosure rules K i 0 → d = 0) (i d : Nat) :
    OneItemClosure rules K i d ↔ ItemClosure rules K i d := by
  have key : ∀ {i d}, ItemClosure rules K i d → ∃ r, rules[i]? = some r ∧
      (K i d ∨ d = 0 ∧ Expanded rules K r.lhs) ∧
      ∀ A, r.rhs[d]? = some A → (∃ s ∈ rules, s.lhs = A) → Expanded rules K A := by
    intro i d hi
    induction hi with
    | @kernel i d hk =>
      obtain ⟨r, hr⟩ := hK i d hk
      exact ⟨r, hr, .inl hk, fun A hA hs => .kernel hk hr hA hs⟩
    | @predict i d r j s hi hr hj hp ih =>
      obtain ⟨r', hr', -, h2⟩ := ih
      rw [hr] at hr'
      cases hr'
      have hexp := h2 s.lhs hp ⟨s, List.mem_of_getElem? hj, rfl⟩
      refine ⟨s, hj, .inr ⟨rfl, hexp⟩, fun A hA hs => ?_⟩
      by_cases hk : ∃ d', K j d'
      · obtain ⟨d', hk⟩ := hk
        obtain rfl := h j d' hk (.predict hi hr hj hp)
        exact .kernel hk hj hA hs
      · exact .step hexp hj (fun d' hd => hk ⟨d', hd⟩) hA hs
  have hin : ∀ {A j s}, Expanded rules K A → rules[j]? = some s → s.lhs = A →
      ItemClosure rules K j 0 := by
    rintro A j s hA hj rfl
    obtain ⟨i, d, r, h1, h2, h3⟩ := hA.item
    exact .predict h1 h2 hj h3
  constructor
  · rintro ⟨r, hr, ⟨h1, rfl⟩ | ⟨-, h1⟩⟩
    · exact hin h1 hr rfl
    · exact .kernel h1
  · intro hi
    obtain ⟨r, hr, h1, -⟩ := key hi
    refine ⟨r, hr, ?_⟩
    by_cases he : Expanded rules K r.lhs
    · refine .inl ⟨he, ?_⟩
      rcases h1 with h1 | ⟨h1, -⟩
      · exact h i d h1 (hin he hr rfl)
      · exact h1
    · refine .inr ⟨he, ?_⟩
      rcases h1 with h1 | ⟨-, h1⟩
      · exact h1
      · exact absurd h1 he

/-! ## Moving the dot -/

/-- The dots are within the right sides. -/
def LrItemsIn (rules : List CfgRule) (m : Lr0Items) : Prop :=
  ItemsOk rules m ∧ ∀ i it, (i, it) ∈ m → it.dot ≤ it.rhs.length

theorem lr0Kernel_spec {rules : List CfgRule} {m : Lr0Items} (h : LrItemsIn rules m) (a : Sym) :
    LrItemsIn rules (lr0Kernel m a) ∧
    ∀ i d, ItemSet (lr0Kernel m a) i d ↔ Moved rules (ItemSet m) a i d := by
  have hmem : ∀ i it, (i, it) ∈ lr0Kernel m a ↔ ∃ it', (i, it') ∈ m ∧ it'.rhs[it'.dot]? = some a ∧
      it = ⟨it'.rhs, it'.dot + 1⟩ := by
    intro i it
    unfold lr0Kernel
    simp only [List.mem_filterMap, Prod.exists]
    constructor
    · rintro ⟨j, it', h1, h2⟩
      split at h2
      · rename_i h3
        obtain ⟨rfl, rfl⟩ := Prod.mk.inj (Option.some.inj h2)
        exact ⟨it', h1, h3, rfl⟩
      · cases h2
    · rintro ⟨it', h1, h3, rfl⟩
      exact ⟨i, it', h1, if_pos h3⟩
  refine ⟨⟨⟨?_, ?_⟩, ?_⟩, ?_⟩
  · unfold lr0Kernel BMap.Sorted
    rw [List.pairwise_filterMap]
    refine h.1.1.imp ?_
    rintro ⟨i, x⟩ ⟨j, y⟩ hij ⟨i', x'⟩ h1 ⟨j', y'⟩ h2
    simp only at h1 h2
    split at h1
    · split at h2
      · obtain ⟨rfl, -⟩ := Prod.mk.inj (Option.some.inj h1)
        obtain ⟨rfl, -⟩ := Prod.mk.inj (Option.some.inj h2)
        exact hij
      · cases h2
    · cases h1
  · intro i it hm
    obtain ⟨it', h1, -, rfl⟩ := (hmem i it).1 hm
    exact h.1.2 i it' h1
  · intro i it hm
    obtain ⟨it', h1, h2, rfl⟩ := (hmem i it).1 hm
    have := (List.getElem?_eq_some_iff.1 h2).1
    simp only
    omega
  · intro i d
    constructor
    · rintro ⟨it, hm, rfl⟩
      obtain ⟨it', h1, h2, rfl⟩ := (hmem i it).1 hm
      obtain ⟨r, hr, e⟩ := h.1.2 i it' h1
      exact ⟨it'.dot, r, rfl, ⟨it', h1, rfl⟩, hr, e ▸ h2⟩
    · rintro ⟨e, r, rfl, ⟨it', h1, rfl⟩, hr, h2⟩
      obtain ⟨r', hr', e'⟩ := h.1.2 i it' h1
      rw [hr] at hr'
      cases hr'
      exact ⟨_, (hmem i _).2 ⟨it', h1, e' ▸ h2, rfl⟩, rfl⟩

theorem lr0Closure_in {g : Cfg} {t : BitSet} (hc : LrCtx g t) {m0 : Lr0Items}
    (h0 : LrItemsIn g.rules m0) :
    ∃ m, lr0Closure g t m0 = .ok m ∧ LrItemsIn g.rules m ∧
      ∀ i d, ItemSet m i d ↔ OneItemClosure g.rules (ItemSet m0) i d := by
  obtain ⟨m, h1, h2, h3⟩ := lr0Closure_spec hc h0.1
  refine ⟨m, h1, ⟨h2, fun i it hm => ?_⟩, h3⟩
  obtain ⟨r, hr, ⟨-, hd⟩ | ⟨-, it', hm', hd⟩⟩ := (h3 i it.dot).1 ⟨it, hm, rfl⟩
  · omega
  · obtain ⟨r1, hr1, e1⟩ := h2.2 i it hm
    obtain ⟨r2, hr2, e2⟩ := h0.1.2 i it' hm'
    rw [hr] at hr1 hr2
    cases hr1
    cases hr2
    have := h0.2 i it' hm'
    rw [e1, ← e2, ← hd]
    exact this

theorem lr0Advance_spec {g : Cfg} {t : BitSet} (hc : LrCtx g t) {m : Lr0Items}
    (h : LrItemsIn g.rules m) (a : Sym) :
    (lr0Advance g t m a = .ok none ∧ ∀ i d, ¬ Moved g.rules (ItemSet m) a i d) ∨
    ∃ m', lr0Advance g t m a = .ok (some m') ∧ LrItemsIn g.rules m' ∧
      (∃ i d, Moved g.rules (ItemSet m) a i d) ∧
      ∀ i d, ItemSet m' i d ↔ OneItemClosure g.rules (Moved g.rules (ItemSet m) a) i d := by
  obtain ⟨h1, h2⟩ := lr0Kernel_spec h a
  unfold lr0Advance
  cases hk : lr0Kernel m a with
  | nil =>
    left
    refine ⟨by simp, fun i d hm => ?_⟩
    obtain ⟨it, hi, -⟩ := (h2 i d).2 hm
    rw [hk] at hi
    cases hi
  | cons p l =>
    right
    obtain ⟨m', e1, e2, e3⟩ := lr0Closure_in hc h1
    rw [hk] at e1
    refine ⟨m', by simp [e1], e2, ?_, ?_⟩
    · refine ⟨p.1, p.2.dot, (h2 _ _).1 ⟨p.2, ?_, rfl⟩⟩
      rw [hk]
      simp
    · intro i d
      have : ItemSet (lr0Kernel m a) = Moved g.rules (ItemSet m) a := by
        funext i d
        exact propext (h2 i d)
      rw [← this]
      exact e3 i d

/-! ## Number of item sets -/

/-- All item sets. -/
def allItemSets : Nat → List CfgRule → List Lr0Items
  | _, [] => [[]]
  | k, r :: rs => allItemSets (k + 1) rs ++ (List.range (r.rhs.length + 1)).flatMap fun d =>
      (allItemSets (k + 1) rs).map fun m => (k, ⟨r.rhs, d⟩) :: m

theorem length_allItemSets (k : Nat) (rules : List CfgRule) :
    (allItemSets k rules).length = (rules.map fun r => r.rhs.length + 2).prod := by
  induction rules generalizing k with
  | nil => rfl
  | cons r rs ih =>
    simp only [allItemSets, List.length_append, List.length_flatMap, List.length_map, ih,
      List.map_cons, List.prod_cons]
    simp only [List.map_const', List.length_range, List.sum_replicate_nat]
    rw [show r.rhs.length + 2 = 1 + (r.rhs.length + 1) by omega]
    simp only [Nat.add_mul, Nat.one_mul]

theorem mem_allItemSets (k : Nat) (rules : List CfgRule) (m : Lr0Items) (hs : BMap.Sorted m)
    (h : ∀ i it, (i, it) ∈ m → ∃ j r, i = k + j ∧ rules[j]? = some r ∧ it.rhs = r.rhs ∧
      it.dot ≤ it.rhs.length) : m ∈ allItemSets k rules := by
  induction rules generalizing k m with
  | nil =>
    cases m with
    | nil => simp [allItemSets]
    | cons p m =>
      obtain ⟨j, r, -, hr, -⟩ := h p.1 p.2 (by simp)
      simp at hr
  | cons r rs ih =>
    have step : ∀ m', BMap.Sorted m' → (∀ p ∈ m', p ∈ m) → (∀ p ∈ m', k < p.1) →
        m' ∈ allItemSets (k + 1) rs := by
      intro m' hs' hm' hk
      refine ih (k + 1) m' hs' fun i it hi => ?_
      obtain ⟨j, r', e1, e2, e3⟩ := h i it (hm' _ hi)
      have := hk _ hi
      simp only at this
      cases j with
      | zero => omega
      | succ j => exact ⟨j, r', by omega, by simpa using e2, e3⟩
    unfold allItemSets
    rw [List.mem_append]
    cases m with
    | nil => exact .inl (step [] List.Pairwise.nil (by simp) (by simp))
    | cons p m =>
      obtain ⟨h1, h2⟩ := List.pairwise_cons.1 hs
      obtain ⟨j, r', e1, e2, e3, e4⟩ := h p.1 p.2 (by simp)
      cases j with
      | zero =>
        right
        simp only [List.getElem?_cons_zero, Option.some.injEq] at e2
        subst e2
        simp only [List.mem_flatMap, List.mem_range, List.mem_map]
        refine ⟨p.2.dot, by rw [e3] at e4; omega, m, step m h2 (by simp +contextual) ?_, ?_⟩
        · intro q hq
          have := h1 q hq
          omega
        · obtain ⟨i, rhs, dot⟩ := p
          simp only at e1 e3
          subst e3
          rw [e1]
          rfl
      | succ j =>
        left
        refine step _ hs (fun _ h => h) fun q hq => ?_
        rcases List.mem_cons.1 hq with rfl | hq
        · omega
        · have := h1 q hq
          omega

theorem itemSets_bound {rules : List CfgRule} {L : List Lr0Items} (hn : L.Nodup)
    (h : ∀ m ∈ L, LrItemsIn rules m) : L.length < lr0Fuel rules := by
  have hsub : L ⊆ allItemSets 0 rules := by
    intro m hm
    refine mem_allItemSets 0 rules m (h m hm).1.1 fun i it hi => ?_
    obtain ⟨r, hr, e⟩ := (h m hm).1.2 i it hi
    exact ⟨i, r, by omega, hr, e, (h m hm).2 i it hi⟩
  have := (List.subperm_of_subset hn hsub).length_le
  rw [length_allItemSets] at this
  unfold lr0Fuel
  omega

/-! ## The state machine -/

theorem lookup_zipIdx (L : List Lr0Items) (k : Nat) (m : Lr0Items) :
    match (L.zipIdx k).lookup m with
    | none => m ∉ L
    | some id => k ≤ id ∧ L[id - k]? = some m := by
  induction L generalizing k with
  | nil => simp
  | cons x L ih =>
    simp only [List.zipIdx_cons, List.lookup_cons]
    by_cases e : m = x
    · subst e
      simp
    · have : (m == x) = false := by simpa using e
      rw [this]
      have ih := ih (k + 1)
      simp only
      split
      · rename_i h
        rw [h] at ih
        simp only [List.mem_cons, not_or]
        exact ⟨e, ih⟩
      · rename_i id h
        rw [h] at ih
        simp only at ih
        refine ⟨by omega, ?_⟩
        rw [show id - k = (id - (k + 1)) + 1 by omega, List.getElem?_cons_succ]
        exact ih.2

/-- The item sets found so far, with their numbers. -/
structure FsmInv (g : Cfg) (L : List Lr0Items) (done : List Lr0Items) (f : Lr0Fsm) : Prop where
  cached : f.cachedSets = L.zipIdx
  order : done ++ f.setsQueue = L
  nodup : L.Nodup
  items : ∀ m ∈ L, LrItemsIn g.rules m

theorem FsmInv.idOf {g : Cfg} {L done : List Lr0Items} {f : Lr0Fsm} (h : FsmInv g L done f)
    {m : Lr0Items} (hm : LrItemsIn g.rules m) :
    ∃ N, FsmInv g (L ++ N) done (f.idOf m).2 ∧ (L ++ N)[(f.idOf m).1]? = some m ∧ ∀ x ∈ N, x = m := by
  have hl := lookup_zipIdx L 0 m
  unfold Lr0Fsm.idOf
  rw [h.cached]
  cases hf : L.zipIdx.lookup m with
  | none =>
    rw [hf] at hl
    refine ⟨[m], ⟨?_, ?_, ?_, ?_⟩, ?_, by simp⟩
    · simp [Lr0Fsm.introduceSet, h.cached, List.zipIdx_append]
    · simp only [Lr0Fsm.introduceSet]
      rw [← List.append_assoc, h.order]
    · rw [List.nodup_append]
      refine ⟨h.nodup, by simp, ?_⟩
      intro x hx y hy e
      rw [List.mem_singleton] at hy
      exact hl (hy ▸ e ▸ hx)
    · intro x hx
      rcases List.mem_append.1 hx with hx | hx
      · exact h.items x hx
      · rw [List.mem_singleton] at hx
        exact hx ▸ hm
    · simp
  | some id =>
    rw [hf] at hl
    refine ⟨[], ?_, ?_, by simp⟩
    · simp only [List.append_nil]
      exact h
    · simpa using hl.2

theorem getElem?_append_some {α : Type} {l₁ l₂ : List α} {i : Nat} {a : α} (h : l₁[i]? = some a) :
    (l₁ ++ l₂)[i]? = some a := by
  have hi := (List.getElem?_eq_some_iff.1 h).1
  rw [List.getElem?_append_left hi]
  exact h

theorem lr0Links_spec {g : Cfg} {t : BitSet} (hc : LrCtx g t) {m : Lr0Items}
    (hm : LrItemsIn g.rules m) (ts : List Sym) (hts : ts.Pairwise (· < ·)) {link : BMap Nat}
    (hl : BMap.Sorted link) (hlt : ∀ p ∈ link, ∀ a ∈ ts, p.1 < a)
    {L done : List Lr0Items} {f : Lr0Fsm} (h : FsmInv g L done f) :
    ∃ link' f' N, lr0Links g t m ts link f = .ok (link', f') ∧ FsmInv g (L ++ N) done f' ∧
      BMap.Sorted link' ∧ (∀ p ∈ link, p ∈ link') ∧
      (∀ a id, (a, id) ∈ link' → (a, id) ∈ link ∨ a ∈ ts ∧
        ∃ m', lr0Advance g t m a = .ok (some m') ∧ (L ++ N)[id]? = some m') ∧
      (∀ a ∈ ts, ∀ m', lr0Advance g t m a = .ok (some m') → ∃ id, (a, id) ∈ link') ∧
      (∀ x ∈ N, ∃ a ∈ ts, lr0Advance g t m a = .ok (some x)) := by
  induction ts generalizing link L f with
  | nil =>
    exact ⟨link, f, [], rfl, by simpa using h, hl, fun _ h => h, fun a id h => .inl h, by simp,
      by simp⟩
  | cons a ts ih =>
    obtain ⟨ht1, ht2⟩ := List.pairwise_cons.1 hts
    unfold lr0Links
    rcases lr0Advance_spec hc hm a with ⟨e, -⟩ | ⟨m', e, hm', -⟩
    · simp only [e, Res.bind_ok]
      obtain ⟨link', f', N, h1, h2, h3, h4, h5, h6, h7⟩ := ih ht2 hl
        (fun p hp b hb => hlt p hp b (by simp [hb])) h
      refine ⟨link', f', N, h1, h2, h3, h4, ?_, ?_, ?_⟩
      · intro b id hb
        rcases h5 b id hb with h' | ⟨h', h''⟩
        · exact .inl h'
        · exact .inr ⟨by simp [h'], h''⟩
      · intro b hb m' hm'
        rcases List.mem_cons.1 hb with rfl | hb
        · rw [e] at hm'; cases hm'
        · exact h6 b hb m' hm'
      · intro x hx
        obtain ⟨b, hb, h'⟩ := h7 x hx
        exact ⟨b, by simp [hb], h'⟩
    · simp only [e, Res.bind_ok]
      obtain ⟨N0, g1, g2, g3⟩ := h.idOf hm'
      rw [BMap.insert_last _ fun p hp => hlt p hp a (by simp)]
      obtain ⟨link', f', N, h1, h2, h3, h4, h5, h6, h7⟩ := ih ht2 (link := link ++ [(a, (f.idOf m').1)])
        (by
          unfold BMap.Sorted
          rw [List.pairwise_append]
          refine ⟨hl, by simp, ?_⟩
          intro p hp q hq
          rw [List.mem_singleton] at hq
          subst hq
          exact hlt p hp a (by simp))
        (by
          intro p hp b hb
          rcases List.mem_append.1 hp with hp | hp
          · exact hlt p hp b (by simp [hb])
          · rw [List.mem_singleton] at hp
            subst hp
            exact ht1 b hb) g1
      refine ⟨link', f', N0 ++ N, h1, by rw [← List.append_assoc]; exact h2, h3,
        fun p hp => h4 p (by simp [hp]), ?_, ?_, ?_⟩
      · intro b id hb
        rw [← List.append_assoc]
        rcases h5 b id hb with h' | ⟨h', h''⟩
        · rcases List.mem_append.1 h' with h' | h'
          · exact .inl h'
          · rw [List.mem_singleton] at h'
            obtain ⟨rfl, rfl⟩ := Prod.mk.inj h'
            exact .inr ⟨by simp, m', e, getElem?_append_some g2⟩
        · exact .inr ⟨by simp [h'], h''⟩
      · intro b hb m'' hm''
        rcases List.mem_cons.1 hb with rfl | hb
        · exact ⟨_, h4 (b, (f.idOf m').1) (by simp)⟩
        · exact h6 b hb m'' hm''
      · intro x hx
        rcases List.mem_append.1 hx with hx | hx
        · exact ⟨a, by simp, by rw [e, g3 x hx]⟩
        · obtain ⟨b, hb, h'⟩ := h7 x hx
          exact ⟨b, by simp [hb], h'⟩

/-- A node of the machine over the item sets `L`. -/
structure NodeOk (g : Cfg) (t : BitSet) (L : List Lr0Items) (n : Lr0Node) : Prop where
  sorted : BMap.Sorted n.link
  sound : ∀ a id, (a, id) ∈ n.link → a ∈ t.iter ∧
    ∃ m, lr0Advance g t n.items a = .ok (some m) ∧ L[id]? = some m
  complete : ∀ a ∈ t.iter, ∀ m, lr0Advance g t n.items a = .ok (some m) → ∃ id, (a, id) ∈ n.link

/-- Every item set but the first comes from an earlier one. -/
def FromEarlier (g : Cfg) (t : BitSet) (L : List Lr0Items) : Prop :=
  ∀ k m, L[k]? = some m → 0 < k → ∃ j m', j < k ∧ L[j]? = some m' ∧
    ∃ a ∈ t.iter, lr0Advance g t m' a = .ok (some m)

theorem lr0FsmLoop_spec {g : Cfg} {t : BitSet} (hc : LrCtx g t) (fuel : Nat) {L : List Lr0Items}
    {f : Lr0Fsm} {result : List Lr0Node} (h : FsmInv g L (result.map (·.items)) f)
    (hr : ∀ n ∈ result, NodeOk g t L n) (he : FromEarlier g t L)
    (hf : lr0Fuel g.rules ≤ fuel + result.length) :
    ∃ nodes, lr0FsmLoop g t fuel f result = .ok nodes ∧
      FsmInv g (nodes.map (·.items)) (nodes.map (·.items)) ⟨[], (nodes.map (·.items)).zipIdx⟩ ∧
      (∃ N, nodes.map (·.items) = L ++ N) ∧
      (∀ n ∈ nodes, NodeOk g t (nodes.map (·.items)) n) ∧
      FromEarlier g t (nodes.map (·.items)) := by
  induction fuel generalizing L f result with
  | zero =>
    have h1 := itemSets_bound h.nodup h.items
    have h2 := congrArg List.length h.order
    simp only [List.length_append, List.length_map] at h2
    omega
  | succ fuel ih =>
    unfold lr0FsmLoop
    cases hq : f.setsQueue with
    | nil =>
      have ho := h.order
      rw [hq, List.append_nil] at ho
      subst ho
      exact ⟨result, rfl, ⟨rfl, by simp, h.nodup, h.items⟩, ⟨[], by simp⟩, hr, he⟩
    | cons m q =>
      simp only
      have ho := h.order
      rw [hq] at ho
      have hmL : m ∈ L := by rw [← ho]; simp
      have h' : FsmInv g L (result.map (·.items) ++ [m]) { f with setsQueue := q } :=
        ⟨h.cached, by rw [← ho]; simp, h.nodup, h.items⟩
      obtain ⟨link, f', N, h1, h2, h3, -, h5, h6, h7⟩ := lr0Links_spec hc (h.items m hmL) t.iter
        (BitSet.iter_sorted t) (link := []) List.Pairwise.nil (by simp) h'
      simp only [h1, Res.bind_ok]
      have hmk : L[result.length]? = some m := by
        rw [← ho, List.getElem?_append_right (by simp)]
        simp
      obtain ⟨nodes, e1, e2, ⟨N', e3⟩, e4, e5⟩ := ih (L := L ++ N) (f := f')
        (result := result ++ [⟨m, link⟩]) (by simpa using h2) (by
          intro n hn
          rcases List.mem_append.1 hn with hn | hn
          · have := hr n hn
            refine ⟨this.sorted, fun a id ha => ?_, this.complete⟩
            obtain ⟨ha, m', h1, h2⟩ := this.sound a id ha
            exact ⟨ha, m', h1, getElem?_append_some h2⟩
          · rw [List.mem_singleton] at hn
            subst hn
            refine ⟨h3, fun a id ha => ?_, h6⟩
            rcases h5 a id ha with h' | h'
            · cases h'
            · exact h') (by
          intro k x hk hk0
          by_cases hkl : k < L.length
          · rw [List.getElem?_append_left hkl] at hk
            obtain ⟨j, m', h1, h2, h3⟩ := he k x hk hk0
            exact ⟨j, m', h1, getElem?_append_some h2, h3⟩
          · rw [List.getElem?_append_right (by omega)] at hk
            obtain ⟨a, ha, h'⟩ := h7 x (List.mem_of_getElem? hk)
            have := (List.getElem?_eq_some_iff.1 hmk).1
            exact ⟨result.length, m, by omega, getElem?_append_some hmk, a, ha, h'⟩) (by
          simp only [List.length_append, List.length_singleton]
          omega)
      exact ⟨nodes, e1, e2, ⟨N ++ N', by rw [e3, List.append_assoc]⟩, e4, e5⟩

end Verif
