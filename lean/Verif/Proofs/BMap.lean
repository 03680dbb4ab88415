import Verif.Spec.BMap
import Verif.Proofs.Tactics

/-! # Ordered maps -/

namespace Verif
namespace BMap

variable {α : Type}

theorem Sorted.unique {m : BMap α} (h : Sorted m) {k : Nat} {v w : α} (hv : (k, v) ∈ m)
    (hw : (k, w) ∈ m) : v = w := by
  induction m with
  | nil => simp at hv
  | cons p m ih =>
    obtain ⟨h1, h2⟩ := List.pairwise_cons.1 h
    rcases List.mem_cons.1 hv with e | e
    · rcases List.mem_cons.1 hw with e' | e'
      · exact (Prod.mk.inj (e.trans e'.symm)).2
      · have := h1 _ e'; rw [← e] at this; simp at this
    · rcases List.mem_cons.1 hw with e' | e'
      · have := h1 _ e; rw [← e'] at this; simp at this
      · exact ih h2 e e'

theorem Sorted.nodup_keys {m : BMap α} (h : Sorted m) : (m.map (·.1)).Nodup := by
  unfold List.Nodup
  rw [List.pairwise_map]
  exact h.imp fun h => Nat.ne_of_lt h

theorem Sorted.ext {m m' : BMap α} (h : Sorted m) (h' : Sorted m')
    (he : ∀ k v, (k, v) ∈ m ↔ (k, v) ∈ m') : m = m' := by
  induction m generalizing m' with
  | nil =>
    cases m' with
    | nil => rfl
    | cons p m' => have := (he p.1 p.2).2 (by simp); simp at this
  | cons p m ih =>
    obtain ⟨h1, h2⟩ := List.pairwise_cons.1 h
    cases m' with
    | nil => have := (he p.1 p.2).1 (by simp); simp at this
    | cons q m' =>
      obtain ⟨h3, h4⟩ := List.pairwise_cons.1 h'
      have hpq : p = q := by
        have hp : p ∈ q :: m' := (he p.1 p.2).1 (by simp)
        have hq : q ∈ p :: m := (he q.1 q.2).2 (by simp)
        rcases List.mem_cons.1 hp with hp | hp
        · exact hp
        · rcases List.mem_cons.1 hq with hq | hq
          · exact hq.symm
          · have := h1 _ hq
            have := h3 _ hp
            omega
      subst hpq
      congr 1
      refine ih h2 h4 fun k v => ?_
      constructor
      · intro hm
        rcases List.mem_cons.1 ((he k v).1 (by simp [hm])) with e | e
        · have := h1 _ hm; rw [← e] at this; simp at this
        · exact e
      · intro hm
        rcases List.mem_cons.1 ((he k v).2 (by simp [hm])) with e | e
        · have := h3 _ hm; rw [← e] at this; simp at this
        · exact e

theorem insert_key {k : Nat} {v : α} {m : BMap α} {p : Nat × α} (h : p ∈ (insert k v m).1) :
    p = (k, v) ∨ p ∈ m := by
  induction m with
  | nil => simpa [insert] using h
  | cons q m ih =>
    obtain ⟨k', v'⟩ := q
    unfold insert at h
    split at h
    · simpa using h
    · split at h
      · rcases List.mem_cons.1 h with h | h
        · exact .inl h
        · exact .inr (by simp [h])
      · rcases List.mem_cons.1 h with h | h
        · exact .inr (by simp [h])
        · rcases ih h with h | h
          · exact .inl h
          · exact .inr (by simp [h])

theorem insert_spec (k : Nat) (v : α) {m : BMap α} (h : Sorted m) :
    Sorted (insert k v m).1 ∧
    (∀ j w, (j, w) ∈ (insert k v m).1 ↔ (j = k ∧ w = v) ∨ (j ≠ k ∧ (j, w) ∈ m)) ∧
    ((insert k v m).2 = none ↔ ∀ w, (k, w) ∉ m) ∧
    (insert k v m).1.length = m.length + (if (insert k v m).2.isNone then 1 else 0) := by
  induction m with
  | nil => simp [insert, Sorted]
  | cons q m ih =>
    obtain ⟨k', v'⟩ := q
    obtain ⟨h1, h2⟩ := List.pairwise_cons.1 h
    obtain ⟨i1, i2, i3, i4⟩ := ih h2
    have h1 : ∀ j w, (j, w) ∈ m → k' < j := fun j w hm => h1 (j, w) hm
    unfold insert
    split
    · rename_i hk
      refine ⟨?_, ?_, ?_, by simp⟩
      · refine List.pairwise_cons.2 ⟨?_, h⟩
        rintro ⟨j, w⟩ hp
        rcases List.mem_cons.1 hp with hp | hp
        · obtain ⟨rfl, rfl⟩ := Prod.mk.inj hp; exact hk
        · have := h1 j w hp; simp only; omega
      · intro j w
        simp only [List.mem_cons, Prod.mk.injEq]
        constructor
        · rintro (e | ⟨rfl, rfl⟩ | e)
          · exact .inl e
          · exact .inr ⟨by omega, .inl ⟨rfl, rfl⟩⟩
          · have := h1 j w e
            exact .inr ⟨by omega, .inr e⟩
        · rintro (e | ⟨-, e⟩)
          · exact .inl e
          · exact .inr e
      · simp only [true_iff, List.mem_cons, Prod.mk.injEq, not_or, not_and]
        intro w
        refine ⟨by omega, fun e => ?_⟩
        have := h1 k w e
        omega
    · split
      · rename_i hk hk'
        subst hk'
        refine ⟨?_, ?_, ?_, by simp⟩
        · exact List.pairwise_cons.2 ⟨fun p hp => h1 p.1 p.2 hp, h2⟩
        · intro j w
          simp only [List.mem_cons, Prod.mk.injEq]
          constructor
          · rintro (e | e)
            · exact .inl e
            · have := h1 j w e
              exact .inr ⟨by omega, .inr e⟩
          · rintro (e | ⟨hne, e | e⟩)
            · exact .inl e
            · exact absurd e.1 hne
            · exact .inr e
        · simp only [reduceCtorEq, false_iff]
          intro hn
          exact hn v' (by simp)
      · rename_i hk hk'
        simp only
        refine ⟨?_, ?_, ?_, ?_⟩
        · refine List.pairwise_cons.2 ⟨?_, i1⟩
          rintro ⟨j, w⟩ hp
          rcases (i2 j w).1 hp with ⟨rfl, -⟩ | ⟨-, hp⟩
          · simp only; omega
          · exact h1 j w hp
        · intro j w
          simp only [List.mem_cons, Prod.mk.injEq, i2]
          constructor
          · rintro (⟨rfl, rfl⟩ | e | e)
            · exact .inr ⟨by omega, .inl ⟨rfl, rfl⟩⟩
            · exact .inl e
            · exact .inr ⟨e.1, .inr e.2⟩
          · rintro (e | ⟨hne, e | e⟩)
            · exact .inr (.inl e)
            · exact .inl e
            · exact .inr (.inr ⟨hne, e⟩)
        · rw [i3]
          constructor
          · intro hn w hm
            rcases List.mem_cons.1 hm with e | e
            · obtain ⟨rfl, -⟩ := Prod.mk.inj e
              omega
            · exact hn w e
          · intro hn w hm
            exact hn w (by simp [hm])
        · simp only [List.length_cons, i4]
          omega

/-- Inserting a greatest key. -/
theorem insert_last {k : Nat} (v : α) {m : BMap α} (h : ∀ p ∈ m, p.1 < k) :
    insert k v m = (m ++ [(k, v)], none) := by
  induction m with
  | nil => rfl
  | cons q m ih =>
    obtain ⟨k', v'⟩ := q
    have h0 : k' < k := h (k', v') (by simp)
    unfold insert
    rw [if_neg (by omega), if_neg (by omega), ih fun p hp => h p (by simp [hp])]
    rfl

end BMap
end Verif
