import Verif.Model.Matrix
import Verif.Spec.Grammar
import Verif.Spec.Units
import Verif.Proofs.BitSet
import Verif.Proofs.Derivation
import Verif.Proofs.Tactics

/-! # Helper lemmas on bit matrices -/

namespace Verif

namespace BitMatrix

/-- The bit at `(i, j)` is set. -/
def Bit (m : BitMatrix) (i j : Sym) : Prop := ∃ row, m[i]? = some row ∧ row[j]? = some true

/-- The matrix is square of size `n`. -/
def Square (n : Nat) (m : BitMatrix) : Prop := m.length = n ∧ ∀ row ∈ m, row.length = n

theorem Bit.lt {n : Nat} {m : BitMatrix} (h : Square n m) {i j : Sym} (hb : Bit m i j) :
    i < n ∧ j < n := by
  obtain ⟨row, h1, h2⟩ := hb
  obtain ⟨hi, -⟩ := List.getElem?_eq_some_iff.1 h1
  obtain ⟨hj, -⟩ := List.getElem?_eq_some_iff.1 h2
  rw [h.2 row (List.mem_of_getElem? h1)] at hj
  rw [h.1] at hi
  exact ⟨hi, hj⟩

theorem square_row {n : Nat} {m : BitMatrix} (h : Square n m) {i : Sym} (hi : i < n) :
    ∃ row, m[i]? = some row ∧ row.length = n := by
  have : i < m.length := by rw [h.1]; exact hi
  exact ⟨m[i], List.getElem?_eq_getElem this, h.2 _ (List.getElem_mem this)⟩

theorem get_spec {n : Nat} {m : BitMatrix} (h : Square n m) {i j : Sym} (hi : i < n) (hj : j < n) :
    ∃ b, m.get i j = .ok b ∧ (b = true ↔ Bit m i j) := by
  obtain ⟨row, h1, h2⟩ := square_row h hi
  have hj' : j < row.length := by omega
  refine ⟨row[j], ?_, ?_⟩
  · unfold get
    rw [Res.index_ok.2 h1]
    exact Res.index_lt hj'
  · unfold Bit
    rw [h1]
    simp [List.getElem?_eq_getElem hj']

theorem new_square (n : Nat) : Square n (new n) := by
  refine ⟨by simp [new], fun row hr => ?_⟩
  rw [new, List.mem_replicate] at hr
  simp [hr.2]

theorem new_bit (n : Nat) (i j : Sym) : ¬ Bit (new n) i j := by
  rintro ⟨row, h1, h2⟩
  have := List.mem_of_getElem? h1
  rw [new, List.mem_replicate] at this
  rw [this.2] at h2
  have := List.mem_of_getElem? h2
  simp at this

theorem set_spec {n : Nat} {m : BitMatrix} (h : Square n m) {i j : Sym} (hi : i < n) (hj : j < n) :
    ∃ m', m.set i j = .ok m' ∧ Square n m' ∧ ∀ a b, Bit m' a b ↔ Bit m a b ∨ (a = i ∧ b = j) := by
  obtain ⟨row, h1, h2⟩ := square_row h hi
  have him : i < m.length := by rw [h.1]; exact hi
  refine ⟨List.set m i (List.set row j true), ?_, ⟨by simp [h.1], fun r hr => ?_⟩, fun a b => ?_⟩
  · simp [set, Res.index_ok.2 h1, h2, hj]
  · rcases List.mem_or_eq_of_mem_set hr with hr | rfl
    · exact h.2 r hr
    · simp [h2]
  · unfold Bit
    by_cases ha : i = a
    · subst ha
      simp only [List.getElem?_set_self him, Option.some.injEq, exists_eq_left', h1, true_and]
      by_cases hb : j = b
      · subst hb
        have : j < row.length := by omega
        simp [this]
      · have : ¬ b = j := fun h => hb h.symm
        simp [hb, this]
    · have : ¬ a = i := fun h => ha h.symm
      simp [List.getElem?_set_ne ha, this]

theorem warshallStep_square {n : Nat} {m : BitMatrix} (h : Square n m) (k : Nat) :
    Square n (warshallStep m k) := by
  unfold warshallStep
  cases e : m[k]? with
  | none => exact h
  | some rk =>
    refine ⟨by simp [h.1], fun row hr => ?_⟩
    obtain ⟨row', hr', rfl⟩ := List.mem_map.1 hr
    have h1 := h.2 row' hr'
    have h2 := h.2 rk (List.mem_of_getElem? e)
    split
    · simp [h1, h2]
    · exact h1

theorem warshallStep_bit {n : Nat} {m : BitMatrix} (h : Square n m) (k : Nat) (i j : Sym) :
    Bit (warshallStep m k) i j ↔ Bit m i j ∨ (Bit m i k ∧ Bit m k j) := by
  unfold warshallStep
  cases e : m[k]? with
  | none =>
    simp only
    constructor
    · exact .inl
    · rintro (h | ⟨-, row, h, -⟩)
      · exact h
      · rw [e] at h; simp at h
  | some rk =>
    have hk := h.2 rk (List.mem_of_getElem? e)
    simp only [Bit, List.getElem?_map]
    cases ei : m[i]? with
    | none => simp
    | some row =>
      have hi := h.2 row (List.mem_of_getElem? ei)
      simp only [Option.map_some, Option.some.injEq, exists_eq_left', e]
      by_cases hb : row[k]? = some true
      · simp only [hb, if_true, true_and]
        by_cases hj : j < n
        · have h1 : j < row.length := by omega
          have h2 : j < rk.length := by omega
          simp [List.getElem?_zipWith, List.getElem?_eq_getElem h1, List.getElem?_eq_getElem h2]
        · rw [List.getElem?_eq_none (by simp; omega), List.getElem?_eq_none (by omega),
            List.getElem?_eq_none (by omega)]
          simp
      · simp [hb]

/-- The first `k` rounds. -/
def rounds (m : BitMatrix) (k : Nat) : BitMatrix := (List.range k).foldl warshallStep m

theorem rounds_succ (m : BitMatrix) (k : Nat) :
    rounds m (k + 1) = warshallStep (rounds m k) k := by
  simp [rounds, List.range_succ]

theorem rounds_square {n : Nat} {m : BitMatrix} (h : Square n m) (k : Nat) :
    Square n (rounds m k) := by
  induction k with
  | zero => exact h
  | succ k ih => rw [rounds_succ]; exact warshallStep_square ih k

theorem rounds_sound {n : Nat} {m : BitMatrix} (h : Square n m) (k : Nat) {i j : Sym}
    (hb : Bit (rounds m k) i j) : Relation.TransGen (Bit m) i j := by
  induction k generalizing i j with
  | zero => exact .single hb
  | succ k ih =>
    rw [rounds_succ, warshallStep_bit (rounds_square h k)] at hb
    rcases hb with hb | ⟨h1, h2⟩
    · exact ih hb
    · exact (ih h1).trans (ih h2)

theorem rounds_mono {n : Nat} {m : BitMatrix} (h : Square n m) (k : Nat) {i j : Sym}
    (hb : Bit m i j) : Bit (rounds m k) i j := by
  induction k with
  | zero => exact hb
  | succ k ih => rw [rounds_succ, warshallStep_bit (rounds_square h k)]; exact .inl ih

theorem rounds_trans {n : Nat} {m : BitMatrix} (h : Square n m) (k : Nat) {i j l : Sym}
    (hl : l < k) (h1 : Bit (rounds m k) i l) (h2 : Bit (rounds m k) l j) :
    Bit (rounds m k) i j := by
  induction k generalizing i j l with
  | zero => omega
  | succ k ih =>
    rw [rounds_succ, warshallStep_bit (rounds_square h k)] at h1 h2 ⊢
    by_cases e : l = k
    · subst e
      exact .inr ⟨h1.elim id (·.1), h2.elim id (·.2)⟩
    · have hlt : l < k := by omega
      rcases h1 with h1 | ⟨h1, h1'⟩ <;> rcases h2 with h2 | ⟨h2, h2'⟩
      · exact .inl (ih hlt h1 h2)
      · exact .inr ⟨ih hlt h1 h2, h2'⟩
      · exact .inr ⟨h1, ih hlt h1' h2⟩
      · exact .inr ⟨h1, h2'⟩

theorem transitiveClosure_spec {n : Nat} {m : BitMatrix} (h : Square n m) :
    Square n m.transitiveClosure ∧
    ∀ i j, Bit m.transitiveClosure i j ↔ Relation.TransGen (Bit m) i j := by
  have e : m.transitiveClosure = rounds m n := by rw [transitiveClosure, h.1]; rfl
  rw [e]
  refine ⟨rounds_square h n, fun i j => ⟨rounds_sound h n, fun hp => ?_⟩⟩
  induction hp with
  | single hb => exact rounds_mono h n hb
  | @tail b c _ hb ih => exact rounds_trans h n (hb.lt h).1 ih (rounds_mono h n hb)

theorem reflexiveClosure_spec {n : Nat} {m : BitMatrix} (h : Square n m) :
    Square n m.reflexiveClosure ∧
    ∀ i j, Bit m.reflexiveClosure i j ↔ Bit m i j ∨ (i = j ∧ i < n) := by
  unfold reflexiveClosure
  refine ⟨⟨by simp [h.1], fun row hr => ?_⟩, fun i j => ?_⟩
  · obtain ⟨i, hi, rfl⟩ := List.mem_mapIdx.1 hr
    simp [h.2 _ (List.getElem_mem hi)]
  · simp only [Bit, List.getElem?_mapIdx]
    cases e : m[i]? with
    | none =>
      have : ¬ i < n := by
        intro hi
        rw [← h.1] at hi
        rw [List.getElem?_eq_getElem hi] at e
        simp at e
      simp [this]
    | some row =>
      have h1 := h.2 row (List.mem_of_getElem? e)
      have hi : i < n := by
        rw [← h.1]; exact (List.getElem?_eq_some_iff.1 e).1
      simp only [Option.map_some, Option.some.injEq, exists_eq_left', hi, and_true]
      by_cases hj : i = j
      · subst hj
        have : i < row.length := by omega
        simp [this]
      · simp [hj]

end BitMatrix

open BitMatrix

namespace Cfg

theorem direct_fold {n : Nat} (lhs : Sym) (hl : lhs < n) (rhs : List Sym)
    (hr : ∀ s ∈ rhs, s < n) (m : BitMatrix) (h : Square n m) :
    ∃ m', rhs.foldlM (fun m sym => m.set lhs sym) m = .ok m' ∧ Square n m' ∧
      ∀ a b, Bit m' a b ↔ Bit m a b ∨ (a = lhs ∧ b ∈ rhs) := by
  induction rhs generalizing m with
  | nil => exact ⟨m, rfl, h, by simp⟩
  | cons s rhs ih =>
    obtain ⟨m₁, h1, h2, h3⟩ := set_spec h hl (hr s (by simp))
    obtain ⟨m', h4, h5, h6⟩ := ih (fun s hs => hr s (by simp [hs])) m₁ h2
    refine ⟨m', by rw [List.foldlM_cons, h1]; exact h4, h5, fun a b => ?_⟩
    rw [h6, h3, List.mem_cons]
    tauto

theorem directDerivation_spec {g : Cfg} (hwf : g.WF) :
    ∃ m, g.directDerivationMatrix = .ok m ∧ Square g.numSyms m ∧
      ∀ a b, Bit m a b ↔ ∃ α, g.prod a α ∧ b ∈ α := by
  have key : ∀ (rules : List CfgRule) (m : BitMatrix),
      (∀ r ∈ rules, r.lhs < g.numSyms ∧ ∀ s ∈ r.rhs, s < g.numSyms) → Square g.numSyms m →
      ∃ m', rules.foldlM (fun m rule => rule.rhs.foldlM (fun m sym => m.set rule.lhs sym) m) m
        = .ok m' ∧ Square g.numSyms m' ∧
        ∀ a b, Bit m' a b ↔ Bit m a b ∨ ∃ r ∈ rules, r.lhs = a ∧ b ∈ r.rhs := by
    intro rules
    induction rules with
    | nil => intro m _ h; exact ⟨m, rfl, h, by simp⟩
    | cons r rules ih =>
      intro m hr h
      obtain ⟨m₁, h1, h2, h3⟩ := direct_fold r.lhs (hr r (by simp)).1 r.rhs (hr r (by simp)).2 m h
      obtain ⟨m', h4, h5, h6⟩ := ih m₁ (fun r hr' => hr r (by simp [hr'])) h2
      refine ⟨m', by rw [List.foldlM_cons, h1]; exact h4, h5, fun a b => ?_⟩
      rw [h6, h3, or_assoc, eq_comm]
      simp only [List.mem_cons, exists_eq_or_imp]
  obtain ⟨m, h1, h2, h3⟩ := key g.rules _ hwf (new_square g.numSyms)
  refine ⟨m, h1, h2, fun a b => ?_⟩
  rw [h3]
  simp only [new_bit, false_or]
  constructor
  · rintro ⟨r, hr, rfl, hb⟩; exact ⟨r.rhs, ⟨r, hr, rfl, rfl⟩, hb⟩
  · rintro ⟨α, ⟨r, hr, rfl, rfl⟩, hb⟩; exact ⟨r, hr, rfl, hb⟩

theorem reachability_spec {g : Cfg} (hwf : g.WF) :
    ∃ m, g.reachabilityMatrix = .ok m ∧ Square g.numSyms m ∧
      ∀ a b, Bit m a b ↔ ReachesPlus g.prod a b := by
  obtain ⟨m, h1, h2, h3⟩ := directDerivation_spec hwf
  obtain ⟨h4, h5⟩ := transitiveClosure_spec h2
  refine ⟨m.transitiveClosure, by rw [reachabilityMatrix, h1]; rfl, h4, fun a b => ?_⟩
  rw [h5, reachesPlus_iff]
  have : Bit m = fun a b => ∃ α, g.prod a α ∧ b ∈ α := by
    funext a b; exact propext (h3 a b)
  rw [this]

theorem unitBody_spec {n : Nat} {m : BitMatrix} (h : Square n m) (rule : CfgRule)
    (hl : rule.lhs < n) (hr : ∀ s ∈ rule.rhs, s < n) :
    ∃ m', unitBody m rule = .ok m' ∧ Square n m' ∧
      ∀ a b, Bit m' a b ↔ Bit m a b ∨ (rule.lhs = a ∧ rule.rhs = [b] ∧ a ≠ b) := by
  unfold unitBody
  split
  · rename_i sym e
    split
    · rename_i hne
      obtain ⟨m', h1, h2, h3⟩ := set_spec h hl (hr sym (by rw [e]; simp))
      refine ⟨m', h1, h2, fun a b => ?_⟩
      rw [h3, e]
      apply or_congr_right
      constructor
      · rintro ⟨rfl, rfl⟩; exact ⟨rfl, rfl, hne⟩
      · rintro ⟨rfl, e, -⟩; simp at e; exact ⟨rfl, e.symm⟩
    · rename_i hne
      refine ⟨m, rfl, h, fun a b => ?_⟩
      rw [e]
      constructor
      · exact .inl
      · rintro (h | ⟨rfl, e, hne'⟩)
        · exact h
        · simp at e; subst e; exact (hne hne').elim
  · rename_i hne
    refine ⟨m, rfl, h, fun a b => ?_⟩
    constructor
    · exact .inl
    · rintro (h | ⟨-, e, -⟩)
      · exact h
      · exact (hne b e).elim

theorem unitDerivation_spec {g : Cfg} (hwf : g.WF) :
    ∃ m, g.unitDerivationMatrix = .ok m ∧ Square g.numSyms m ∧
      ∀ a b, Bit m a b ↔ UnitChain g.prod a b := by
  have key : ∀ (rules : List CfgRule) (m : BitMatrix),
      (∀ r ∈ rules, r.lhs < g.numSyms ∧ ∀ s ∈ r.rhs, s < g.numSyms) → Square g.numSyms m →
      ∃ m', rules.foldlM unitBody m = .ok m' ∧ Square g.numSyms m' ∧
        ∀ a b, Bit m' a b ↔ Bit m a b ∨ ∃ r ∈ rules, r.lhs = a ∧ r.rhs = [b] ∧ a ≠ b := by
    intro rules
    induction rules with
    | nil => intro m _ h; exact ⟨m, rfl, h, by simp⟩
    | cons r rules ih =>
      intro m hr h
      obtain ⟨m₁, h1, h2, h3⟩ := unitBody_spec h r (hr r (by simp)).1 (hr r (by simp)).2
      obtain ⟨m', h4, h5, h6⟩ := ih m₁ (fun r hr' => hr r (by simp [hr'])) h2
      refine ⟨m', by rw [List.foldlM_cons, h1]; exact h4, h5, fun a b => ?_⟩
      rw [h6, h3]
      simp only [List.mem_cons, exists_eq_or_imp, or_assoc]
  obtain ⟨m, h1, h2, h3⟩ := key g.rules _ hwf (new_square g.numSyms)
  obtain ⟨h4, h5⟩ := transitiveClosure_spec h2
  refine ⟨m.transitiveClosure, by rw [unitDerivationMatrix, emptyMatrix, h1]; rfl, h4,
    fun a b => ?_⟩
  have : Bit m = UnitStep g.prod := by
    funext a b
    apply propext
    rw [h3]
    simp only [new_bit, false_or, UnitStep, prod]
    constructor
    · rintro ⟨r, hr, rfl, e, hne⟩; exact ⟨⟨r, hr, rfl, e⟩, hne⟩
    · rintro ⟨⟨r, hr, rfl, e⟩, hne⟩; exact ⟨r, hr, rfl, e, hne⟩
  rw [h5, this]
  rfl

theorem iterRowSyms_spec {n : Nat} {m : BitMatrix} (h : Square n m) {i : Sym} (hi : i < n) :
    ∃ l, m.iterRowSyms i = .ok l ∧ ∀ j, j ∈ l ↔ Bit m i j := by
  obtain ⟨row, h1, h2⟩ := square_row h hi
  refine ⟨BitSet.iter row, by rw [iterRowSyms, Res.index_ok.2 h1]; rfl, fun j => ?_⟩
  rw [BitSet.mem_iter]
  simp [Bit, Has, h1]

end Cfg

end Verif
