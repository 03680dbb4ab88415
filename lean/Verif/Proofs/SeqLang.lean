import Verif.Proofs.Sequence

/-! # Sequence rewriting: bound on the keys, and the language -/

namespace Verif

/-! ## The keys that can occur -/

/-- Powers of two and remainders: closed under halving. -/
def bits (n : Nat) : List Nat :=
  (List.range (Nat.log2 n + 1)).map (2 ^ ·) ++ (List.range (Nat.log2 n + 2)).map (n % 2 ^ ·)

theorem length_bits (n : Nat) : (bits n).length = 2 * Nat.log2 n + 3 := by
  simp [bits]; omega

theorem mem_bits {n d : Nat} :
    d ∈ bits n ↔ (∃ j, j ≤ Nat.log2 n ∧ d = 2 ^ j) ∨ ∃ j, j ≤ Nat.log2 n + 1 ∧ d = n % 2 ^ j := by
  simp only [bits, List.mem_append, List.mem_map, List.mem_range, Nat.lt_succ_iff]
  constructor
  · rintro (⟨j, h1, rfl⟩ | ⟨j, h1, rfl⟩)
    · exact .inl ⟨j, h1, rfl⟩
    · exact .inr ⟨j, by omega, rfl⟩
  · rintro (⟨j, h1, rfl⟩ | ⟨j, h1, rfl⟩)
    · exact .inl ⟨j, h1, rfl⟩
    · exact .inr ⟨j, by omega, rfl⟩

theorem one_mem_bits (n : Nat) : 1 ∈ bits n := mem_bits.2 (.inl ⟨0, Nat.zero_le _, rfl⟩)

theorem self_mem_bits (n : Nat) : n ∈ bits n :=
  mem_bits.2 (.inr ⟨Nat.log2 n + 1, Nat.le_refl _, (Nat.mod_eq_of_lt Nat.lt_log2_self).symm⟩)

theorem le_of_mem_bits {n d : Nat} (hn : 1 ≤ n) (h : d ∈ bits n) : d ≤ n := by
  rcases mem_bits.1 h with ⟨j, hj, rfl⟩ | ⟨j, hj, rfl⟩
  · exact Nat.le_trans (Nat.pow_le_pow_right (by omega) hj) (Nat.log2_self_le (by omega))
  · exact Nat.mod_le _ _

theorem zero_mem_bits (n : Nat) : 0 ∈ bits n :=
  mem_bits.2 (.inr ⟨0, Nat.zero_le _, (Nat.mod_one n).symm⟩)

theorem half_pow {j : Nat} (h : j + 1 ≤ 31) : half (2 ^ (j + 1)) = 2 ^ j := by
  have h1 : 1 ≤ 2 ^ j := Nat.one_le_two_pow
  have h2 : (2:Nat) ^ (j + 1) = 2 * 2 ^ j := by rw [Nat.pow_succ, Nat.mul_comm]
  rw [half_eq (by omega) (Nat.pow_le_pow_right (by omega) h)]
  congr 1
  refine (Nat.log2_eq_iff (by omega)).2 ⟨?_, ?_⟩ <;> omega

theorem bits_closed {n d : Nat} (h : d ∈ bits n) : half d ∈ bits n ∧ d - half d ∈ bits n := by
  by_cases hd : d ≤ 1 ∨ 2 ^ 31 < d
  · unfold half
    rw [if_pos hd]
    exact ⟨zero_mem_bits n, h⟩
  have hd31 : d ≤ 2 ^ 31 := by omega
  replace hd : 2 ≤ d := by omega
  have hn : 1 ≤ n := by
    rcases Nat.eq_zero_or_pos n with rfl | hn
    · rcases mem_bits.1 h with ⟨j, hj, rfl⟩ | ⟨j, hj, rfl⟩
      · rw [show Nat.log2 0 = 0 from rfl] at hj
        rw [show j = 0 by omega] at hd
        simp at hd
      · simp at hd
    · exact hn
  have hpow : ∀ i, 2 ^ i ≤ n → 2 ^ i ∈ bits n := fun i hi =>
    mem_bits.2 (.inl ⟨i, (Nat.le_log2 (by omega)).2 hi, rfl⟩)
  have hle := le_of_mem_bits hn h
  have hb := half_bounds hd hd31
  have hhalf : half d ∈ bits n := by
    rw [half_eq hd hd31] at hb ⊢
    exact hpow _ (by omega)
  refine ⟨hhalf, ?_⟩
  by_cases hp : ∃ i, d = 2 ^ i
  · obtain ⟨i, rfl⟩ := hp
    cases i with
    | zero => omega
    | succ i =>
      have hi : i + 1 ≤ 31 := (Nat.pow_le_pow_iff_right (by omega)).1 hd31
      rw [half_pow hi] at hhalf ⊢
      have : 2 ^ (i + 1) - 2 ^ i = 2 ^ i := by rw [Nat.pow_succ]; omega
      rw [this]
      exact hhalf
  · rcases mem_bits.1 h with ⟨j, hj, rfl⟩ | ⟨j, hj, hjd⟩
    · exact absurd ⟨j, rfl⟩ hp
    · have hl1 : 2 ^ Nat.log2 d ≤ d := Nat.log2_self_le (by omega)
      have hl2 : d < 2 ^ (Nat.log2 d + 1) := Nat.lt_log2_self
      have hne : d ≠ 2 ^ Nat.log2 d := fun e => hp ⟨_, e⟩
      have hhe : half d = 2 ^ Nat.log2 d := by
        rw [half_eq hd hd31]
        congr 1
        exact (Nat.log2_eq_iff (by omega)).2 ⟨by omega, by omega⟩
      have hlt : Nat.log2 d < j := by
        rcases Nat.lt_or_ge (Nat.log2 d) j with h | h
        · exact h
        · have h1 : 2 ^ j ≤ 2 ^ Nat.log2 d := Nat.pow_le_pow_right (by omega) h
          have h2 : n % 2 ^ j < 2 ^ j := Nat.mod_lt _ (Nat.two_pow_pos j)
          omega
      refine mem_bits.2 (.inr ⟨Nat.log2 d, by omega, ?_⟩)
      have h3 : d % 2 ^ Nat.log2 d = n % 2 ^ Nat.log2 d := by
        rw [hjd]
        exact Nat.mod_mod_of_dvd n (Nat.pow_dvd_pow 2 (by rw [← hjd]; omega))
      rw [← h3, hhe]
      have h5 : d - 2 ^ Nat.log2 d < 2 ^ Nat.log2 d := by rw [Nat.pow_succ] at hl2; omega
      rw [Nat.mod_eq_sub_mod hl1, Nat.mod_eq_of_lt h5]

/-- Separators reachable from a separator. -/
def sepClosure : Separator → List Separator
  | .null => [.null]
  | .liberal s => [.liberal s, .proper s, .trailing s]
  | .proper s => [.proper s, .trailing s]
  | .trailing s => [.proper s, .trailing s]

/-- The count reached from the lower bound. -/
def lowCount (a : Nat) (stop : Option Nat) : Nat := if stop = some a then a else a - 1

/-- The count reached from the upper bound. -/
def highCount (a : Nat) : Option Nat → Nat
  | none => 1
  | some e => if a ≤ 1 then e else e - a + 1

/-- Ranges reachable from a range. -/
def pairs (a : Nat) (stop : Option Nat) : List (Nat × Option Nat) :=
  [(a, stop), (1, none)] ++ (if a = 0 then [(1, stop)] else []) ++
    ((bits (lowCount a stop)).map fun d => (d, some d)) ++
    ((bits (highCount a stop)).map fun d => (d, some d)) ++
    ((bits (highCount a stop)).map fun d => (1, some d))

/-- Keys reachable from a key. -/
def keyList (k : PartialSequence) : List PartialSequence :=
  (sepClosure k.separator).flatMap fun sp =>
    (pairs k.start k.stop).map fun e => ⟨k.rhs, e.1, e.2, sp⟩

theorem mem_keyList {k k' : PartialSequence} : k' ∈ keyList k ↔ k'.rhs = k.rhs ∧
    k'.separator ∈ sepClosure k.separator ∧ (k'.start, k'.stop) ∈ pairs k.start k.stop := by
  obtain ⟨x, a, e, sp⟩ := k'
  simp only [keyList, List.mem_flatMap, List.mem_map]
  constructor
  · rintro ⟨sp', h1, ⟨a', e'⟩, h2, h3⟩
    simp only [PartialSequence.mk.injEq] at h3
    obtain ⟨rfl, rfl, rfl, rfl⟩ := h3
    exact ⟨rfl, h1, h2⟩
  · rintro ⟨rfl, h1, h2⟩
    exact ⟨sp, h1, _, h2, rfl⟩

theorem self_mem_keyList (k : PartialSequence) : k ∈ keyList k := by
  refine mem_keyList.2 ⟨rfl, ?_, ?_⟩
  · cases k.separator <;> simp [sepClosure]
  · simp [pairs]

theorem length_keyList_le (k : PartialSequence) (l : Nat)
    (h1 : Nat.log2 (lowCount k.start k.stop) ≤ l) (h2 : Nat.log2 (highCount k.start k.stop) ≤ l) :
    (keyList k).length ≤ 18 * l + 36 := by
  have hp : (pairs k.start k.stop).length ≤ 6 * l + 12 := by
    unfold pairs
    simp only [List.length_append, List.length_map, length_bits]
    split <;> simp <;> omega
  have hs : (sepClosure k.separator).length ≤ 3 := by cases k.separator <;> simp [sepClosure]
  have : (keyList k).length = (sepClosure k.separator).length * (pairs k.start k.stop).length := by
    unfold keyList
    induction sepClosure k.separator with
    | nil => simp
    | cons a l ih => simp only [List.flatMap_cons, List.length_append, List.length_map, ih,
        List.length_cons]; rw [Nat.add_mul, Nat.one_mul, Nat.add_comm]
  rw [this]
  calc _ ≤ 3 * (6 * l + 12) := Nat.mul_le_mul hs hp
    _ ≤ _ := by omega

/-- The ranges referred to from a positive range. -/
inductive PairStep (a : Nat) (stop : Option Nat) : Nat → Option Nat → Prop
  | one : a = 1 → stop = some 2 → PairStep a stop 1 (some 1)
  | two : a = 1 → stop = some 2 → PairStep a stop 2 (some 2)
  | low {e} : a = 1 → stop = some e → e ≠ 1 → PairStep a stop 1 (some (half e))
  | block {e} : a = 1 → stop = some e → e ≠ 1 → PairStep a stop (half e) (some (half e))
  | high {e} : a = 1 → stop = some e → e ≠ 1 → PairStep a stop 1 (some (e - half e))
  | exact1 : 3 ≤ a → stop = some a → PairStep a stop (half a) (some (half a))
  | exact2 : 3 ≤ a → stop = some a → PairStep a stop (a - half a) (some (a - half a))
  | span1 : 2 ≤ a → stop ≠ some a → PairStep a stop (a - 1) (some (a - 1))
  | span2 : 2 ≤ a → stop ≠ some a → PairStep a stop 1 (stop.map fun e => e - a + 1)

/-- What a plan refers to. -/
theorem plan_refs {k k' : PartialSequence} {items : List Item} (hi : items ∈ plan k)
    (hk : Item.ref k' ∈ items) : k'.rhs = k.rhs ∧
    ((k'.start = k.start ∧ k'.stop = k.stop ∧ ∃ s,
      (k.separator = .liberal s ∧ (k'.separator = .proper s ∨ k'.separator = .trailing s) ∨
        k.separator = .trailing s ∧ k'.separator = .proper s)) ∨
    (k.start = 0 ∧ k.stop ≠ some 0 ∧ k'.start = 1 ∧ k'.stop = k.stop ∧ k'.separator = k.separator) ∨
    ((k'.separator = k.separator ∨ k'.separator = k.separator.prefixSeparator) ∧
      (∀ s, k.separator ≠ .liberal s) ∧ PairStep k.start k.stop k'.start k'.stop)) := by
  obtain ⟨x, start, stop, sepa⟩ := k
  revert hi hk
  have pos : ∀ sepa, (∀ s, sepa ≠ .liberal s) → 1 ≤ start →
      ∀ items ∈ planPos ⟨x, start, stop, sepa⟩,
      Item.ref k' ∈ items → k'.rhs = x ∧
        (k'.separator = sepa ∨ k'.separator = sepa.prefixSeparator) ∧
        PairStep start stop k'.start k'.stop := by
    intro sepa hl hs items hi hk
    unfold planPos at hi
    simp only at hi
    split at hi
    · cases stop with
      | none => cases sepa <;> simp [sepItems] at hi <;> rcases hi with rfl | rfl <;> simp at hk
      | some e =>
        simp only at hi
        split at hi
        · simp at hi; subst hi; simp at hk
        · split at hi
          · rename_i ha _ he
            subst he
            simp at hi
            rcases hi with rfl | rfl <;> simp at hk <;> subst hk
            · exact ⟨rfl, .inl rfl, .one ha rfl⟩
            · exact ⟨rfl, .inl rfl, .two ha rfl⟩
          · rename_i ha he1 he2
            simp at hi
            rcases hi with rfl | rfl
            · simp at hk; subst hk
              exact ⟨rfl, .inl rfl, .low ha rfl he1⟩
            · simp at hk
              rcases hk with rfl | rfl
              · exact ⟨rfl, .inr rfl, .block ha rfl he1⟩
              · exact ⟨rfl, .inl rfl, .high ha rfl he1⟩
    · split at hi
      · cases sepa <;> simp [sepItems] at hi <;> subst hi <;> simp at hk
      · split at hi
        · rename_i hne1 hne2 he
          subst he
          have hs3 : 3 ≤ start := by
            rcases Nat.lt_or_ge start 3 with h | h
            · exact absurd ⟨by omega, by rw [show start = 2 by omega]⟩ hne2
            · exact h
          rw [List.mem_singleton] at hi
          subst hi
          simp only [List.mem_cons, Item.ref.injEq, List.not_mem_nil, or_false] at hk
          rcases hk with rfl | rfl
          · exact ⟨rfl, .inr rfl, .exact1 hs3 rfl⟩
          · exact ⟨rfl, .inl rfl, .exact2 hs3 rfl⟩
        · rename_i hne1 hne2 he
          rw [List.mem_singleton] at hi
          subst hi
          simp only [List.mem_cons, Item.ref.injEq, List.not_mem_nil, or_false] at hk
          rcases hk with rfl | rfl
          · exact ⟨rfl, .inr rfl, .span1 (by omega) fun h => he h.symm⟩
          · exact ⟨rfl, .inl rfl, .span2 (by omega) fun h => he h.symm⟩
  have zero : ∀ sepa, ∀ items ∈ (if stop = some 0 then [[]] else
      [[], [Item.ref ⟨x, 1, stop, sepa⟩]]), Item.ref k' ∈ items →
      stop ≠ some 0 ∧ k' = ⟨x, 1, stop, sepa⟩ := by
    intro sepa items hi hk
    split at hi
    · simp at hi; subst hi; simp at hk
    · rename_i hne
      simp at hi
      rcases hi with rfl | rfl
      · simp at hk
      · exact ⟨hne, by simpa using hk⟩
  intro hk hi
  unfold plan at hi
  simp only at hi
  cases sepa with
  | liberal s =>
    simp at hi
    rcases hi with rfl | rfl <;> simp at hk <;> subst hk
    · exact ⟨rfl, .inl ⟨rfl, rfl, s, .inl ⟨rfl, .inl rfl⟩⟩⟩
    · exact ⟨rfl, .inl ⟨rfl, rfl, s, .inl ⟨rfl, .inr rfl⟩⟩⟩
  | trailing s =>
    simp only at hi
    split at hi
    · rename_i hs
      obtain ⟨hne, rfl⟩ := zero _ items hi hk
      exact ⟨rfl, .inr (.inl ⟨hs, hne, rfl, rfl, rfl⟩)⟩
    · simp at hi; subst hi; simp at hk; subst hk
      exact ⟨rfl, .inl ⟨rfl, rfl, s, .inr ⟨rfl, rfl⟩⟩⟩
  | proper s =>
    simp only at hi
    split at hi
    · rename_i hs
      obtain ⟨hne, rfl⟩ := zero _ items hi hk
      exact ⟨rfl, .inr (.inl ⟨hs, hne, rfl, rfl, rfl⟩)⟩
    · obtain ⟨h1, h2, h3⟩ := pos _ (by simp) (by omega) items hi hk
      exact ⟨h1, .inr (.inr ⟨h2, by simp, h3⟩)⟩
  | null =>
    simp only at hi
    split at hi
    · rename_i hs
      obtain ⟨hne, rfl⟩ := zero _ items hi hk
      exact ⟨rfl, .inr (.inl ⟨hs, hne, rfl, rfl, rfl⟩)⟩
    · obtain ⟨h1, h2, h3⟩ := pos _ (by simp) (by omega) items hi hk
      exact ⟨h1, .inr (.inr ⟨h2, by simp, h3⟩)⟩

theorem sepClosure_trans {a b : Separator} (h : b ∈ sepClosure a) : sepClosure b ⊆ sepClosure a := by
  cases a <;> simp [sepClosure] at h
  · rcases h with rfl | rfl <;> simp [sepClosure]
  · rcases h with rfl | rfl <;> simp [sepClosure]
  · rcases h with rfl | rfl | rfl <;> simp [sepClosure]
  · subst h; simp [sepClosure]

theorem prefix_mem_sepClosure {a : Separator} : a.prefixSeparator ∈ sepClosure a := by
  cases a <;> simp [sepClosure, Separator.prefixSeparator]

theorem self_mem_sepClosure {a : Separator} : a ∈ sepClosure a := by
  cases a <;> simp [sepClosure]

theorem keyList_refs {top k k' : PartialSequence} (hmem : k ∈ keyList top) {items : List Item} (hi : items ∈ plan k) (hk : Item.ref k' ∈ items) :
    k' ∈ keyList top := by
  obtain ⟨h1, h2, h3⟩ := mem_keyList.1 hmem
  obtain ⟨r1, hr⟩ := plan_refs hi hk
  refine mem_keyList.2 ⟨r1.trans h1, sepClosure_trans h2 ?_, ?_⟩
  · rcases hr with ⟨-, -, s, h⟩ | ⟨-, -, -, -, h⟩ | ⟨h | h, -⟩
    · rcases h with ⟨e1, e2 | e2⟩ | ⟨e1, e2⟩ <;> rw [e1, e2] <;> simp [sepClosure]
    · rw [h]; exact self_mem_sepClosure
    · rw [h]; exact self_mem_sepClosure
    · rw [h]; exact prefix_mem_sepClosure
  · obtain ⟨x, a, stop, sp⟩ := top
    obtain ⟨x', b, e, sp'⟩ := k
    obtain ⟨x'', b', e', sp''⟩ := k'
    simp only at *
    have hM : ∀ q : Nat × Option Nat, q ∈ pairs a stop ↔ q = (a, stop) ∨ q = (1, none) ∨
        (a = 0 ∧ q = (1, stop)) ∨ (∃ d ∈ bits (lowCount a stop), q = (d, some d)) ∨
        (∃ d ∈ bits (highCount a stop), q = (d, some d)) ∨
        (∃ d ∈ bits (highCount a stop), q = (1, some d)) := by
      intro q
      have : q ∈ (if a = 0 then [((1 : Nat), stop)] else []) ↔ a = 0 ∧ q = (1, stop) := by
        split <;> simp [*]
      simp only [pairs, List.mem_append, List.mem_cons, List.not_mem_nil, or_false, this,
        List.mem_map]
      constructor
      · rintro (((((h | h) | h) | ⟨d, h, rfl⟩) | ⟨d, h, rfl⟩) | ⟨d, h, rfl⟩)
        · exact .inl h
        · exact .inr (.inl h)
        · exact .inr (.inr (.inl h))
        · exact .inr (.inr (.inr (.inl ⟨d, h, rfl⟩)))
        · exact .inr (.inr (.inr (.inr (.inl ⟨d, h, rfl⟩))))
        · exact .inr (.inr (.inr (.inr (.inr ⟨d, h, rfl⟩))))
      · rintro (h | h | h | ⟨d, h, rfl⟩ | ⟨d, h, rfl⟩ | ⟨d, h, rfl⟩)
        · exact .inl (.inl (.inl (.inl (.inl h))))
        · exact .inl (.inl (.inl (.inl (.inr h))))
        · exact .inl (.inl (.inl (.inr h)))
        · exact .inl (.inl (.inr ⟨d, h, rfl⟩))
        · exact .inl (.inr ⟨d, h, rfl⟩)
        · exact .inr ⟨d, h, rfl⟩
    have hlow : ∀ d ∈ bits (lowCount a stop), (d, some d) ∈ pairs a stop := fun d hd =>
      (hM _).2 (.inr (.inr (.inr (.inl ⟨d, hd, rfl⟩))))
    have hhigh : ∀ d ∈ bits (highCount a stop), (d, some d) ∈ pairs a stop := fun d hd =>
      (hM _).2 (.inr (.inr (.inr (.inr (.inl ⟨d, hd, rfl⟩)))))
    have hone : ∀ d ∈ bits (highCount a stop), (1, some d) ∈ pairs a stop := fun d hd =>
      (hM _).2 (.inr (.inr (.inr (.inr (.inr ⟨d, hd, rfl⟩)))))
    have upto : ∀ f ∈ bits (highCount a stop), PairStep 1 (some f) b' e' →
        (b', e') ∈ pairs a stop := by
      intro f hf hst
      cases hst with
      | one _ h => exact hone _ (one_mem_bits _)
      | two _ h => cases h; exact hhigh _ hf
      | low _ h => cases h; exact hone _ (bits_closed hf).1
      | block _ h => cases h; exact hhigh _ (bits_closed hf).1
      | high _ h => cases h; exact hone _ (bits_closed hf).2
      | exact1 h => omega
      | exact2 h => omega
      | span1 h => omega
      | span2 h => omega
    have exactly : ∀ d, (d, some d) ∈ pairs a stop →
        (∀ d', d' = half d ∨ d' = d - half d → 3 ≤ d → (d', some d') ∈ pairs a stop) →
        PairStep d (some d) b' e' → (b', e') ∈ pairs a stop := by
      intro d hd hd' hst
      cases hst with
      | one h1 h => cases h; omega
      | two h1 h => cases h; omega
      | low h1 h h3 => cases h; omega
      | block h1 h h3 => cases h; omega
      | high h1 h h3 => cases h; omega
      | exact1 h => exact hd' _ (.inl rfl) h
      | exact2 h => exact hd' _ (.inr rfl) h
      | span1 h h' => exact absurd rfl h'
      | span2 h h' => exact absurd rfl h'
    have open' : PairStep 1 none b' e' → (b', e') ∈ pairs a stop := by
      intro hst
      cases hst with
      | one h1 h => cases h
      | two h1 h => cases h
      | low h1 h => cases h
      | block h1 h => cases h
      | high h1 h => cases h
      | exact1 h => omega
      | exact2 h => omega
      | span1 h h' => omega
      | span2 h h' => omega
    have hv : a ≤ 1 → ∀ f, stop = some f → f ∈ bits (highCount a stop) := by
      rintro ha f rfl
      simp only [highCount, if_pos ha]
      exact self_mem_bits f
    rcases hr with ⟨rfl, rfl, -⟩ | ⟨rfl, hne, rfl, rfl, -⟩ | ⟨-, -, hst⟩
    · exact h3
    · rcases (hM _).1 h3 with h | h | h | ⟨d, h, h'⟩ | ⟨d, h, h'⟩ | ⟨d, h, h'⟩
      · cases h
        exact (hM _).2 (.inr (.inr (.inl ⟨rfl, rfl⟩)))
      · cases h
      · cases h.2
      · cases h'
        exact absurd rfl hne
      · cases h'
        exact absurd rfl hne
      · cases h'
    · rcases (hM _).1 h3 with h | h | h | ⟨d, h, h'⟩ | ⟨d, h, h'⟩ | ⟨d, h, h'⟩
      · obtain ⟨rfl, rfl⟩ := Prod.mk.inj h
        by_cases ha : b = 1
        · subst ha
          cases e with
          | none => exact open' hst
          | some f => exact upto f (hv (Nat.le_refl _) f rfl) hst
        · by_cases hbe : e = some b
          · subst hbe
            refine exactly b h3 (fun d' hd' h3' => hlow _ ?_) hst
            simp only [lowCount, if_true]
            have := bits_closed (self_mem_bits b)
            rcases hd' with rfl | rfl
            · exact this.1
            · exact this.2
          · cases hst with
            | one h => exact absurd h ha
            | two h => exact absurd h ha
            | low h => exact absurd h ha
            | block h => exact absurd h ha
            | high h => exact absurd h ha
            | exact1 _ h => exact absurd h hbe
            | exact2 _ h => exact absurd h hbe
            | span1 h =>
              refine hlow _ ?_
              simp only [lowCount, if_neg hbe]
              exact self_mem_bits _
            | span2 h =>
              cases e with
              | none => exact (hM _).2 (.inr (.inl rfl))
              | some f =>
                refine hone _ ?_
                simp only [highCount, if_neg (show ¬ b ≤ 1 by omega)]
                exact self_mem_bits _
      · cases h
        exact open' hst
      · obtain ⟨rfl, h⟩ := h
        obtain ⟨rfl, rfl⟩ := Prod.mk.inj h
        cases e with
        | none => exact open' hst
        | some f => exact upto f (hv (by omega) f rfl) hst
      · obtain ⟨rfl, rfl⟩ := Prod.mk.inj h'
        refine exactly b h3 (fun d' hd' h3' => hlow _ ?_) hst
        have := bits_closed h
        rcases hd' with rfl | rfl
        · exact this.1
        · exact this.2
      · obtain ⟨rfl, rfl⟩ := Prod.mk.inj h'
        refine exactly b h3 (fun d' hd' h3' => hhigh _ ?_) hst
        have := bits_closed h
        rcases hd' with rfl | rfl
        · exact this.1
        · exact this.2
      · cases h'
        exact upto d h hst

/-! ## The whole rewrite -/

/-- The symbols of a sequence rule belong to the grammar. -/
def SeqIn (g : Cfg) (top : Sequence) : Prop :=
  top.lhs < g.numSyms ∧ top.rhs < g.numSyms ∧ ∀ s, top.separator.sym? = some s → s < g.numSyms

/-- The keys used for a sequence rule. -/
def seqKeys (top : Sequence) (k : PartialSequence) : Prop := U32Key k ∧ k ∈ keyList top.key

theorem U32Key.refs {k k' : PartialSequence} (h : U32Key k) {items : List Item} (hi : items ∈ plan k)
    (hk : Item.ref k' ∈ items) : U32Key k' := by
  obtain ⟨-, hr⟩ := plan_refs hi hk
  obtain ⟨x, a, stop, sp⟩ := k
  obtain ⟨x', b, e, sp'⟩ := k'
  obtain ⟨h1, h2⟩ := h
  simp only [U32Key] at *
  rcases hr with ⟨rfl, rfl, -⟩ | ⟨rfl, -, rfl, rfl, -⟩ | ⟨-, -, hst⟩
  · exact ⟨h1, h2⟩
  · exact ⟨by omega, h2⟩
  · have hh : ∀ n, n < 2 ^ 32 → half n < 2 ^ 32 := fun n hn =>
      Nat.lt_of_le_of_lt (half_le n) hn
    have hboth : ∀ n, n < 2 ^ 32 → n < 2 ^ 32 ∧ ∀ e, some n = some e → e < 2 ^ 32 :=
      fun n hn => ⟨hn, fun e he => by cases he; exact hn⟩
    have hup : ∀ n, n < 2 ^ 32 → 1 < 2 ^ 32 ∧ ∀ e, some n = some e → e < 2 ^ 32 :=
      fun n hn => ⟨by omega, fun e he => by cases he; exact hn⟩
    cases hst with
    | one => exact hboth 1 (by omega)
    | two => exact hboth 2 (by omega)
    | low _ h => exact hup _ (hh _ (h2 _ h))
    | block _ h => exact hboth _ (hh _ (h2 _ h))
    | high _ h => exact hup _ (by have := h2 _ h; omega)
    | exact1 => exact hboth _ (hh _ h1)
    | exact2 => exact hboth _ (by omega)
    | span1 => exact hboth _ (by omega)
    | span2 h =>
      refine ⟨by omega, ?_⟩
      intro e he
      obtain ⟨f, hf, rfl⟩ := Option.map_eq_some_iff.1 he
      have := h2 f hf
      omega

theorem keyList_elem {g : Cfg} {top : Sequence} (hin : SeqIn g top) {k : PartialSequence}
    (h : k ∈ keyList top.key) : k.rhs < g.numSyms := by
  rw [(mem_keyList.1 h).1]
  exact hin.2.1

theorem keyList_sep {g : Cfg} {top : Sequence} (hin : SeqIn g top) {k : PartialSequence}
    (h : k ∈ keyList top.key) (s : Sym) (hs : k.separator = .proper s ∨ k.separator = .trailing s ∨
      k.separator = .liberal s) : s < g.numSyms := by
  refine hin.2.2 s ?_
  have h2 := (mem_keyList.1 h).2.1
  simp only [Sequence.key] at h2
  revert h2 hs
  cases top.separator <;> simp only [sepClosure, Separator.sym?, List.mem_cons,
    List.not_mem_nil, or_false, Option.some.injEq] <;> intro hs h2
  · rcases h2 with h2 | h2 <;> rw [h2] at hs <;> simpa using hs
  · rcases h2 with h2 | h2 <;> rw [h2] at hs <;> simpa using hs
  · rcases h2 with h2 | h2 | h2 <;> rw [h2] at hs <;> simpa using hs
  · rw [h2] at hs; simp at hs

theorem seqKeys_allowed {g : Cfg} {top : Sequence} (hin : SeqIn g top) :
    Allowed g.numSyms (seqKeys top) := by
  refine ⟨fun k h => keyList_elem hin h.2, fun k h => keyList_sep hin h.2, fun k h => h.1, ?_⟩
  · intro k h _ items hi k' hk
    exact ⟨h.1.refs hi hk, keyList_refs h.2 hi hk⟩

theorem log2_le_of_le_pow {n l : Nat} (h : n ≤ 2 ^ l) : Nat.log2 n ≤ l := by
  rcases Nat.eq_zero_or_pos n with rfl | hn
  · simp
  · have := Nat.log2_self_le (n := n) (by omega)
    exact (Nat.pow_le_pow_iff_right (by omega)).1 (Nat.le_trans this h)

theorem log2_mono {a b : Nat} (h : a ≤ b) : Nat.log2 a ≤ Nat.log2 b := by
  rcases Nat.eq_zero_or_pos a with rfl | ha
  · simp
  · exact (Nat.le_log2 (by omega)).2 (Nat.le_trans (Nat.log2_self_le (by omega)) h)

theorem log2_le_of_lt_pow {n l : Nat} (h : n < 2 ^ (l + 1)) : Nat.log2 n ≤ l := by
  rcases Nat.eq_zero_or_pos n with rfl | hn
  · simp
  · exact Nat.lt_succ_iff.1 ((Nat.log2_lt (by omega)).2 h)

theorem counts_le (k : PartialSequence) (m : Nat) (h1 : k.start ≤ m) (h2 : ∀ e, k.stop = some e →
    e ≤ m) (h3 : 1 ≤ m) : lowCount k.start k.stop ≤ m ∧ highCount k.start k.stop ≤ m := by
  constructor
  · unfold lowCount
    split <;> omega
  · unfold highCount
    cases e : k.stop with
    | none => exact h3
    | some f =>
      have := h2 f e
      simp only
      split <;> omega

theorem KeyOk.stepOk {k : PartialSequence} (h : KeyOk k) (hu : U32Key k) (p : Profile) :
    Valid k ∧ StepOk p k := by
  obtain ⟨h1, h2, h3⟩ := h
  constructor
  · unfold Valid
    cases e : k.stop with
    | some f => exact h1 f e
    | none => simp only [Option.getD_none, u32Max]; have := hu.1; omega
  · refine .inr (.inr ⟨fun hs e he => .inl (h2 (by omega) e he), fun hs he => .inl ?_,
      fun _ _ e he => ⟨h1 e he, hu.2 e he⟩⟩)
    have := h3 hs
    rwa [if_pos he] at this

theorem rewriteSequence_run {p : Profile} {g : Cfg} {top : Sequence} {L : PartialSequence → Prop}
    (hwf : g.WF) (hlim : g.LimitOk) (hin : SeqIn g top) (hA : Allowed g.numSyms L)
    (hLs : ∀ k, L k → k ∈ keyList top.key) (hu : U32Key top.key) (hstep : StepOk p top.key)
    (hrefs : ∀ items ∈ plan top.key, ∀ k', Item.ref k' ∈ items → L k') :
    (g.rewriteSequence p top = .panic ∧ ∃ k, L k ∧ ¬ (Valid k ∧ StepOk p k)) ∨
    ∃ st P Q, g.rewriteSequence p top = .ok st.g ∧ LInv p g L top P Q st ∧
      st.stack = [] := by
  unfold Cfg.rewriteSequence
  simp only [processLinked, Res.bind_ok]
  have h0 : ∀ h, SInv g L g.prod [] { g := g, top := h } := by
    intro h
    refine ⟨?_, rfl, rfl, rfl, ⟨0, by simp⟩, ⟨[], by simp⟩, by simp, by simp, by simp, by simp,
      by simp, fun _ r hr => ⟨r, hr, rfl, rfl⟩, ?_,
      fun A α => by rw [List.append_nil]; exact Cfg.mem_pairs.symm⟩
    swap
    · have := (Cfg.Folded.refl g hwf).congr (O' := SymOf g.numSyms []) fun x => by simp [SymOf]
      simpa using this
    exact (Cfg.OSplit.refl hwf).congrO fun x => by simp [SymOf]
  have hsep : ∀ s, top.separator = .proper s ∨ top.separator = .trailing s ∨
      top.separator = .liberal s → s < g.numSyms := by
    intro s hs
    refine hin.2.2 s ?_
    rcases hs with hs | hs | hs <;> rw [hs] <;> rfl
  obtain ⟨st1, R, e1, t1, hf⟩ := reduce_follows hlim p (seq := top) hin.2.1 hsep hstep hrefs
    (.inl hin.1) (h0 _)
  rw [e1]
  simp only [Res.bind_ok]
  obtain ⟨new, n1, n2⟩ := t1.stack
  simp only [List.append_nil] at n1 n2
  have hR := forall₂_len hf
  have hpl := plan_length top.key
  have hinv : ∀ h, LInv p g L top (addRhs g.prod top.lhs R) ([] ++ R.map (Prod.mk top.lhs))
      { st1 with top := h } := by
    intro h
    have hi := t1.inv
    refine ⟨⟨hi.split, hi.limit, hi.roots, hi.wroots, hi.names, hi.rules, hi.syms, hi.keys,
      hi.vals, hi.ge, hi.allowed, hi.plain, hi.fold, hi.prods⟩, fun A α h => .inl h, ?_, ?_, ?_, ?_, ?_,
      ?_, ?_, ?_, ?_, hin.1⟩
    · intro s hs
      simp only at hs ⊢
      rw [n2]
      rw [n1] at hs
      exact List.mem_map.2 ⟨s, hs, rfl⟩
    · intro k y hky
      simp only at hky ⊢
      rw [n2] at hky
      obtain ⟨s, h1, h2⟩ := List.mem_map.1 hky
      simp only [Prod.mk.injEq] at h2
      exact .inl ⟨s, by rw [n1]; exact h1, h2⟩
    · intro items hi
      obtain ⟨α, hα, hr⟩ := forall₂_left hf hi
      exact ⟨α, hr, .inr ⟨rfl, hα⟩⟩
    · rintro A α (h' | ⟨rfl, h'⟩)
      · exact .inl h'
      · obtain ⟨items, hi, hr⟩ := forall₂_right hf h'
        exact .inr ⟨top.key, .inl ⟨rfl, rfl⟩, items, hi, hr⟩
    · simp only [n1, n2, List.length_map, List.nil_append]
      omega
    · exact nodup_blocks hf (by simp) List.nodup_nil hi.vals
    · intro q hq
      obtain ⟨α, hα, rfl⟩ := List.mem_map.1 hq
      obtain ⟨items, hi, hr⟩ := forall₂_right hf hα
      exact ⟨top.key, .inl ⟨rfl, rfl⟩, items, hi, hr⟩
    · intro q hq s hs
      obtain ⟨α, hα, rfl⟩ := List.mem_map.1 hq
      have h1 : g.numSyms ≤ s.lhs := hi.ge (s.key, s.lhs) (by
        rw [n2]; exact List.mem_map.2 ⟨s, by simpa [n1] using hs, rfl⟩)
      have h2 : top.lhs < g.numSyms := hin.1
      show top.lhs ≠ s.lhs
      omega
    · have := hi.vals
      rw [n2, List.map_map] at this
      simp only [n1]
      exact this
  have hlen : (keyList top.key).length ≤ seqFuel := by
    have hc := counts_le top.key (2 ^ 32 - 1) (by have := hu.1; omega)
      (fun e he => by have := hu.2 e he; omega) (by omega)
    have := length_keyList_le top.key 31 (log2_le_of_lt_pow (by omega))
      (log2_le_of_lt_pow (by omega))
    unfold seqFuel
    omega
  rcases LInv.loop hA hlim p (Ls := keyList top.key) hLs seqFuel _ _ _ (hinv _) (by
      simp only [n1, n2, List.length_map]
      omega) with ⟨e2, k, hk⟩ | ⟨st', P', Q', e2, h2, h3⟩
  · exact .inl ⟨by rw [e2]; rfl, k, hk⟩
  · exact .inr ⟨st', P', Q', by rw [e2]; rfl, h2, h3⟩

/-- Ranges that fit are rewritten without a panic. -/
theorem rewriteSequence_ok (p : Profile) {g : Cfg} {top : Sequence} (hwf : g.WF)
    (hlim : g.LimitOk) (hin : SeqIn g top) (hu : U32Key top.key) (hok : KeyOk top.key) :
    ∃ st P Q, g.rewriteSequence p top = .ok st.g ∧
      LInv p g (fun k => KeyOk k ∧ seqKeys top k) top P Q st ∧ st.stack = [] := by
  have hA := seqKeys_allowed hin
  have hA' : Allowed g.numSyms (fun k => KeyOk k ∧ seqKeys top k) :=
    ⟨fun k h => hA.elem k h.2, fun k h => hA.sep k h.2, fun k h => hA.u32 k h.2,
      fun k h hv items hi k' hk => ⟨(h.1.refs hi hk).1, hA.refs k h.2 hv items hi k' hk⟩⟩
  rcases rewriteSequence_run (p := p) hwf hlim hin hA' (fun k h => h.2.2) hu (hok.stepOk hu p).2
    (fun items hi k' hk => ⟨(hok.refs hi hk).1, hu.refs hi hk,
      keyList_refs (self_mem_keyList _) hi hk⟩) with ⟨-, k, hk, hk'⟩ | h
  · exact absurd (hk.1.stepOk hk.2.1 p) hk'
  · exact h

/-- The productions of the grammar together with those promised by the sequence rule. -/
def withSeq (P : Productions) (top : Sequence) : Productions := fun A α => P A α ∨ SeqProd top A α

theorem seqProd_iff {top : Sequence} {A : Sym} {β : List Sym} :
    SeqProd top A β ↔ A = top.lhs ∧ Form top.key β := Iff.rfl

theorem plan_syms_of {Q : Sym → Prop} {k : PartialSequence} {items : List Item}
    (hi : items ∈ plan k) {s : Sym} (hs : Item.sym s ∈ items) (h1 : Q k.rhs)
    (h2 : ∀ s, k.separator = .proper s ∨ k.separator = .trailing s ∨ k.separator = .liberal s →
      Q s) : Q s := by
  obtain ⟨x, a, stop, sp⟩ := k
  unfold plan planPos at hi
  simp only at hi h1 h2
  have hsp : Item.sym s ∈ sepItems sp → Q s := by
    cases sp with
    | proper s' => simp [sepItems]; rintro rfl; exact h2 _ (.inl rfl)
    | _ => simp [sepItems]
  repeat' split at hi
  all_goals
    simp only [List.mem_cons, List.not_mem_nil, or_false] at hi
    rcases hi with rfl | rfl
  all_goals
    simp only [List.mem_cons, List.mem_append, List.not_mem_nil, or_false, reduceCtorEq,
      false_or, List.cons_append, Item.sym.injEq] at hs
  all_goals
    first
    | (rcases hs with rfl | hs | rfl <;> first | exact h1 | exact hsp hs)
    | (rcases hs with hs | rfl <;> first | exact h1 | exact hsp hs)
    | (subst hs; first | exact h1 | exact h2 _ (.inr (.inl rfl)))

theorem plan_syms {k : PartialSequence} {N : Nat} {items : List Item} (hi : items ∈ plan k) {s : Sym}
    (hs : Item.sym s ∈ items) (h1 : k.rhs < N)
    (h2 : ∀ s, k.separator = .proper s ∨ k.separator = .trailing s ∨ k.separator = .liberal s →
      s < N) : s < N := plan_syms_of (Q := (· < N)) hi hs h1 h2

theorem plan_ne_nil (k : PartialSequence) : plan k ≠ [] := by
  unfold plan planPos
  repeat' split
  all_goals simp

theorem repeats_mem {x : Sym} {n : Nat} {sp : Separator} {β : List Sym} (h : Repeats x n sp β) :
    ∀ a ∈ β, a = x ∨ sp.sym? = some a := by
  have hp : ∀ (s : Sym) (l : List Sym), (∀ b ∈ l, b = x) →
      ∀ a ∈ l.intersperse s, a = x ∨ a = s := by
    intro s l
    induction l with
    | nil => intro _ a ha; simp at ha
    | cons b l ih =>
      intro hl a ha
      cases l with
      | nil => simp at ha; subst ha; exact .inl (hl a (by simp))
      | cons b' l =>
        rw [List.intersperse_cons_cons, List.mem_cons, List.mem_cons] at ha
        rcases ha with rfl | rfl | ha
        · exact .inl (hl _ (by simp))
        · exact .inr rfl
        · exact ih (fun b hb => hl b (List.mem_cons_of_mem _ hb)) a ha
  have ht : ∀ (s : Sym), ∀ a ∈ (List.replicate n [x, s]).flatten, a = x ∨ a = s := by
    intro s a ha
    simp only [List.mem_flatten, List.mem_replicate] at ha
    obtain ⟨l, ⟨-, rfl⟩, ha⟩ := ha
    simpa using ha
  intro a ha
  cases sp with
  | null =>
    simp only [Repeats] at h
    subst h
    exact .inl (List.eq_of_mem_replicate ha)
  | proper s =>
    simp only [Repeats] at h
    subst h
    rcases hp s _ (fun b hb => List.eq_of_mem_replicate hb) a ha with h | h
    · exact .inl h
    · exact .inr (by rw [h]; rfl)
  | trailing s =>
    simp only [Repeats] at h
    subst h
    rcases ht s a ha with h | h
    · exact .inl h
    · exact .inr (by rw [h]; rfl)
  | liberal s =>
    simp only [Repeats] at h
    rcases h with rfl | rfl
    · rcases hp s _ (fun b hb => List.eq_of_mem_replicate hb) a ha with h | h
      · exact .inl h
      · exact .inr (by rw [h]; rfl)
    · rcases ht s a ha with h | h
      · exact .inl h
      · exact .inr (by rw [h]; rfl)

section
variable {p : Profile} {L : PartialSequence → Prop} {g : Cfg} {top : Sequence} {P : Productions} {Q : List (Sym × List Sym)} {st : SeqState}

theorem LInv.term (h : LInv p g L top P Q st) (hs : st.stack = [])
    (a : Sym) : st.g.Term a ↔ g.Term a ∧ a ≠ top.lhs := by
  have hdone : ∀ k y, (k, y) ∈ st.map → ∃ α, P y α := by
    intro k y hky
    rcases h.done k y hky with ⟨s, h1, -⟩ | h1
    · rw [hs] at h1; simp at h1
    · obtain ⟨items, hi⟩ := List.exists_mem_of_ne_nil _ (plan_ne_nil k)
      obtain ⟨α, -, h2⟩ := h1.1 items hi
      exact ⟨α, h2⟩
  rw [h.inv.split.term]
  constructor
  · rintro ⟨h1 | ⟨k, h1⟩, h2⟩
    · refine ⟨⟨h1, fun r hr e => h2 r.rhs (h.old _ _ ⟨r, hr, e, rfl⟩)⟩, ?_⟩
      rintro rfl
      obtain ⟨items, hi⟩ := List.exists_mem_of_ne_nil _ (plan_ne_nil top.key)
      obtain ⟨α, -, h3⟩ := h.topDone items hi
      exact h2 α h3
    · obtain ⟨α, h3⟩ := hdone k a h1
      exact absurd h3 (h2 α)
  · rintro ⟨⟨h1, h2⟩, h3⟩
    refine ⟨.inl h1, fun α hα => ?_⟩
    rcases h.made a α hα with ⟨r, hr, e, -⟩ | ⟨k, ⟨-, e⟩ | e, -⟩
    · exact h2 r hr e
    · exact h3 e
    · have := h.inv.ge _ e
      simp only at this
      omega

/-- Completeness: every promised string is derived. -/
theorem LInv.complete (h : LInv p g L top P Q st) (hs : st.stack = [])
    (hok : KeyOk top.key) {β : List Sym} (hβ : Form top.key β) : Der P [top.lhs] β := by
  have hdone : ∀ k y, (k, y) ∈ st.map → Done P st.map k y := by
    intro k y hky
    rcases h.done k y hky with ⟨s, h1, -⟩ | h1
    · rw [hs] at h1; simp at h1
    · exact h1.1
  have key := plan_ind (D := fun k β => ∀ y, (k = top.key ∧ y = top.lhs ∨ (k, y) ∈ st.map) →
    Der P [y] β) (by
      rintro k β - ⟨items, hi, hitems⟩ y hy
      have hd : Done P st.map k y := by
        rcases hy with ⟨rfl, rfl⟩ | hy
        · exact h.topDone
        · exact hdone k y hy
      obtain ⟨α, h1, h2⟩ := hd items hi
      refine Der.trans (.prod h2) ?_
      clear h2 hi hd
      unfold Inst at h1
      induction h1 generalizing β with
      | nil =>
        simp only [ItemsIn] at hitems
        subst hitems
        exact .nil
      | @cons i a items α h1 h2 ih =>
        obtain ⟨β₁, β₂, rfl, h3, h4⟩ := hitems
        refine Der.append (u₁ := [a]) (u₂ := α) ?_ (ih _ h4)
        cases i with
        | sym s =>
          simp only [InstItem, ItemIn] at h1 h3
          subst h1 h3
          exact .refl _
        | self =>
          simp only [InstItem, ItemIn] at h1 h3
          subst h1
          exact h3 a hy
        | ref k' => exact h3 a (.inr h1)) hok hβ
  exact key top.lhs (.inl ⟨rfl, rfl⟩)

/-- Soundness beside other productions `E` and for strings over any old symbols `T`. `hself`: the
direct left recursion is only used if the left side has no other rules. -/
theorem LInv.sound_in (h : LInv p g L top P Q st)
    (hwf : g.WF) (hin : SeqIn g top) (hok : KeyOk top.key)
    (hL : ∀ k, L k → KeyOk k ∧ seqKeys top k) {E : Productions} {T : Sym → Prop}
    (hE : ∀ A α, E A α → A < g.numSyms ∧ ∀ a ∈ α, a < g.numSyms) (hT : ∀ a, T a → a < g.numSyms)
    (hself : ((∀ r ∈ g.rules, r.lhs ≠ top.lhs) ∧ (∀ α, ¬ E top.lhs α) ∧ ¬ T top.lhs) ∨
      ∀ items ∈ plan top.key, Item.self ∉ items)
    {A : Sym} (hA : A < g.numSyms) {w : List Sym}
    (hw : InLang (fun A α => P A α ∨ E A α) T A w) :
    InLang (withSeq (fun A α => g.prod A α ∨ E A α) top) T A w := by
  let V : Sym → List Sym → Prop := fun A w =>
    (A < g.numSyms → InLang (withSeq (fun A α => g.prod A α ∨ E A α) top) T A w) ∧
    ∀ k, (k, A) ∈ st.map → ∃ β, Form k β ∧ Der (withSeq (fun A α => g.prod A α ∨ E A α) top) β w ∧ ∀ a ∈ w, T a
  have hVlt : ∀ {A : Sym} {w}, A < g.numSyms → InLang (withSeq (fun A α => g.prod A α ∨ E A α) top) T A w →
      V A w := by
    intro A w h1 h2
    refine ⟨fun _ => h2, fun k hk => ?_⟩
    have := h.inv.ge _ hk
    simp only at this
    omega
  have hconc : ∀ (α w : List Sym), (∀ a ∈ α, a < g.numSyms) → ConcatLang V α w →
      Der (withSeq (fun A α => g.prod A α ∨ E A α) top) α w ∧ ∀ a ∈ w, T a := by
    intro α
    induction α with
    | nil => intro w _ hc; simp only [ConcatLang] at hc; subst hc; exact ⟨.nil, by simp⟩
    | cons a α ih =>
      rintro w ha ⟨u, v, rfl, h1, h2⟩
      obtain ⟨h3, h4⟩ := ih v (fun b hb => ha b (by simp [hb])) h2
      have h5 := h1.1 (ha a (by simp))
      refine ⟨Der.append (u₁ := [a]) (derives_iff_der.1 h5.1) h3, ?_⟩
      intro b hb
      rcases List.mem_append.1 hb with hb | hb
      · exact h5.2 b hb
      · exact h4 b hb
  -- strings of items
  have hitems : ∀ (k : PartialSequence) (y : Sym), k ∈ keyList top.key →
      (∀ w, V y w → Item.self ∈ (plan k).flatten →
        ∃ β, Form k β ∧ Der (withSeq (fun A α => g.prod A α ∨ E A α) top) β w ∧ ∀ a ∈ w, T a) →
      ∀ items ∈ plan k, ∀ α, Inst st.map y items α → ∀ w, ConcatLang V α w →
        ∃ β, ItemsIn Form k items β ∧ Der (withSeq (fun A α => g.prod A α ∨ E A α) top) β w ∧ ∀ a ∈ w, T a := by
    intro k y hk hy items hi
    have hsub : ∀ i ∈ items, i ∈ (plan k).flatten := fun i h' => List.mem_flatten.2 ⟨items, hi, h'⟩
    have hsyms : ∀ s, Item.sym s ∈ (plan k).flatten → s < g.numSyms := by
      intro s hs'
      have e1 := keyList_elem hin hk
      have e2 := keyList_sep hin hk
      obtain ⟨items, hi, hs'⟩ := List.mem_flatten.1 hs'
      exact plan_syms hi hs' e1 e2
    clear hi
    induction items with
    | nil =>
      intro α h1 w h2
      cases h1
      simp only [ConcatLang] at h2
      subst h2
      exact ⟨[], rfl, .nil, by simp⟩
    | cons i items ih =>
      intro α h1 w h2
      cases h1 with
      | @cons _ a _ α h1 h1' =>
      obtain ⟨u, v, rfl, h3, h4⟩ := h2
      obtain ⟨β₂, b1, b2, b3⟩ := ih (fun i hi => hsub i (by simp [hi])) α h1' v h4
      have hi := hsub i (by simp)
      have : ∃ β, ItemIn Form k i β ∧ Der (withSeq (fun A α => g.prod A α ∨ E A α) top) β u ∧ ∀ a ∈ u, T a := by
        cases i with
        | sym s =>
          simp only [InstItem] at h1
          subst h1
          have h5 := h3.1 (hsyms a hi)
          exact ⟨[a], rfl, derives_iff_der.1 h5.1, h5.2⟩
        | self =>
          simp only [InstItem] at h1
          subst h1
          exact hy u h3 hi
        | ref k' => exact h3.2 k' h1
      obtain ⟨β₁, a1, a2, a3⟩ := this
      refine ⟨β₁ ++ β₂, ⟨β₁, β₂, rfl, a1, b1⟩, a2.append b2, ?_⟩
      intro b hb
      rcases List.mem_append.1 hb with hb | hb
      · exact a3 b hb
      · exact b3 b hb
  refine (inLang_le (V := V) (T := T) (P := fun A α => P A α ∨ E A α) ?_ ?_ hw).1 hA
  · intro a ha
    refine hVlt (hT a ha) ⟨derives_iff_der.2 (.refl _), by simpa using ha⟩
  · intro A α w hp hc
    have hp' : (g.prod A α ∨ E A α) ∨ Made st.map top A α := by
      rcases hp with hp | hp
      · rcases h.made A α hp with hp | hp
        · exact .inl (.inl hp)
        · exact .inr hp
      · exact .inl (.inr hp)
    rcases hp' with hp | ⟨k, hk, items, hi, hinst⟩
    · have hb : A < g.numSyms ∧ ∀ a ∈ α, a < g.numSyms := by
        rcases hp with ⟨r, hr, rfl, rfl⟩ | hp
        · exact hwf r hr
        · exact hE A α hp
      obtain ⟨h1, h2⟩ := hconc α w hb.2 hc
      exact hVlt hb.1 ⟨derives_iff_der.2 (Der.trans (.prod (.inl hp)) h1), h2⟩
    · rcases hk with ⟨rfl, rfl⟩ | hk
      · obtain ⟨β, h1, h2, h3⟩ := hitems top.key top.lhs (self_mem_keyList _) (by
          intro w hv hsf
          have hno : (∀ r ∈ g.rules, r.lhs ≠ top.lhs) ∧ (∀ α, ¬ E top.lhs α) ∧ ¬ T top.lhs := by
            rcases hself with h' | h'
            · exact h'
            · obtain ⟨items, hi, hm⟩ := List.mem_flatten.1 hsf
              exact absurd hm (h' items hi)
          obtain ⟨h1, h2⟩ := hv.1 hin.1
          have h1 := derives_iff_der.1 h1
          rw [Der.single_iff] at h1
          rcases h1 with rfl | ⟨β, h1, h3⟩
          · exact absurd (h2 top.lhs (by simp)) hno.2.2
          · rcases h1 with (⟨r, hr, e, -⟩ | h1) | ⟨-, h1⟩
            · exact absurd e (hno.1 r hr)
            · exact absurd h1 (hno.2.1 _)
            · exact ⟨β, h1, h3, h2⟩) items hi α hinst w hc
        refine hVlt hin.1 ⟨derives_iff_der.2 (Der.trans (.prod (.inr ⟨rfl, plan_sound hok hi h1⟩))
          h2), h3⟩
      · have hkeys := hL _ (h.inv.allowed _ hk)
        have huniq : ∀ k', (k', A) ∈ st.map → k' = k := by
          intro k' hk'
          have := List.inj_on_of_nodup_map h.inv.vals hk' hk rfl
          exact congrArg Prod.fst this
        obtain ⟨β, h1, h2, h3⟩ := hitems k A hkeys.2.2 (fun w hv _ => hv.2 k hk) items hi α hinst w hc
        refine ⟨fun hlt => ?_, fun k' hk' => ?_⟩
        · have := h.inv.ge _ hk
          simp only at this
          omega
        · obtain rfl := huniq k' hk'
          exact ⟨β, plan_sound hkeys.1 hi h1, h2, h3⟩

/-- Soundness. -/
theorem LInv.sound (h : LInv p g L top P Q st) (hs : st.stack = [])
    (hwf : g.WF) (hin : SeqIn g top) (hok : KeyOk top.key)
    (hL : ∀ k, L k → KeyOk k ∧ seqKeys top k)
    (hself : (∀ r ∈ g.rules, r.lhs ≠ top.lhs) ∨ ∀ items ∈ plan top.key, Item.self ∉ items)
    {A : Sym} (hA : A < g.numSyms) {w : List Sym} (hw : InLang P st.g.Term A w) :
    InLang (withSeq g.prod top) st.g.Term A w := by
  have hT := h.term hs
  have := h.sound_in hwf hin hok hL (E := fun _ _ => False) (T := st.g.Term) (by simp)
    (fun a ha => ((hT a).1 ha).1.1)
    (hself.imp (fun h => ⟨h, by simp, fun h => ((hT _).1 h).2 rfl⟩) id) hA (w := w)
  simpa only [or_false] using this (by simpa only [or_false] using hw)

end

end Verif
