import Verif.Model.Genetic
import Verif.Proofs.Tactics

/-! # Property C140: populations of rule descriptions -/

namespace Verif.Genetic

theorem then_eq_lt {a b : Ordering} : a.then b = .lt ↔ a = .lt ∨ a = .eq ∧ b = .lt := by
  cases a <;> simp [Ordering.then]

theorem then_eq_eq {a b : Ordering} : a.then b = .eq ↔ a = .eq ∧ b = .eq := by
  cases a <;> simp [Ordering.then]

theorem then_swap {a b : Ordering} : (a.then b).swap = a.swap.then b.swap := by
  cases a <;> simp [Ordering.then, Ordering.swap]

/-- A comparison that is a total order with equality of keys. -/
structure Lawful {α : Type} (f : α → α → Ordering) : Prop where
  eq_iff : ∀ a b, f a b = .eq ↔ a = b
  swap : ∀ a b, f b a = (f a b).swap
  trans : ∀ a b c, f a b = .lt → f b c = .lt → f a c = .lt

theorem lawful_nat : Lawful (compare : Nat → Nat → Ordering) where
  eq_iff a b := Nat.compare_eq_eq
  swap a b := (Nat.compare_swap a b).symm
  trans a b c h1 h2 := by rw [Nat.compare_eq_lt] at *; omega

theorem lawful_key : Lawful cmpKey where
  eq_iff a := by
    induction a with
    | nil => intro b; cases b <;> simp [cmpKey]
    | cons x a ih => intro b; cases b <;> simp [cmpKey, ih, lawful_nat.eq_iff]
  swap a := by
    induction a with
    | nil => intro b; cases b <;> rfl
    | cons x a ih =>
      intro b
      cases b with
      | nil => rfl
      | cons y b => simp only [cmpKey, then_swap, ih b, lawful_nat.swap x y]
  trans a := by
    induction a with
    | nil => intro b c; cases b <;> cases c <;> simp [cmpKey]
    | cons x a ih =>
      intro b c
      rcases b with _ | ⟨y, b⟩ <;> rcases c with _ | ⟨z, c⟩ <;> simp only [cmpKey, reduceCtorEq,
        false_implies, implies_true, then_eq_lt]
      rintro (h1 | ⟨h1, h1'⟩) (h2 | ⟨h2, h2'⟩)
      · exact .inl (lawful_nat.trans _ _ _ h1 h2)
      · rw [lawful_nat.eq_iff] at h2; exact .inl (h2 ▸ h1)
      · rw [lawful_nat.eq_iff] at h1; exact .inl (h1 ▸ h2)
      · rw [lawful_nat.eq_iff] at h1 h2
        exact .inr ⟨by rw [lawful_nat.eq_iff]; omega, ih b c h1' h2'⟩

theorem Lawful.on {α β : Type} {f : β → β → Ordering} (h : Lawful f) {k : α → β}
    (hk : ∀ a b, k a = k b → a = b) : Lawful fun a b => f (k a) (k b) where
  eq_iff a b := by rw [h.eq_iff]; exact ⟨hk a b, fun e => e ▸ rfl⟩
  swap a b := h.swap _ _
  trans a b c := h.trans _ _ _

theorem Lawful.thenOn {α β γ : Type} {f : α → α → Ordering} {g : β → β → Ordering}
    (hf : Lawful f) (hg : Lawful g) (k : γ → α) (l : γ → β)
    (hk : ∀ a b, k a = k b → l a = l b → a = b) :
    Lawful fun a b => (f (k a) (k b)).then (g (l a) (l b)) where
  eq_iff a b := by
    rw [then_eq_eq, hf.eq_iff, hg.eq_iff]
    exact ⟨fun h => hk a b h.1 h.2, fun e => e ▸ ⟨rfl, rfl⟩⟩
  swap a b := by rw [then_swap, hf.swap (k a), hg.swap (l a)]
  trans a b c h1 h2 := by
    rw [then_eq_lt] at *
    rcases h1 with h1 | ⟨h1, h1'⟩ <;> rcases h2 with h2 | ⟨h2, h2'⟩
    · exact .inl (hf.trans _ _ _ h1 h2)
    · rw [hf.eq_iff] at h2; exact .inl (h2 ▸ h1)
    · rw [hf.eq_iff] at h1; exact .inl (h1 ▸ h2)
    · exact .inr ⟨by rw [hf.eq_iff] at *; rw [h1, h2], hg.trans _ _ _ h1' h2'⟩

theorem ruleKind_key {a b : RuleKind} (h : a.key = b.key) : a = b := by
  cases a <;> cases b <;> simp_all [RuleKind.key]

theorem toNat_inj {x y : Bool} (h : x.toNat = y.toNat) : x = y := by
  cases x <;> cases y <;> simp_all

theorem rhs_key {a b : Rhs} (h : a.key = b.key) : a = b := by
  match a, b, h with
  | .unary a x, .unary b y, h =>
    simp only [Rhs.key, List.cons.injEq, and_true, true_and] at h
    rw [h.1, toNat_inj h.2]
  | .binary a x b y, .binary c z d w, h =>
    simp only [Rhs.key, List.cons.injEq, and_true, true_and] at h
    rw [h.1, toNat_inj h.2.1, h.2.2.1, toNat_inj h.2.2.2]
  | .any, .any, _ => rfl
  | .unary .., .binary .., h => simp [Rhs.key] at h
  | .unary .., .any, h => simp [Rhs.key] at h
  | .binary .., .unary .., h => simp [Rhs.key] at h
  | .binary .., .any, h => simp [Rhs.key] at h
  | .any, .unary .., h => simp [Rhs.key] at h
  | .any, .binary .., h => simp [Rhs.key] at h

/-- **C140.** Rule descriptions are totally ordered by their comparison, and compare as equal only
if they are equal. -/
theorem C140_order :
    (∀ a b : RuleDescription, a.cmp b = .eq ↔ a = b) ∧
    (∀ a b : RuleDescription, b.cmp a = (a.cmp b).swap) ∧
    ∀ a b c : RuleDescription, a.cmp b = .lt → b.cmp c = .lt → a.cmp c = .lt := by
  have h1 : Lawful fun a b : RuleKind × Rhs =>
      (cmpKey a.1.key b.1.key).then (cmpKey a.2.key b.2.key) :=
    lawful_key.thenOn lawful_key (fun p => p.1.key) (fun p => p.2.key) fun a b e1 e2 =>
      Prod.ext (ruleKind_key e1) (rhs_key e2)
  have h2 := h1.thenOn lawful_nat (γ := (RuleKind × Rhs) × Nat) (fun p => p.1) (fun p => p.2)
    fun a b e1 e2 => Prod.ext e1 e2
  have h3 : Lawful RuleDescription.cmp :=
    h2.thenOn lawful_nat (fun d : RuleDescription => ((d.ruleKind, d.rhs), d.start)) (fun d => d.stop)
      fun a b e1 e2 => by
        cases a; cases b
        simp only [Prod.mk.injEq] at e1 e2
        simp [e1, e2]
  exact ⟨h3.eq_iff, h3.swap, h3.trans⟩

example : RuleDescription.cmp ⟨.ll 1, .any, 3, 4⟩ ⟨.ll 2, .unary 0 true, 0, 1⟩ = .lt := by decide

/-- A set: its elements in strictly increasing order. -/
def Population.Ordered (p : Population) : Prop :=
  p.ruleDescriptions.Pairwise fun a b => a.cmp b = .lt

theorem insert_last (x : RuleDescription) : ∀ l : List RuleDescription,
    (∀ y ∈ l, y.cmp x = .lt) → insertSorted x l = l ++ [x]
  | [], _ => rfl
  | y :: l, h => by
    have h1 := C140_order.2.1 y x
    rw [h y (by simp)] at h1
    have h1 : x.cmp y = .gt := h1
    simp only [insertSorted, h1, List.cons_append]
    rw [insert_last x l fun z hz => h z (by simp [hz])]

theorem mem_insert {x y : RuleDescription} : ∀ {l : List RuleDescription},
    y ∈ insertSorted x l ↔ y = x ∨ y ∈ l
  | [] => by simp [insertSorted]
  | z :: l => by
    unfold insertSorted
    split
    · simp
    · next h => rw [(C140_order.1 _ _).1 h]; simp
    · simp only [List.mem_cons, mem_insert (l := l)]; tauto

theorem insert_ordered (x : RuleDescription) : ∀ l : List RuleDescription,
    l.Pairwise (fun a b => a.cmp b = .lt) → (insertSorted x l).Pairwise fun a b => a.cmp b = .lt
  | [], _ => by simp [insertSorted]
  | y :: l, h => by
    obtain ⟨h1, h2⟩ := List.pairwise_cons.1 h
    unfold insertSorted
    split
    · next e =>
      refine List.pairwise_cons.2 ⟨fun z hz => ?_, h⟩
      rcases List.mem_cons.1 hz with rfl | hz
      · exact e
      · exact C140_order.2.2 _ _ _ e (h1 z hz)
    · exact h
    · next e =>
      refine List.pairwise_cons.2 ⟨fun z hz => ?_, insert_ordered x l h2⟩
      rcases mem_insert.1 hz with rfl | hz
      · rw [C140_order.2.1 z y, e]; rfl
      · exact h1 z hz

/-- **C140.** A set that is filled by any insertions holds exactly what was inserted, each
description once and in order. -/
theorem C140_insertions (xs : List RuleDescription) :
    let p : Population := ⟨xs.foldl (fun l x => insertSorted x l) []⟩
    p.Ordered ∧ ∀ x, x ∈ p.ruleDescriptions ↔ x ∈ xs := by
  have key : ∀ (xs l : List RuleDescription), l.Pairwise (fun a b => a.cmp b = .lt) →
      (xs.foldl (fun l x => insertSorted x l) l).Pairwise (fun a b => a.cmp b = .lt) ∧
      ∀ x, x ∈ xs.foldl (fun l x => insertSorted x l) l ↔ x ∈ xs ∨ x ∈ l := by
    intro xs
    induction xs with
    | nil => intro l h; exact ⟨h, by simp⟩
    | cons y xs ih =>
      intro l h
      obtain ⟨h1, h2⟩ := ih _ (insert_ordered y l h)
      refine ⟨h1, fun x => ?_⟩
      rw [List.foldl_cons, h2, mem_insert, List.mem_cons]
      tauto
  obtain ⟨h1, h2⟩ := key xs [] .nil
  exact ⟨h1, fun x => by rw [h2]; simp⟩

theorem mutate_self (d : RuleDescription) (m : Mutation) : d.mutate m = d := by
  obtain ⟨k, r, s, e⟩ := d
  cases r <;> rfl

/-- **C140.** A mutation of any kind returns the population that it was applied to. -/
theorem C140_mutate (p : Population) (hp : p.Ordered) (m : Mutation) : p.mutate m = p := by
  obtain ⟨l⟩ := p
  have key : ∀ (l acc : List RuleDescription), (acc ++ l).Pairwise (fun a b => a.cmp b = .lt) →
      l.foldl (fun (new : Population) d => ⟨insertSorted (d.mutate m) new.ruleDescriptions⟩) ⟨acc⟩ =
        ⟨acc ++ l⟩ := by
    intro l
    induction l with
    | nil => intro acc _; simp
    | cons x l ih =>
      intro acc h
      rw [List.foldl_cons, mutate_self, insert_last x acc ?_, ih (acc ++ [x]) (by simpa using h)]
      · simp
      · intro y hy
        exact (List.pairwise_append.1 h).2.2 y hy x (by simp)
  exact key l [] hp

/-- The population of `test_zero_mutation`, and one more description. -/
example : let p : Population := ⟨[⟨.leftRecursive, .unary 2 false, 0, 1⟩, ⟨.contextFree, .any, 10, 20⟩]⟩
    p.Ordered ∧ p.ruleDescriptions =
      [⟨.contextFree, .any, 10, 20⟩, ⟨.leftRecursive, .unary 2 false, 0, 1⟩,
        ⟨.contextFree, .any, 10, 20⟩].foldl (fun l x => insertSorted x l) [] := by
  constructor
  · unfold Population.Ordered
    decide
  · decide

end Verif.Genetic
