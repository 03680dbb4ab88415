import Verif.Spec.Sequence
import Verif.Proofs.Split

/-!
# Sequence rewriting: the plan of one reduction

`plan k` lists the right sides that `reduce` makes for the key `k`, with references to other
keys instead of symbols.
-/

namespace Verif

/-! ## Strings of repetitions -/

/-- Repetitions with the separator between them. -/
def properStr (x s : Sym) (n : Nat) : List Sym := (List.replicate n x).intersperse s
/-- Repetitions with the separator after each. -/
def trailStr (x s : Sym) (n : Nat) : List Sym := (List.replicate n [x, s]).flatten

theorem properStr_zero (x s : Sym) : properStr x s 0 = [] := rfl
theorem properStr_one (x s : Sym) : properStr x s 1 = [x] := rfl
theorem properStr_succ (x s : Sym) (n : Nat) :
    properStr x s (n + 2) = x :: s :: properStr x s (n + 1) := rfl
theorem trailStr_zero (x s : Sym) : trailStr x s 0 = [] := rfl
theorem trailStr_succ (x s : Sym) (n : Nat) :
    trailStr x s (n + 1) = x :: s :: trailStr x s n := rfl

theorem properStr_sep (x s : Sym) (n : Nat) :
    properStr x s (n + 1) ++ [s] = trailStr x s (n + 1) := by
  induction n with
  | zero => rfl
  | succ n ih => rw [properStr_succ, trailStr_succ, ← ih]; rfl

theorem trail_proper (x s : Sym) (m n : Nat) :
    trailStr x s m ++ properStr x s (n + 1) = properStr x s (m + n + 1) := by
  induction m with
  | zero => simp [trailStr_zero]
  | succ m ih =>
    rw [trailStr_succ, show m + 1 + n + 1 = m + n + 2 by omega, properStr_succ,
      ← ih]
    rfl

theorem properStr_snoc (x s : Sym) (n : Nat) :
    properStr x s (n + 1) ++ [s, x] = properStr x s (n + 2) := by
  have := trail_proper x s (n + 1) 0
  rw [← properStr_sep, properStr_one] at this
  simpa using this

/-! ## Keys, items and plans -/

/-- The string `β` belongs to the key. -/
def Form (k : PartialSequence) (β : List Sym) : Prop :=
  ∃ n, k.start ≤ n ∧ (∀ e, k.stop = some e → n ≤ e) ∧ Repeats k.rhs n k.separator β

/-- One place of a right side. -/
inductive Item where
  | sym (s : Sym)
  | self
  | ref (k : PartialSequence)

/-- Half the next power of two of `n`; zero if that power is 1 or does not fit 32 bits. -/
def half (n : Nat) : Nat := if n ≤ 1 ∨ 2 ^ 31 < n then 0 else 2 ^ Nat.log2 (n - 1)

/-- The separator between two elements. -/
def sepItems : Separator → List Item
  | .proper s => [.sym s]
  | _ => []

/-- Plan for `Proper` and `Null` separators and positive start. -/
def planPos (k : PartialSequence) : List (List Item) :=
  if k.start = 1 then
    match k.stop with
    | none => [[.sym k.rhs], .self :: sepItems k.separator ++ [.sym k.rhs]]
    | some e =>
      if e = 1 then [[.sym k.rhs]]
      else if e = 2 then
        [[.ref ⟨k.rhs, 1, some 1, k.separator⟩], [.ref ⟨k.rhs, 2, some 2, k.separator⟩]]
      else
        [[.ref ⟨k.rhs, 1, some (half e), k.separator⟩],
          [.ref ⟨k.rhs, half e, some (half e), k.separator.prefixSeparator⟩,
            .ref ⟨k.rhs, 1, some (e - half e), k.separator⟩]]
  else if k.start = 2 ∧ k.stop = some 2 then
    [.sym k.rhs :: sepItems k.separator ++ [.sym k.rhs]]
  else if some k.start = k.stop then
    [[.ref ⟨k.rhs, half k.start, some (half k.start), k.separator.prefixSeparator⟩,
      .ref ⟨k.rhs, k.start - half k.start, some (k.start - half k.start), k.separator⟩]]
  else
    [[.ref ⟨k.rhs, k.start - 1, some (k.start - 1), k.separator.prefixSeparator⟩,
      .ref ⟨k.rhs, 1, k.stop.map fun e => e - k.start + 1, k.separator⟩]]

/-- The plan of a key. -/
def plan (k : PartialSequence) : List (List Item) :=
  match k.separator with
  | .liberal s =>
    [[.ref { k with separator := .proper s }], [.ref { k with separator := .trailing s }]]
  | sepa =>
    if k.start = 0 then
      if k.stop = some 0 then [[]] else [[], [.ref { k with start := 1 }]]
    else
      match sepa with
      | .trailing s => [[.ref { k with separator := .proper s }, .sym s]]
      | _ => planPos k

/-- Keys that `reduce` can handle. -/
def KeyOk (k : PartialSequence) : Prop :=
  (∀ e, k.stop = some e → k.start ≤ e) ∧
  (k.start ≤ 1 → ∀ e, k.stop = some e → e ≤ 2 ^ 31) ∧
  (2 ≤ k.start → if k.stop = some k.start then k.start ≤ 2 ^ 31
    else k.start - 1 ≤ 2 ^ 31 ∧ ∀ e, k.stop = some e → e - k.start + 1 ≤ 2 ^ 31)

theorem half_eq {n : Nat} (h : 2 ≤ n) (h' : n ≤ 2 ^ 31) : half n = 2 ^ Nat.log2 (n - 1) := by
  unfold half
  rw [if_neg (by omega)]

theorem half_bounds {n : Nat} (h : 2 ≤ n) (h' : n ≤ 2 ^ 31) :
    half n < n ∧ n ≤ 2 * half n ∧ 1 ≤ half n := by
  have h1 : 2 ^ Nat.log2 (n - 1) ≤ n - 1 := Nat.log2_self_le (by omega)
  have h2 : n - 1 < 2 ^ (Nat.log2 (n - 1) + 1) := Nat.lt_log2_self
  rw [Nat.pow_succ] at h2
  have h3 : 1 ≤ 2 ^ Nat.log2 (n - 1) := Nat.one_le_two_pow
  rw [half_eq h h']
  omega

theorem half_ge_two {n : Nat} (h : 3 ≤ n) (h' : n ≤ 2 ^ 31) : 2 ≤ half n := by
  have := half_bounds (show 2 ≤ n by omega) h'
  omega

theorem half_le (n : Nat) : half n ≤ n := by
  by_cases h : n ≤ 1 ∨ 2 ^ 31 < n
  · unfold half; rw [if_pos h]; omega
  · have := half_bounds (n := n) (by omega) (by omega)
    omega

/-- The keys referred to by a plan are themselves fine. -/
theorem KeyOk.refs {k : PartialSequence} (h : KeyOk k) {items : List Item} (hi : items ∈ plan k)
    {k' : PartialSequence} (hk : Item.ref k' ∈ items) : KeyOk k' ∧ k'.rhs = k.rhs := by
  obtain ⟨x, start, stop, sepa⟩ := k
  obtain ⟨h1, h2, h3⟩ := h
  simp only at h1 h2 h3
  revert hi hk
  have pos : ∀ sepa, 1 ≤ start → ∀ items ∈ planPos ⟨x, start, stop, sepa⟩,
      Item.ref k' ∈ items → KeyOk k' ∧ k'.rhs = x := by
    intro sepa hs items hi hk
    unfold planPos at hi
    simp only at hi
    split at hi
    · cases stop with
      | none => cases sepa <;> simp [sepItems] at hi <;> rcases hi with rfl | rfl <;> simp at hk
      | some e =>
        have := h1 e rfl
        have := h2 (by omega) e rfl
        simp only at hi
        split at hi
        · simp at hi; subst hi; simp at hk
        · split at hi
          · simp at hi
            rcases hi with rfl | rfl <;> simp at hk <;> subst hk <;>
              (refine ⟨?_, rfl⟩; unfold KeyOk; simp)
          · have hb := half_bounds (show 2 ≤ e by omega) (by omega)
            have hb2 := half_ge_two (show 3 ≤ e by omega) (by omega)
            simp at hi
            rcases hi with rfl | rfl
            · simp at hk; subst hk
              refine ⟨⟨?_, ?_, ?_⟩, rfl⟩
              · simp; omega
              · simp; omega
              · simp
            · simp at hk
              rcases hk with rfl | rfl
              · refine ⟨⟨?_, ?_, ?_⟩, rfl⟩
                · simp
                · simp; omega
                · simp; omega
              · refine ⟨⟨?_, ?_, ?_⟩, rfl⟩
                · simp; omega
                · simp; omega
                · simp
    · split at hi
      · cases sepa <;> simp [sepItems] at hi <;> subst hi <;> simp at hk
      · split at hi
        · rename_i hne1 hne2 he
          subst he
          have hle31 : start ≤ 2 ^ 31 := by have := h3 (by omega); rwa [if_pos rfl] at this
          have h3 := hle31
          have hs3 : 3 ≤ start := by
            rcases Nat.lt_or_ge start 3 with h | h
            · exact absurd ⟨by omega, by rw [show start = 2 by omega]⟩ hne2
            · exact h
          have hb := half_bounds (show 2 ≤ start by omega) hle31
          have hb2 := half_ge_two hs3 hle31
          rw [List.mem_singleton] at hi
          subst hi
          simp only [List.mem_cons, Item.ref.injEq, List.not_mem_nil, or_false] at hk
          rcases hk with rfl | rfl
          · refine ⟨⟨?_, ?_, ?_⟩, rfl⟩
            · simp
            · simp; omega
            · simp; omega
          · refine ⟨⟨?_, ?_, ?_⟩, rfl⟩
            · simp only [Option.some.injEq]; omega
            · simp; omega
            · simp; omega
        · rename_i hne1 hne2 he
          have h3 := h3 (by omega)
          rw [if_neg (fun h => he h.symm)] at h3
          rw [List.mem_singleton] at hi
          subst hi
          simp only [List.mem_cons, Item.ref.injEq, List.not_mem_nil, or_false] at hk
          rcases hk with rfl | rfl
          · refine ⟨⟨?_, ?_, ?_⟩, rfl⟩
            · simp only [Option.some.injEq]; omega
            · simp only [Option.some.injEq]; omega
            · simp only [if_true]; omega
          · refine ⟨⟨?_, ?_, ?_⟩, rfl⟩
            · simp only [Option.map_eq_some_iff]
              rintro _ ⟨e, he, rfl⟩
              omega
            · simp only [Option.map_eq_some_iff]
              rintro - _ ⟨e, he, rfl⟩
              exact h3.2 e he
            · simp
  have zero : start = 0 → ∀ sepa, ∀ items ∈ (if stop = some 0 then [[]] else
      [[], [Item.ref ⟨x, 1, stop, sepa⟩]]), Item.ref k' ∈ items → KeyOk k' ∧ k'.rhs = x := by
    intro hs sepa items hi hk
    split at hi
    · simp at hi; subst hi; simp at hk
    · rename_i hne
      simp at hi
      rcases hi with rfl | rfl
      · simp at hk
      · simp at hk; subst hk
        refine ⟨⟨?_, ?_, ?_⟩, rfl⟩
        · simp only
          intro e he
          subst he
          rcases Nat.eq_zero_or_pos e with h | h
          · subst h; exact absurd rfl hne
          · exact h
        · simp only; intro _; exact h2 (by omega)
        · simp
  intro hk hi
  unfold plan at hi
  simp only at hi
  cases sepa with
  | liberal s =>
    simp at hi
    rcases hi with rfl | rfl <;> simp at hk <;> subst hk <;> exact ⟨⟨h1, h2, h3⟩, rfl⟩
  | trailing s =>
    simp only at hi
    split at hi
    · rename_i hs; subst hs; exact zero rfl _ items hi hk
    · simp at hi; subst hi; simp at hk; subst hk; exact ⟨⟨h1, h2, h3⟩, rfl⟩
  | proper s =>
    simp only at hi
    split at hi
    · rename_i hs; subst hs; exact zero rfl _ items hi hk
    · exact pos _ (by omega) items hi hk
  | null =>
    simp only at hi
    split at hi
    · rename_i hs; subst hs; exact zero rfl _ items hi hk
    · exact pos _ (by omega) items hi hk

/-- Strings of an item, where `D k` are the strings of the key `k`. -/
def ItemIn (D : PartialSequence → List Sym → Prop) (self : PartialSequence) :
    Item → List Sym → Prop
  | .sym s, β => β = [s]
  | .self, β => D self β
  | .ref k, β => D k β

/-- Strings of a list of items. -/
def ItemsIn (D : PartialSequence → List Sym → Prop) (self : PartialSequence) :
    List Item → List Sym → Prop
  | [], β => β = []
  | i :: is, β => ∃ β₁ β₂, β = β₁ ++ β₂ ∧ ItemIn D self i β₁ ∧ ItemsIn D self is β₂

variable {D : PartialSequence → List Sym → Prop} {self : PartialSequence}

theorem itemsIn_one {i : Item} {β : List Sym} : ItemsIn D self [i] β ↔ ItemIn D self i β := by
  simp [ItemsIn]

theorem itemsIn_two {i j : Item} {β : List Sym} :
    ItemsIn D self [i, j] β ↔ ∃ β₁ β₂, β = β₁ ++ β₂ ∧ ItemIn D self i β₁ ∧ ItemIn D self j β₂ := by
  simp [ItemsIn]

/-- `m` with the prefix separator, then `n ≥ 1`. -/
theorem repeats_append {x : Sym} {sepa : Separator} (hs : sepa = .null ∨ ∃ s, sepa = .proper s)
    {m n : Nat} (hn : 1 ≤ n) {β : List Sym} :
    Repeats x (m + n) sepa β ↔
      ∃ β₁ β₂, β = β₁ ++ β₂ ∧ Repeats x m sepa.prefixSeparator β₁ ∧ Repeats x n sepa β₂ := by
  obtain ⟨n, rfl⟩ : ∃ k, n = k + 1 := ⟨n - 1, by omega⟩
  rcases hs with rfl | ⟨s, rfl⟩
  · simp only [Repeats, Separator.prefixSeparator]
    constructor
    · rintro rfl
      exact ⟨_, _, by rw [← List.replicate_append_replicate], rfl, rfl⟩
    · rintro ⟨_, _, rfl, rfl, rfl⟩
      rw [List.replicate_append_replicate]
  · simp only [Repeats, Separator.prefixSeparator]
    change β = properStr x s (m + (n + 1)) ↔ ∃ β₁ β₂, β = β₁ ++ β₂ ∧ β₁ = trailStr x s m ∧
      β₂ = properStr x s (n + 1)
    rw [← Nat.add_assoc, ← trail_proper]
    constructor
    · rintro rfl; exact ⟨_, _, rfl, rfl, rfl⟩
    · rintro ⟨_, _, rfl, rfl, rfl⟩; rfl

theorem repeats_one {x : Sym} {sepa : Separator} (hs : sepa = .null ∨ ∃ s, sepa = .proper s)
    {β : List Sym} : Repeats x 1 sepa β ↔ β = [x] := by
  rcases hs with rfl | ⟨s, rfl⟩ <;> simp [Repeats]

theorem sepItems_spec {x : Sym} {sepa : Separator} (hs : sepa = .null ∨ ∃ s, sepa = .proper s)
    {n : Nat} (hn : 1 ≤ n) {β : List Sym} :
    Repeats x (n + 1) sepa β ↔ ∃ β₁ β₂, β = β₁ ++ β₂ ∧ Repeats x n sepa β₁ ∧
      ItemsIn D self (sepItems sepa ++ [.sym x]) β₂ := by
  obtain ⟨n, rfl⟩ : ∃ k, n = k + 1 := ⟨n - 1, by omega⟩
  rcases hs with rfl | ⟨s, rfl⟩
  · simp only [Repeats, sepItems, List.nil_append, itemsIn_one, ItemIn]
    constructor
    · rintro rfl
      exact ⟨_, _, by rw [List.replicate_succ'], rfl, rfl⟩
    · rintro ⟨_, _, rfl, rfl, rfl⟩
      rw [List.replicate_succ' (n := n + 1)]
  · simp only [Repeats, sepItems, List.cons_append, List.nil_append, itemsIn_two, ItemIn]
    change β = properStr x s (n + 2) ↔ ∃ β₁ β₂, β = β₁ ++ β₂ ∧ β₁ = properStr x s (n + 1) ∧ _
    rw [← properStr_snoc]
    constructor
    · rintro rfl; exact ⟨_, [s, x], rfl, rfl, [s], [x], rfl, rfl, rfl⟩
    · rintro ⟨_, _, rfl, rfl, _, _, rfl, rfl, rfl⟩; rfl

/-- Strings of an exact count. -/
theorem form_exact {x : Sym} {n : Nat} {sepa : Separator} {β : List Sym} :
    Form ⟨x, n, some n, sepa⟩ β ↔ Repeats x n sepa β := by
  constructor
  · rintro ⟨m, h1, h2, h3⟩
    simp only at h1 h2 h3
    have := h2 n rfl
    obtain rfl : m = n := by omega
    exact h3
  · exact fun h => ⟨n, Nat.le_refl _, by simp, h⟩

/-- Measure of keys: references go down. -/
def keySize (k : PartialSequence) : Nat :=
  4 * (match k.stop with
    | none => if k.start = 0 then 2 else k.start
    | some e => e + (if k.start = e then 0 else 1) + (if k.start = 0 then 1 else 0)) +
  (match k.separator with
    | .liberal _ => 3
    | .trailing _ => 2
    | _ => 1)

theorem planPos_sound {x start : Nat} {stop : Option Nat} {sepa : Separator}
    (h : KeyOk ⟨x, start, stop, sepa⟩) (hs : sepa = .null ∨ ∃ s, sepa = .proper s)
    (hpos : 1 ≤ start) {items : List Item} (hi : items ∈ planPos ⟨x, start, stop, sepa⟩)
    {β : List Sym} (hβ : ItemsIn Form ⟨x, start, stop, sepa⟩ items β) :
    Form ⟨x, start, stop, sepa⟩ β := by
  obtain ⟨h1, h2, h3⟩ := h
  simp only at h1 h2 h3
  unfold planPos at hi
  simp only at hi
  split at hi
  · rename_i hst
    subst hst
    cases stop with
    | none =>
      simp only [List.mem_cons, List.not_mem_nil, or_false] at hi
      rcases hi with rfl | rfl
      · rw [itemsIn_one] at hβ
        exact ⟨1, Nat.le_refl _, by simp, (repeats_one hs).2 hβ⟩
      · obtain ⟨β₁, β₂, rfl, ⟨n, hn, -, hr⟩, hb⟩ := hβ
        exact ⟨n + 1, by simp, by simp, (sepItems_spec hs hn).2 ⟨β₁, β₂, rfl, hr, hb⟩⟩
    | some e =>
      simp only at hi
      split at hi
      · rename_i he
        subst he
        simp at hi; subst hi
        rw [itemsIn_one] at hβ
        exact ⟨1, Nat.le_refl _, by simp, (repeats_one hs).2 hβ⟩
      · split at hi
        · rename_i he
          subst he
          simp at hi
          rcases hi with rfl | rfl
          · rw [itemsIn_one] at hβ
            exact ⟨1, Nat.le_refl _, by simp, form_exact.1 hβ⟩
          · rw [itemsIn_one] at hβ
            exact ⟨2, by simp, by simp, form_exact.1 hβ⟩
        · have := h1 e rfl
          have := h2 (Nat.le_refl _) e rfl
          have hb := half_bounds (show 2 ≤ e by omega) (by omega)
          simp at hi
          rcases hi with rfl | rfl
          · rw [itemsIn_one] at hβ
            obtain ⟨n, hn, hn', hr⟩ := hβ
            simp only at hn hn'
            have := hn' _ rfl
            exact ⟨n, hn, by simp; omega, hr⟩
          · rw [itemsIn_two] at hβ
            obtain ⟨β₁, β₂, rfl, hβ₁, n, hn, hn', hr⟩ := hβ
            simp only at hn hn'
            have := hn' _ rfl
            exact ⟨half e + n, by simp; omega, by simp; omega,
              (repeats_append hs hn).2 ⟨β₁, β₂, rfl, form_exact.1 hβ₁, hr⟩⟩
  · split at hi
    · rename_i hst
      obtain ⟨rfl, rfl⟩ := hst
      simp only [List.mem_singleton] at hi; subst hi
      obtain ⟨β₁, β₂, rfl, hb1, hb⟩ := hβ
      exact ⟨2, Nat.le_refl _, by simp,
        (sepItems_spec hs (Nat.le_refl 1)).2 ⟨β₁, β₂, rfl, (repeats_one hs).2 hb1, hb⟩⟩
    · split at hi
      · rename_i hne1 hne2 he
        subst he
        have hle31 : start ≤ 2 ^ 31 := by have := h3 (by omega); rwa [if_pos rfl] at this
        have hb := half_bounds (show 2 ≤ start by omega) hle31
        simp at hi; subst hi
        rw [itemsIn_two] at hβ
        obtain ⟨β₁, β₂, rfl, hβ₁, hβ₂⟩ := hβ
        refine form_exact.2 ?_
        rw [show start = half start + (start - half start) by omega]
        exact (repeats_append hs (by omega)).2
          ⟨β₁, β₂, rfl, by simpa using form_exact.1 hβ₁, by simpa using form_exact.1 hβ₂⟩
      · rename_i hne1 hne2 he
        simp at hi; subst hi
        rw [itemsIn_two] at hβ
        obtain ⟨β₁, β₂, rfl, hβ₁, n, hn, hn', hr⟩ := hβ
        simp only at hn hn'
        refine ⟨start - 1 + n, by simp; omega, ?_,
          (repeats_append hs hn).2 ⟨β₁, β₂, rfl, form_exact.1 hβ₁, hr⟩⟩
        simp only
        rintro e rfl
        have := hn' (e - start + 1) rfl
        have := h1 e rfl
        omega

theorem plan_sound {k : PartialSequence} (h : KeyOk k) {items : List Item} (hi : items ∈ plan k)
    {β : List Sym} (hβ : ItemsIn Form k items β) : Form k β := by
  obtain ⟨x, start, stop, sepa⟩ := k
  have hi0 := hi
  clear hi
  have zero : start = 0 → ∀ sepa, ∀ items ∈ (if stop = some 0 then [[]] else
      [[], [Item.ref ⟨x, 1, stop, sepa⟩]]),
      ItemsIn Form ⟨x, start, stop, sepa⟩ items β → (∀ s, sepa ≠ .liberal s) →
      Form ⟨x, start, stop, sepa⟩ β := by
    intro hs sepa items hi hβ hl
    subst hs
    have hnil : β = [] → Form ⟨x, 0, stop, sepa⟩ β := by
      rintro rfl
      refine ⟨0, Nat.le_refl _, by simp, ?_⟩
      cases sepa with
      | liberal s => exact absurd rfl (hl s)
      | _ => simp [Repeats]
    split at hi
    · simp at hi; subst hi; exact hnil hβ
    · simp at hi
      rcases hi with rfl | rfl
      · exact hnil hβ
      · rw [itemsIn_one] at hβ
        obtain ⟨n, h1, h2, h3⟩ := hβ
        exact ⟨n, Nat.zero_le _, h2, h3⟩
  have hi := hi0
  unfold plan at hi
  simp only at hi
  cases sepa with
  | liberal s =>
    simp at hi
    rcases hi with rfl | rfl <;> rw [itemsIn_one] at hβ <;> obtain ⟨n, h1, h2, h3⟩ := hβ
    · exact ⟨n, h1, h2, .inl h3⟩
    · exact ⟨n, h1, h2, .inr h3⟩
  | trailing s =>
    simp only at hi
    split at hi
    · rename_i hs; subst hs; exact zero rfl _ items hi hβ (by simp)
    · simp at hi; subst hi
      rw [itemsIn_two] at hβ
      obtain ⟨β₁, β₂, rfl, ⟨n, h1, h2, h3⟩, rfl⟩ := hβ
      simp only at h1
      refine ⟨n, h1, h2, ?_⟩
      simp only [Repeats] at h3 ⊢
      subst h3
      obtain ⟨n, rfl⟩ : ∃ m, n = m + 1 := ⟨n - 1, by omega⟩
      exact properStr_sep x s n
  | proper s =>
    simp only at hi
    split at hi
    · rename_i hs; subst hs; exact zero rfl _ items hi hβ (by simp)
    · exact planPos_sound h (.inr ⟨s, rfl⟩) (by omega) hi hβ
  | null =>
    simp only at hi
    split at hi
    · rename_i hs; subst hs; exact zero rfl _ items hi hβ (by simp)
    · exact planPos_sound h (.inl rfl) (by omega) hi hβ

theorem planPos_complete {x start : Nat} {stop : Option Nat} {sepa : Separator}
    (h : KeyOk ⟨x, start, stop, sepa⟩) (hs : sepa = .null ∨ ∃ s, sepa = .proper s)
    (hpos : 1 ≤ start) {n : Nat} {β : List Sym} (h1 : start ≤ n)
    (h2 : ∀ e, stop = some e → n ≤ e) (h3 : Repeats x n sepa β)
    (hD : ∀ k, KeyOk k → keySize k < keySize ⟨x, start, stop, sepa⟩ → ∀ β, Form k β → D k β)
    (hself : 1 < n → ∀ β, Repeats x (n - 1) sepa β → start = 1 → stop = none →
      D ⟨x, start, stop, sepa⟩ β) :
    ∃ items ∈ planPos ⟨x, start, stop, sepa⟩, ItemsIn D ⟨x, start, stop, sepa⟩ items β := by
  have hps : (match sepa.prefixSeparator with
      | .liberal _ => 3 | .trailing _ => 2 | _ => 1) ≤ 2 := by
    rcases hs with rfl | ⟨s, rfl⟩ <;> simp [Separator.prefixSeparator]
  have hps1 : (match sepa with
      | .liberal _ => 3 | .trailing _ => 2 | _ => 1) = 1 := by
    rcases hs with rfl | ⟨s, rfl⟩ <;> rfl
  have hD' : ∀ k, (∃ items ∈ planPos ⟨x, start, stop, sepa⟩, Item.ref k ∈ items) →
      keySize k < keySize ⟨x, start, stop, sepa⟩ → ∀ β, Form k β → D k β := by
    rintro k ⟨items, hi, hk⟩
    refine hD k (h.refs (items := items) ?_ hk).1
    unfold plan
    rcases hs with rfl | ⟨s, rfl⟩ <;> simp only <;> rw [if_neg (by omega)] <;> exact hi
  obtain ⟨g1, g2, g3⟩ := h
  simp only at g1 g2 g3
  unfold planPos at hD' ⊢
  simp only at hD' ⊢
  split
  · rename_i hst
    subst hst
    rw [if_pos rfl] at hD'
    cases stop with
    | none =>
      by_cases hn : n = 1
      · subst hn
        exact ⟨[.sym x], by simp, itemsIn_one.2 ((repeats_one hs).1 h3)⟩
      · obtain ⟨m, rfl⟩ : ∃ m, n = m + 1 := ⟨n - 1, by omega⟩
        refine ⟨_, List.mem_cons_of_mem _ (List.mem_singleton.2 rfl), ?_⟩
        obtain ⟨β₁, β₂, rfl, hr, hb⟩ :=
          (sepItems_spec (D := D) (self := ⟨x, 1, none, sepa⟩) hs (by omega)).1 h3
        exact ⟨β₁, β₂, rfl, hself (by omega) β₁ (by simpa using hr) rfl rfl, hb⟩
    | some e =>
      simp only at hD' ⊢
      have hne := h2 e rfl
      split
      · rename_i he
        subst he
        obtain rfl : n = 1 := by omega
        exact ⟨[.sym x], by simp, itemsIn_one.2 ((repeats_one hs).1 h3)⟩
      · rename_i he1
        rw [if_neg he1] at hD'
        split
        · rename_i he
          subst he
          rw [if_pos rfl] at hD'
          by_cases hn : n = 1
          · subst hn
            refine ⟨_, List.mem_cons_self .., itemsIn_one.2 (hD' _ ⟨_, List.mem_cons_self .., by
              simp⟩ ?_ β (form_exact.2 h3))⟩
            simp only [keySize, hps1]; simp
          · obtain rfl : n = 2 := by omega
            refine ⟨_, List.mem_cons_of_mem _ (List.mem_singleton.2 rfl), itemsIn_one.2
              (hD' _ ⟨_, List.mem_cons_of_mem _ (List.mem_singleton.2 rfl), by
              simp⟩ ?_ β (form_exact.2 h3))⟩
            simp only [keySize, hps1]; simp
        · rename_i he2
          rw [if_neg he2] at hD'
          have := g2 (Nat.le_refl _) e rfl
          have hb := half_bounds (show 2 ≤ e by omega) (by omega)
          have hb2 := half_ge_two (show 3 ≤ e by omega) (by omega)
          by_cases hn : n ≤ half e
          · refine ⟨_, List.mem_cons_self .., itemsIn_one.2 (hD' _ ⟨_, List.mem_cons_self .., by
              simp⟩ ?_ β ⟨n, h1, by simpa using hn, h3⟩)⟩
            simp only [keySize, hps1, if_neg (show ¬ (1 = e) by omega),
              if_neg (show ¬ (1 = half e) by omega)]
            simp; omega
          · refine ⟨_, List.mem_cons_of_mem _ (List.mem_singleton.2 rfl), itemsIn_two.2 ?_⟩
            rw [show n = half e + (n - half e) by omega] at h3
            obtain ⟨β₁, β₂, rfl, hr1, hr2⟩ := (repeats_append hs (by omega)).1 h3
            refine ⟨β₁, β₂, rfl,
              hD' _ ⟨_, List.mem_cons_of_mem _ (List.mem_singleton.2 rfl), by simp⟩ ?_ β₁
                (form_exact.2 hr1),
              hD' _ ⟨_, List.mem_cons_of_mem _ (List.mem_singleton.2 rfl), by simp⟩ ?_ β₂
                ⟨_, ?_, ?_, hr2⟩⟩
            · simp only [keySize, hps1, if_neg (show ¬ (1 = e) by omega),
                if_neg (show ¬ (half e = 0) by omega)]
              simp; omega
            · simp only [keySize, hps1, if_neg (show ¬ (1 = e) by omega)]
              simp; split <;> omega
            · simp; omega
            · simp; omega
  · rename_i hst
    rw [if_neg hst] at hD'
    split
    · rename_i hst2
      obtain ⟨rfl, rfl⟩ := hst2
      obtain rfl : n = 2 := by have := h2 2 rfl; omega
      refine ⟨_, List.mem_singleton.2 rfl, ?_⟩
      obtain ⟨β₁, β₂, rfl, hr, hb⟩ :=
        (sepItems_spec (D := D) (self := ⟨x, 2, some 2, sepa⟩) hs (Nat.le_refl 1)).1 h3
      exact ⟨β₁, β₂, rfl, (repeats_one hs).1 hr, hb⟩
    · rename_i hst2
      rw [if_neg hst2] at hD'
      split
      · rename_i he
        rw [if_pos he] at hD'
        subst he
        obtain rfl : n = start := by have := h2 start rfl; omega
        have hle31 : n ≤ 2 ^ 31 := by have := g3 (by omega); rwa [if_pos rfl] at this
        have hb := half_bounds (show 2 ≤ n by omega) hle31
        refine ⟨_, List.mem_singleton.2 rfl, itemsIn_two.2 ?_⟩
        have h3' := h3
        rw [show n = half n + (n - half n) by omega] at h3'
        obtain ⟨β₁, β₂, rfl, hr1, hr2⟩ := (repeats_append hs (by omega)).1 h3'
        refine ⟨β₁, β₂, rfl,
          hD' _ ⟨_, List.mem_singleton.2 rfl, by simp⟩ ?_ β₁ (form_exact.2 hr1),
          hD' _ ⟨_, List.mem_singleton.2 rfl, by simp⟩ ?_ β₂ (form_exact.2 hr2)⟩
        · simp only [keySize, hps1, if_neg (show ¬ (n = 0) by omega),
            if_neg (show ¬ (half n = 0) by omega)]
          simp; omega
        · simp only [keySize, hps1, if_neg (show ¬ (n = 0) by omega),
            if_neg (show ¬ (n - half n = 0) by omega)]
          simp; omega
      · rename_i he
        rw [if_neg he] at hD'
        refine ⟨_, List.mem_singleton.2 rfl, itemsIn_two.2 ?_⟩
        rw [show n = start - 1 + (n - (start - 1)) by omega] at h3
        obtain ⟨β₁, β₂, rfl, hr1, hr2⟩ := (repeats_append hs (by omega)).1 h3
        refine ⟨β₁, β₂, rfl,
          hD' _ ⟨_, List.mem_singleton.2 rfl, by simp⟩ ?_ β₁ (form_exact.2 hr1),
          hD' _ ⟨_, List.mem_singleton.2 rfl, by simp⟩ ?_ β₂ ⟨_, ?_, ?_, hr2⟩⟩
        · cases stop with
          | none =>
            simp only [keySize, hps1, if_neg (show ¬ (start = 0) by omega),
              if_neg (show ¬ (start - 1 = 0) by omega)]
            simp; omega
          | some e =>
            have : start ≠ e := fun h => he (by rw [h])
            have := g1 e rfl
            simp only [keySize, hps1, if_neg (show ¬ (start = 0) by omega),
              if_neg (show ¬ (start - 1 = 0) by omega), if_neg (show ¬ (start = e) by omega)]
            simp; omega
        · cases stop with
          | none =>
            simp only [keySize, hps1, if_neg (show ¬ (start = 0) by omega), Option.map_none]
            simp; omega
          | some e =>
            have : start ≠ e := fun h => he (by rw [h])
            have := g1 e rfl
            simp only [keySize, hps1, if_neg (show ¬ (start = 0) by omega), Option.map_some,
              if_neg (show ¬ (start = e) by omega)]
            simp; split <;> omega
        · simp; omega
        · simp only [Option.map_eq_some_iff]
          rintro _ ⟨e, he', rfl⟩
          have := h2 e he'
          have := g1 e he'
          omega

/-- Induction over plans: whatever contains the strings of its own plans contains all. -/
theorem plan_ind (hD : ∀ k β, KeyOk k → (∃ items ∈ plan k, ItemsIn D k items β) → D k β)
    {k : PartialSequence} (hk : KeyOk k) {β : List Sym} (hβ : Form k β) : D k β := by
  obtain ⟨m, hm⟩ : ∃ m, m = keySize k := ⟨_, rfl⟩
  induction m using Nat.strong_induction_on generalizing k β with
  | _ m ih =>
    have ih : ∀ k', KeyOk k' → keySize k' < keySize k → ∀ β, Form k' β → D k' β :=
      fun k' h1 h2 β h3 => ih _ (hm ▸ h2) h1 h3 rfl
    obtain ⟨x, start, stop, sepa⟩ := k
    obtain ⟨n, h1, h2, h3⟩ := hβ
    simp only at h1 h2 h3
    have hrefs := fun items hi k' hk' => (hk.refs (items := items) (k' := k') hi hk').1
    have pos : (sepa = .null ∨ ∃ s, sepa = .proper s) → 1 ≤ start →
        D ⟨x, start, stop, sepa⟩ β := by
      intro hs hpos
      induction n using Nat.strong_induction_on generalizing β with
      | _ n ihn =>
        refine hD _ _ hk ?_
        obtain ⟨items, hi, hb⟩ := planPos_complete hk hs hpos h1 h2 h3 ih (fun hn β hb e1 e2 =>
          ihn (n - 1) (by omega) (by omega) (by rw [e2]; simp) hb)
        refine ⟨items, ?_, hb⟩
        unfold plan
        rcases hs with rfl | ⟨s, rfl⟩ <;> simp only <;> rw [if_neg (by omega)] <;> exact hi
    have zero : start = 0 → (∀ s, sepa ≠ .liberal s) →
        (∀ items, items ∈ (if stop = some 0 then [[]] else
          [[], [Item.ref ⟨x, 1, stop, sepa⟩]]) → items ∈ plan ⟨x, start, stop, sepa⟩) →
        D ⟨x, start, stop, sepa⟩ β := by
      intro hs hl hpl
      subst hs
      refine hD _ _ hk ?_
      by_cases hn : n = 0
      · subst hn
        refine ⟨[], hpl _ ?_, ?_⟩
        · split <;> simp
        · cases sepa with
          | liberal s => exact absurd rfl (hl s)
          | _ => simpa [Repeats, ItemsIn] using h3
      · have hst : stop ≠ some 0 := by
          rintro rfl
          have := h2 0 rfl
          omega
        rw [if_neg hst] at hpl
        refine ⟨_, hpl _ (List.mem_cons_of_mem _ (List.mem_singleton.2 rfl)), itemsIn_one.2
          (ih _ (hrefs _ (hpl _ (List.mem_cons_of_mem _ (List.mem_singleton.2 rfl))) _
            (List.mem_singleton.2 rfl)) ?_ β ⟨n, by simp only; omega, h2, h3⟩)⟩
        cases stop with
        | none => simp [keySize]
        | some e =>
          have : e ≠ 0 := fun h => hst (by rw [h])
          simp only [keySize, if_neg (show ¬ (0 = e) by omega)]
          simp
          split <;> omega
    cases sepa with
    | liberal s =>
      refine hD _ _ hk ?_
      rcases h3 with h3 | h3
      · exact ⟨_, List.mem_cons_self .., itemsIn_one.2 (ih _ (hrefs _ (List.mem_cons_self ..) _
          (List.mem_singleton.2 rfl)) (by simp only [keySize]; omega) β ⟨n, h1, h2, h3⟩)⟩
      · exact ⟨_, List.mem_cons_of_mem _ (List.mem_singleton.2 rfl), itemsIn_one.2 (ih _
          (hrefs _ (List.mem_cons_of_mem _ (List.mem_singleton.2 rfl)) _
          (List.mem_singleton.2 rfl)) (by simp only [keySize]; omega) β ⟨n, h1, h2, h3⟩)⟩
    | trailing s =>
      by_cases hs : start = 0
      · refine zero hs (by simp) fun items hi => ?_
        unfold plan
        simp only
        rw [if_pos hs]
        subst hs
        exact hi
      · refine hD _ _ hk ?_
        have hmem : [Item.ref ⟨x, start, stop, .proper s⟩, .sym s] ∈
            plan ⟨x, start, stop, .trailing s⟩ := by
          unfold plan
          simp only
          rw [if_neg hs]
          simp
        obtain ⟨m, rfl⟩ : ∃ m, n = m + 1 := ⟨n - 1, by omega⟩
        refine ⟨_, hmem, itemsIn_two.2 ⟨properStr x s (m + 1), [s], ?_, ih _ (hrefs _ hmem _
          (by simp)) (by simp only [keySize]; omega) _ ⟨m + 1, h1, h2, rfl⟩, rfl⟩⟩
        rw [properStr_sep]
        exact h3
    | proper s =>
      by_cases hs : start = 0
      · refine zero hs (by simp) fun items hi => ?_
        unfold plan
        simp only
        rw [if_pos hs]
        subst hs
        exact hi
      · exact pos (.inr ⟨s, rfl⟩) (by omega)
    | null =>
      by_cases hs : start = 0
      · refine zero hs (by simp) fun items hi => ?_
        unfold plan
        simp only
        rw [if_pos hs]
        subst hs
        exact hi
      · exact pos (.inl rfl) (by omega)

end Verif
