import Verif.Proofs.SeqLang
import Verif.Proofs.TreesCut

/-! # Sequence rewriting: the parse trees -/

namespace Verif

/-! ## Lengths of repetitions -/

/-- Length of `n` repetitions. -/
def sepLen : Separator → Nat → Nat
  | .null, n => n
  | .proper _, n => 2 * n - 1
  | .trailing _, n => 2 * n
  | .liberal _, n => n

/-- Not `Liberal`. -/
def Strict (sp : Separator) : Prop := ∀ s, sp ≠ .liberal s

theorem repeats_length {x : Sym} {n : Nat} {sp : Separator} {β : List Sym} (hs : Strict sp)
    (h : Repeats x n sp β) : β.length = sepLen sp n := by
  cases sp with
  | null => simp only [Repeats] at h; subst h; simp [sepLen]
  | proper s =>
    simp only [Repeats] at h
    subst h
    rw [List.length_intersperse, List.length_replicate]
    rfl
  | trailing s =>
    simp only [Repeats] at h
    subst h
    simp [sepLen, List.length_flatten, Nat.mul_comm]
  | liberal s => exact absurd rfl (hs s)

theorem Strict.prefix {sp : Separator} (h : Strict sp) : Strict sp.prefixSeparator := by
  cases sp with
  | liberal s => exact absurd rfl (h s)
  | _ => intro s; simp [Separator.prefixSeparator]

/-! ## Unique splitting -/

/-- A string of the items is cut in at most one way. -/
def USplit (k : PartialSequence) : List Item → Prop
  | [] => True
  | i :: is => (∀ u v u' v', u ++ v = u' ++ v' → ItemIn Form k i u → ItemIn Form k i u' →
      ItemsIn Form k is v → ItemsIn Form k is v' → u = u') ∧ USplit k is

theorem usplit_left {k : PartialSequence} {i : Item} {is : List Item} (l : Nat)
    (h : ∀ u, ItemIn Form k i u → u.length = l) (hs : USplit k is) : USplit k (i :: is) := by
  refine ⟨fun u v u' v' e h1 h2 _ _ => ?_, hs⟩
  exact (List.append_inj e ((h u h1).trans (h u' h2).symm)).1

theorem usplit_right {k : PartialSequence} {i : Item} {is : List Item} (l : Nat)
    (h : ∀ u, ItemsIn Form k is u → u.length = l) (hs : USplit k is) : USplit k (i :: is) := by
  refine ⟨fun u v u' v' e _ _ h1 h2 => ?_, hs⟩
  exact (List.append_inj' e ((h v h1).trans (h v' h2).symm)).1

theorem usplit_sym {k : PartialSequence} {s : Sym} {is : List Item} (hs : USplit k is) :
    USplit k (.sym s :: is) := usplit_left 1 (fun u h => by cases h; rfl) hs

theorem usplit_one {k : PartialSequence} (i : Item) : USplit k [i] :=
  usplit_right 0 (fun u h => by simp only [ItemsIn] at h; subst h; rfl) trivial

theorem usplit_exact {k : PartialSequence} {x n : Nat} {sp : Separator} (hsp : Strict sp)
    {is : List Item} (hs : USplit k is) : USplit k (.ref ⟨x, n, some n, sp⟩ :: is) :=
  usplit_left (sepLen sp n) (fun _ h => repeats_length hsp (form_exact.1 h)) hs

theorem sepItems_length {k : PartialSequence} {sp : Separator} {x : Sym} {u : List Sym}
    (h : ItemsIn Form k (sepItems sp ++ [.sym x]) u) :
    u.length = (sepItems sp ++ [Item.sym x]).length := by
  cases sp with
  | proper s =>
    simp only [sepItems, List.cons_append, List.nil_append, itemsIn_two, ItemIn] at h
    obtain ⟨_, _, rfl, rfl, rfl⟩ := h
    rfl
  | _ =>
    simp only [sepItems, List.nil_append, itemsIn_one, ItemIn] at h
    subst h
    rfl

theorem usplit_sepItems {k : PartialSequence} {sp : Separator} {x : Sym} :
    USplit k (sepItems sp ++ [.sym x]) := by
  cases sp with
  | proper s => exact usplit_sym (usplit_one _)
  | _ => exact usplit_one _

theorem planPos_usplit {x start : Nat} {stop : Option Nat} {sepa : Separator} (hs : Strict sepa)
    (k : PartialSequence) {items : List Item} (hi : items ∈ planPos ⟨x, start, stop, sepa⟩) :
    USplit k items := by
  unfold planPos at hi
  simp only at hi
  split at hi
  · cases stop with
    | none =>
      simp only [List.mem_cons, List.not_mem_nil, or_false] at hi
      rcases hi with rfl | rfl
      · exact usplit_one _
      · exact usplit_right _ (fun u h => sepItems_length h) usplit_sepItems
    | some e =>
      simp only at hi
      split at hi
      · rw [List.mem_singleton] at hi; subst hi; exact usplit_one _
      · split at hi
        · simp only [List.mem_cons, List.not_mem_nil, or_false] at hi
          rcases hi with rfl | rfl <;> exact usplit_one _
        · simp only [List.mem_cons, List.not_mem_nil, or_false] at hi
          rcases hi with rfl | rfl
          · exact usplit_one _
          · exact usplit_exact hs.prefix (usplit_one _)
  · split at hi
    · rw [List.mem_singleton] at hi; subst hi
      exact usplit_sym usplit_sepItems
    · split at hi <;> rw [List.mem_singleton] at hi <;> subst hi <;>
        exact usplit_exact hs.prefix (usplit_one _)

theorem plan_usplit {k : PartialSequence} {items : List Item} (hi : items ∈ plan k) :
    USplit k items := by
  obtain ⟨x, start, stop, sepa⟩ := k
  generalize hk : (⟨x, start, stop, sepa⟩ : PartialSequence) = k at hi ⊢
  have hi0 := hi
  rw [← hk] at hi
  unfold plan at hi
  simp only at hi
  have zero : ∀ (k' : PartialSequence) items, items ∈ (if stop = some 0 then [[]] else
      [[], [Item.ref k']]) → USplit k items := by
    intro k' items hi
    split at hi
    · rw [List.mem_singleton] at hi; subst hi; trivial
    · simp only [List.mem_cons, List.not_mem_nil, or_false] at hi
      rcases hi with rfl | rfl
      · trivial
      · exact usplit_one _
  cases sepa with
  | liberal s =>
    simp only [List.mem_cons, List.not_mem_nil, or_false] at hi
    rcases hi with rfl | rfl <;> exact usplit_one _
  | trailing s =>
    simp only at hi
    split at hi
    · exact zero _ _ hi
    · rw [List.mem_singleton] at hi; subst hi
      exact usplit_right 1 (fun u h => by
        simp only [itemsIn_one, ItemIn] at h; subst h; rfl) (usplit_one _)
  | proper s =>
    simp only at hi
    split at hi
    · exact zero _ _ hi
    · exact planPos_usplit (by intro s; simp) k hi
  | null =>
    simp only at hi
    split at hi
    · exact zero _ _ hi
    · exact planPos_usplit (by intro s; simp) k hi

/-! ## Alternatives have no string in common -/

theorem sepLen_inj {sp : Separator} {m n : Nat} (hm : 1 ≤ m) (hn : 1 ≤ n)
    (h : sepLen sp m = sepLen sp n) : m = n := by
  cases sp <;> simp only [sepLen] at h <;> omega

theorem repeats_count {x : Sym} {m n : Nat} {sp : Separator} {β : List Sym} (hs : Strict sp)
    (hm : 1 ≤ m) (hn : 1 ≤ n) (h : Repeats x m sp β) (h' : Repeats x n sp β) : m = n :=
  sepLen_inj hm hn ((repeats_length hs h).symm.trans (repeats_length hs h'))

theorem planPos_disjoint {x start : Nat} {stop : Option Nat} {sepa : Separator}
    (h : KeyOk ⟨x, start, stop, sepa⟩) (hs : sepa = .null ∨ ∃ s, sepa = .proper s)
    {items items' : List Item}
    (hi : items ∈ planPos ⟨x, start, stop, sepa⟩) (hi' : items' ∈ planPos ⟨x, start, stop, sepa⟩)
    {β : List Sym} (hβ : ItemsIn Form ⟨x, start, stop, sepa⟩ items β)
    (hβ' : ItemsIn Form ⟨x, start, stop, sepa⟩ items' β) : items = items' := by
  have hst : Strict sepa := by rcases hs with rfl | ⟨s, rfl⟩ <;> intro s <;> simp
  obtain ⟨h1, h2, -⟩ := h
  simp only at h1 h2
  -- the first alternative has fewer repetitions
  have key : ∀ {a b : List Item} {m : Nat}, 1 ≤ m →
      (∀ β, ItemsIn Form ⟨x, start, stop, sepa⟩ a β → ∃ n, 1 ≤ n ∧ n ≤ m ∧ Repeats x n sepa β) →
      (∀ β, ItemsIn Form ⟨x, start, stop, sepa⟩ b β → ∃ n, m < n ∧ Repeats x n sepa β) →
      items ∈ [a, b] → items' ∈ [a, b] → items = items' := by
    intro a b m hm ha hb hi hi'
    have no : ItemsIn Form ⟨x, start, stop, sepa⟩ a β → ItemsIn Form ⟨x, start, stop, sepa⟩ b β →
        False := by
      intro h3 h4
      obtain ⟨n, n1, n2, n3⟩ := ha β h3
      obtain ⟨n', n4, n5⟩ := hb β h4
      have := repeats_count hst n1 (by omega) n3 n5
      omega
    simp only [List.mem_cons, List.not_mem_nil, or_false] at hi hi'
    rcases hi with rfl | rfl <;> rcases hi' with rfl | rfl
    · rfl
    · exact (no hβ hβ').elim
    · exact (no hβ' hβ).elim
    · rfl
  unfold planPos at hi hi'
  simp only at hi hi'
  by_cases e1 : start = 1
  · subst e1
    rw [if_pos rfl] at hi hi'
    cases stop with
    | none =>
      refine key (m := 1) (by omega) (fun β hb => ?_) (fun β hb => ?_) hi hi'
      · rw [itemsIn_one] at hb
        exact ⟨1, by omega, by omega, (repeats_one hs).2 hb⟩
      · obtain ⟨β₁, β₂, rfl, ⟨n, hn, -, hr⟩, hb⟩ := hb
        simp only at hn
        exact ⟨n + 1, by omega, (sepItems_spec hs hn).2 ⟨β₁, β₂, rfl, hr, hb⟩⟩
    | some e =>
      simp only at hi hi'
      by_cases e2 : e = 1
      · rw [if_pos e2, List.mem_singleton] at hi hi'
        rw [hi, hi']
      · rw [if_neg e2] at hi hi'
        by_cases e3 : e = 2
        · rw [if_pos e3] at hi hi'
          refine key (m := 1) (by omega) (fun β hb => ?_) (fun β hb => ?_) hi hi'
          · rw [itemsIn_one] at hb
            exact ⟨1, by omega, by omega, form_exact.1 hb⟩
          · rw [itemsIn_one] at hb
            exact ⟨2, by omega, form_exact.1 hb⟩
        · rw [if_neg e3] at hi hi'
          have := h1 e rfl
          have := h2 (Nat.le_refl _) e rfl
          have hb' := half_bounds (show 2 ≤ e by omega) (by omega)
          refine key (m := half e) (by omega) (fun β hb => ?_) (fun β hb => ?_) hi hi'
          · rw [itemsIn_one] at hb
            obtain ⟨n, hn, hn', hr⟩ := hb
            exact ⟨n, hn, hn' _ rfl, hr⟩
          · rw [itemsIn_two] at hb
            obtain ⟨β₁, β₂, rfl, hβ₁, n, hn, hn', hr⟩ := hb
            simp only at hn
            exact ⟨half e + n, by omega,
              (repeats_append hs hn).2 ⟨β₁, β₂, rfl, form_exact.1 hβ₁, hr⟩⟩
  · rw [if_neg e1] at hi hi'
    by_cases e2 : start = 2 ∧ stop = some 2
    · rw [if_pos e2, List.mem_singleton] at hi hi'
      rw [hi, hi']
    · rw [if_neg e2] at hi hi'
      by_cases e3 : some start = stop
      · rw [if_pos e3, List.mem_singleton] at hi hi'
        rw [hi, hi']
      · rw [if_neg e3, List.mem_singleton] at hi hi'
        rw [hi, hi']

theorem plan_disjoint {k : PartialSequence} (h : KeyOk k)
    (hl : ∀ s, k.separator = .liberal s → 1 ≤ k.start) {items items' : List Item}
    (hi : items ∈ plan k) (hi' : items' ∈ plan k) {β : List Sym} (hβ : ItemsIn Form k items β)
    (hβ' : ItemsIn Form k items' β) : items = items' := by
  obtain ⟨x, start, stop, sepa⟩ := k
  simp only at hl
  have zero : Strict sepa → items ∈ (if stop = some 0 then [[]] else
      [[], [Item.ref ⟨x, 1, stop, sepa⟩]]) → items' ∈ (if stop = some 0 then [[]] else
      [[], [Item.ref ⟨x, 1, stop, sepa⟩]]) → items = items' := by
    intro hst hi hi'
    have no : ItemsIn Form ⟨x, start, stop, sepa⟩ [] β →
        ItemsIn Form ⟨x, start, stop, sepa⟩ [Item.ref ⟨x, 1, stop, sepa⟩] β → False := by
      intro h3 h4
      simp only [ItemsIn] at h3
      subst h3
      rw [itemsIn_one] at h4
      obtain ⟨n, hn, -, hr⟩ := h4
      simp only at hn hr
      have := repeats_length hst hr
      rw [List.length_nil] at this
      cases sepa with
      | liberal s => exact absurd rfl (hst s)
      | _ => simp only [sepLen] at this; omega
    split at hi
    · rename_i e
      rw [if_pos e] at hi'
      rw [List.mem_singleton] at hi hi'
      rw [hi, hi']
    · rename_i e
      rw [if_neg e] at hi'
      simp only [List.mem_cons, List.not_mem_nil, or_false] at hi hi'
      rcases hi with rfl | rfl <;> rcases hi' with rfl | rfl
      · rfl
      · exact (no hβ hβ').elim
      · exact (no hβ' hβ).elim
      · rfl
  unfold plan at hi hi'
  simp only at hi hi'
  cases sepa with
  | liberal s =>
    have hs := hl s rfl
    have no : ItemsIn Form ⟨x, start, stop, .liberal s⟩ [Item.ref ⟨x, start, stop, .proper s⟩] β →
        ItemsIn Form ⟨x, start, stop, .liberal s⟩ [Item.ref ⟨x, start, stop, .trailing s⟩] β →
        False := by
      intro h3 h4
      rw [itemsIn_one] at h3 h4
      obtain ⟨n, hn, -, hr⟩ := h3
      obtain ⟨n', hn', -, hr'⟩ := h4
      simp only at hn hn'
      have e1 := repeats_length (by intro s; simp) hr
      have e2 := repeats_length (by intro s; simp) hr'
      simp only [sepLen] at e1 e2
      omega
    simp only [List.mem_cons, List.not_mem_nil, or_false] at hi hi'
    rcases hi with rfl | rfl <;> rcases hi' with rfl | rfl
    · rfl
    · exact (no hβ hβ').elim
    · exact (no hβ' hβ).elim
    · rfl
  | trailing s =>
    simp only at hi hi'
    by_cases e : start = 0
    · subst e
      rw [if_pos rfl] at hi hi'
      exact zero (by intro s; simp) hi hi'
    · rw [if_neg e] at hi hi'
      rw [List.mem_singleton] at hi hi'
      rw [hi, hi']
  | proper s =>
    simp only at hi hi'
    by_cases e : start = 0
    · subst e
      rw [if_pos rfl] at hi hi'
      exact zero (by intro s; simp) hi hi'
    · rw [if_neg e] at hi hi'
      exact planPos_disjoint h (.inr ⟨s, rfl⟩) hi hi' hβ hβ'
  | null =>
    simp only at hi hi'
    by_cases e : start = 0
    · subst e
      rw [if_pos rfl] at hi hi'
      exact zero (by intro s; simp) hi hi'
    · rw [if_neg e] at hi hi'
      exact planPos_disjoint h (.inl rfl) hi hi' hβ hβ'

/-- Only the sequence itself can be `Liberal`. -/
theorem plan_ref_strict {k k' : PartialSequence} {items : List Item} (hi : items ∈ plan k)
    (hk : Item.ref k' ∈ items) : Strict k'.separator := by
  obtain ⟨x, a, stop, sp⟩ := k
  intro s
  unfold plan planPos at hi
  simp only at hi
  cases sp with
  | liberal s' =>
    simp only [List.mem_cons, List.not_mem_nil, or_false] at hi
    rcases hi with rfl | rfl <;> simp at hk <;> subst hk <;> simp
  | _ =>
    simp only [sepItems, Separator.prefixSeparator] at hi
    repeat' split at hi
    all_goals
      simp only [List.mem_cons, List.not_mem_nil, or_false] at hi
      rcases hi with rfl | rfl
    all_goals
      simp at hk
    all_goals
      first
      | (subst hk; simp)
      | (rcases hk with rfl | rfl <;> simp)

/-! ## Trees down to the elements and separators -/

/-- The symbol of a key. -/
def KeyOf (M : List (PartialSequence × Sym)) (top : Sequence) (k : PartialSequence) (y : Sym) :
    Prop := k = top.key ∧ y = top.lhs ∨ (k, y) ∈ M

/-- What the trees depend on. -/
structure SeqRules (rules : List (Sym × List Sym)) (X : Sym → Prop)
    (M : List (PartialSequence × Sym)) (top : Sequence) : Prop where
  keyFun : ∀ k k' y, KeyOf M top k y → KeyOf M top k' y → k = k'
  symFun : ∀ k y y', (k, y) ∈ M → (k, y') ∈ M → y = y'
  ok : ∀ k y, KeyOf M top k y → KeyOk k
  lib : ∀ k y, KeyOf M top k y → ∀ s, k.separator = .liberal s → 1 ≤ k.start
  syms : ∀ k y, KeyOf M top k y → ∀ items ∈ plan k, ∀ s, Item.sym s ∈ items → X s
  notX : ∀ k y, KeyOf M top k y → ¬ X y
  made : ∀ (i : Nat) k y α, rules[i]? = some (y, α) → KeyOf M top k y →
    ∃ items ∈ plan k, Inst M y items α
  done : ∀ k y, KeyOf M top k y → ∀ items ∈ plan k, ∃ (i : Nat) (α : List Sym),
    Inst M y items α ∧ rules[i]? = some (y, α)
  unique : ∀ (i i' : Nat) k y α, KeyOf M top k y → rules[i]? = some (y, α) →
    rules[i']? = some (y, α) → i = i'

namespace SeqRules

variable {rules : List (Sym × List Sym)} {X : Sym → Prop} {M : List (PartialSequence × Sym)}
  {top : Sequence}

theorem inst_fun (h : SeqRules rules X M top) {y : Sym} {items : List Item} {α α' : List Sym}
    (h1 : Inst M y items α) (h2 : Inst M y items α') : α = α' := by
  unfold Inst at h1 h2
  induction h1 generalizing α' with
  | nil => cases h2; rfl
  | @cons i a items α h1 _ ih =>
    cases h2 with
    | @cons _ a' _ α' h3 h4 =>
      rw [ih h4]
      congr 1
      cases i with
      | sym s => exact h1.trans h3.symm
      | self => exact h1.trans h3.symm
      | ref k => exact h.symFun k a a' h1 h3

/-- The item at a place refers to the key of the symbol there. -/
theorem item_key {k : PartialSequence} {y : Sym} (hk : KeyOf M top k y)
    {i : Item} (hs : ∀ s, i = .sym s → X s) {A : Sym} (hi : InstItem M y i A) (hA : ¬ X A) :
    ∃ k', KeyOf M top k' A ∧ ∀ β, ItemIn Form k i β ↔ Form k' β := by
  cases i with
  | sym s => exact absurd (hi ▸ hs s rfl) hA
  | self =>
    cases hi
    exact ⟨k, hk, fun β => Iff.rfl⟩
  | ref k' => exact ⟨k', .inr hi, fun β => Iff.rfl⟩

theorem sound (h : SeqRules rules X M top) {α : List Sym} {f : Forest} {β : List Sym}
    (hf : IsForest rules X α f β) {k : PartialSequence} {y : Sym} (hk : KeyOf M top k y)
    {items : List Item} (hs : ∀ s, Item.sym s ∈ items → X s) (hi : Inst M y items α) :
    ItemsIn Form k items β := by
  induction hf generalizing k y items with
  | nil => cases hi; rfl
  | @leaf s α f β hX _ ih =>
    cases hi with
    | @cons i _ items _ h1 h2 =>
      refine ⟨[s], β, rfl, ?_, ih hk (fun s hs' => hs s (by simp [hs'])) h2⟩
      cases i with
      | sym s' => cases h1; rfl
      | self => cases h1; exact absurd hX (h.notX k _ hk)
      | ref k' => exact absurd hX (h.notX k' s (.inr h1))
  | @node i A c f γ u v α hr hX hc _ ihc ih =>
    cases hi with
    | @cons it _ items _ h1 h2 =>
      refine ⟨u, v, rfl, ?_, ih hk (fun s hs' => hs s (by simp [hs'])) h2⟩
      obtain ⟨k', hk', e⟩ := item_key hk (fun s e => hs s (by simp [e])) h1 hX
      rw [e]
      obtain ⟨items', hi', hin⟩ := h.made i k' A γ hr hk'
      exact plan_sound (h.ok k' A hk') hi' (ihc hk' (h.syms k' A hk' items' hi') hin)

theorem forest_unique (h : SeqRules rules X M top) {α : List Sym} {f f' : Forest} {β : List Sym}
    (hf : IsForest rules X α f β) (hf' : IsForest rules X α f' β) {k : PartialSequence} {y : Sym}
    (hk : KeyOf M top k y) {items : List Item} (hs : ∀ s, Item.sym s ∈ items → X s)
    (hi : Inst M y items α) (hu : USplit k items) : f = f' := by
  induction hf generalizing f' k y items with
  | nil => cases hf'; rfl
  | @leaf s α f β hX _ ih =>
    cases hi with
    | cons h1 h2 =>
      generalize hw : s :: β = w at hf'
      cases hf' with
      | leaf _ hf' =>
        cases hw
        rw [ih hf' hk (fun s hs' => hs s (by simp [hs'])) h2 hu.2]
      | node _ hn => exact absurd hX hn
  | @node i A c f γ u v α hr hX hc hf₀ ihc ih =>
    cases hi with
    | @cons it _ items _ h1 h2 =>
      generalize hw : u ++ v = w at hf'
      cases hf' with
      | leaf hX' => exact absurd hX' hX
      | @node i' _ c' f' γ' u' v' _ hr' _ hc' hf' =>
        have hs' : ∀ s, Item.sym s ∈ items → X s := fun s hs' => hs s (by simp [hs'])
        obtain ⟨k', hk', e⟩ := item_key hk (fun s e => hs s (by simp [e])) h1 hX
        obtain ⟨is, hi, hin⟩ := h.made i k' A γ hr hk'
        obtain ⟨is', hi', hin'⟩ := h.made i' k' A γ' hr' hk'
        have a1 := h.sound hc hk' (h.syms k' A hk' is hi) hin
        have a2 := h.sound hc' hk' (h.syms k' A hk' is' hi') hin'
        have a3 := h.sound hf₀ hk hs' h2
        have a4 := h.sound hf' hk hs' h2
        obtain rfl : u = u' := hu.1 u v u' v' hw ((e u).2 (plan_sound (h.ok k' A hk') hi a1))
          ((e u').2 (plan_sound (h.ok k' A hk') hi' a2)) a3 a4
        obtain rfl : v = v' := List.append_cancel_left hw
        obtain rfl := plan_disjoint (h.ok k' A hk') (h.lib k' A hk') hi hi' a1 a2
        obtain rfl := h.inst_fun hin hin'
        obtain rfl := h.unique i i' k' A γ hk' hr hr'
        rw [ihc hc' hk' (h.syms k' A hk' is hi) hin (plan_usplit hi), ih hf' hk hs' h2 hu.2]

theorem exists_forest (h : SeqRules rules X M top) {k : PartialSequence} {y : Sym}
    (hk : KeyOf M top k y) {β : List Sym} (hβ : Form k β) : ∃ f, IsForest rules X [y] f β := by
  refine plan_ind (D := fun k β => ∀ y, KeyOf M top k y → ∃ f, IsForest rules X [y] f β) ?_
    (h.ok k y hk) hβ y hk
  rintro k β - ⟨items, hi, hitems⟩ y hy
  obtain ⟨i, α, h1, h2⟩ := h.done k y hy items hi
  have hsy := h.syms k y hy items hi
  suffices ∃ c, IsForest rules X α c β by
    obtain ⟨c, hc⟩ := this
    refine ⟨.node i c .nil, ?_⟩
    have := IsForest.node h2 (h.notX k y hy) hc .nil
    rwa [List.append_nil] at this
  clear h2 hi
  unfold Inst at h1
  induction h1 generalizing β with
  | nil =>
    simp only [ItemsIn] at hitems
    subst hitems
    exact ⟨.nil, .nil⟩
  | @cons it a items α h1 h2 ih =>
    obtain ⟨β₁, β₂, rfl, h3, h4⟩ := hitems
    obtain ⟨c₂, hc₂⟩ := ih β₂ h4 (fun s hs => hsy s (by simp [hs]))
    have : ∃ f, IsForest rules X [a] f β₁ := by
      cases it with
      | sym s =>
        cases h1
        simp only [ItemIn] at h3
        subst h3
        exact ⟨_, .leaf (hsy _ (by simp)) .nil⟩
      | self => cases h1; exact h3 _ hy
      | ref k' => exact h3 _ (.inr h1)
    obtain ⟨c₁, hc₁⟩ := this
    exact ⟨_, hc₁.append hc₂⟩

/-- The trees of the left side down to elements and separators. -/
theorem form_iff (h : SeqRules rules X M top) (β : List Sym) :
    Form top.key β ↔ ∃ f, IsForest rules X [top.lhs] f β := by
  have hk : KeyOf M top top.key top.lhs := .inl ⟨rfl, rfl⟩
  refine ⟨fun hβ => h.exists_forest hk hβ, fun ⟨f, hf⟩ => ?_⟩
  have hX := h.notX _ _ hk
  generalize hα : [top.lhs] = α at hf
  cases hf with
  | nil => cases hα
  | leaf hX' => cases hα; exact absurd hX' hX
  | @node i A c f γ u v α hr _ hc hf =>
    cases hα
    cases hf
    obtain ⟨items, hi, hin⟩ := h.made i _ _ γ hr hk
    rw [List.append_nil]
    exact plan_sound (h.ok _ _ hk) hi (h.sound hc hk (h.syms _ _ hk items hi) hin)

theorem top_unique (h : SeqRules rules X M top) (β : List Sym) (f f' : Forest)
    (hf : IsForest rules X [top.lhs] f β) (hf' : IsForest rules X [top.lhs] f' β) : f = f' := by
  have hk : KeyOf M top top.key top.lhs := .inl ⟨rfl, rfl⟩
  exact h.forest_unique hf hf' hk (items := [.self]) (by simp) (.cons rfl .nil) (usplit_one _)

end SeqRules

/-! ## The rules made by the rewriting -/

section
variable {p : Profile} {L : PartialSequence → Prop} {g : Cfg} {top : Sequence} {P : Productions}
  {Q : List (Sym × List Sym)} {st : SeqState}

/-- The element and the separator of a sequence rule. -/
def SeqLeaf (top : Sequence) (a : Sym) : Prop := a = top.rhs ∨ top.separator.sym? = some a

theorem sepClosure_sym {sp sp' : Separator} (h : sp' ∈ sepClosure sp) {s : Sym}
    (hs : sp'.sym? = some s) : sp.sym? = some s := by
  cases sp <;> simp [sepClosure] at h
  · rcases h with rfl | rfl <;> exact hs
  · rcases h with rfl | rfl <;> exact hs
  · rcases h with rfl | rfl | rfl <;> exact hs
  · subst h; exact hs

theorem LInv.seqRules (h : LInv p g L top P Q st) (hs : st.stack = []) (hwf : g.WF)
    (hok : KeyOk top.key) (hL : ∀ k, L k → KeyOk k ∧ seqKeys top k ∧ Strict k.separator)
    (hno : ∀ r ∈ g.rules, r.lhs ≠ top.lhs) (hX : ¬ SeqLeaf top top.lhs) (hin : SeqIn g top)
    {top' : Sequence} (hsub : ∀ k y, KeyOf st.map top' k y → KeyOf st.map top k y)
    (hlib : ∀ s, top'.separator = .liberal s → 1 ≤ top'.start) :
    SeqRules (g.pairs ++ Q) (SeqLeaf top) st.map top' := by
  have hge : ∀ k y, (k, y) ∈ st.map → g.numSyms ≤ y := fun k y hk => h.inv.ge _ hk
  have hkeys : ∀ k y, KeyOf st.map top k y → KeyOk k ∧ k ∈ keyList top.key := by
    rintro k y (⟨rfl, rfl⟩ | hk)
    · exact ⟨hok, self_mem_keyList _⟩
    · obtain ⟨h1, h2, h3⟩ := hL k (h.inv.allowed _ hk)
      exact ⟨h1, h2.2⟩
  have hlibs : ∀ k y, KeyOf st.map top' k y → ∀ s, k.separator = .liberal s → 1 ≤ k.start := by
    rintro k y (⟨rfl, rfl⟩ | hk)
    · exact hlib
    · obtain ⟨-, -, h3⟩ := hL k (h.inv.allowed _ hk)
      exact fun s e => absurd e (h3 s)
  have hnot : ∀ (i : Nat) k y α, KeyOf st.map top k y → g.pairs[i]? ≠ some (y, α) := by
    intro i k y α hk e
    obtain ⟨r, hr, e⟩ := List.mem_map.1 (List.mem_of_getElem? e)
    cases e
    rcases hk with ⟨-, e⟩ | hk
    · exact hno r hr e
    · have := hge _ _ hk
      have := (hwf r hr).1
      omega
  have hQ : ∀ (i : Nat) k y α, KeyOf st.map top k y → (g.pairs ++ Q)[i]? = some (y, α) →
      g.pairs.length ≤ i ∧ Q[i - g.pairs.length]? = some (y, α) := by
    intro i k y α hk e
    rcases Nat.lt_or_ge i g.pairs.length with hlt | hge
    · rw [List.getElem?_append_left hlt] at e
      exact absurd e (hnot i k y α hk)
    · rw [List.getElem?_append_right hge] at e
      exact ⟨hge, e⟩
  have hfun : ∀ k k' y, KeyOf st.map top k y → KeyOf st.map top k' y → k = k' := by
    rintro k k' y (⟨rfl, rfl⟩ | hk) (⟨rfl, e⟩ | hk')
    · rfl
    · have := hge _ _ hk'
      have := h.topLt
      omega
    · subst e
      have := hge _ _ hk
      have := h.topLt
      omega
    · exact map_vals_inj h.inv.vals hk hk'
  refine ⟨fun k k' y h1 h2 => hfun k k' y (hsub _ _ h1) (hsub _ _ h2), ?_,
    fun k y hk => (hkeys k y (hsub _ _ hk)).1, hlibs, ?_, ?_, ?_, ?_, ?_⟩
  · intro k y y' h1 h2
    exact congrArg Prod.snd (List.inj_on_of_nodup_map h.inv.keys h1 h2 rfl)
  · intro k y hk items hi s hs'
    obtain ⟨h1, h2, -⟩ := mem_keyList.1 (hkeys k y (hsub _ _ hk)).2
    refine plan_syms_of hi hs' (.inl h1) fun s' hs' => .inr ?_
    refine sepClosure_sym h2 ?_
    rcases hs' with e | e | e <;> rw [e] <;> rfl
  · intro k y hk hy
    rcases hsub _ _ hk with ⟨rfl, rfl⟩ | hk
    · exact hX hy
    · have h1 := hge _ _ hk
      rcases hy with rfl | hy
      · have := hin.2.1; omega
      · have := hin.2.2 y hy; omega
  · intro i k y α hi hk
    replace hk := hsub _ _ hk
    obtain ⟨k', hk', items, h1, h2⟩ := h.qmade _ (List.mem_of_getElem? (hQ i k y α hk hi).2)
    obtain rfl := hfun k' k y hk' hk
    exact ⟨items, h1, h2⟩
  · intro k y hk items hi
    have hd : Done P st.map k y := by
      rcases hsub _ _ hk with ⟨rfl, rfl⟩ | hk
      · exact h.topDone
      · rcases h.done k y hk with ⟨s, h1, -⟩ | h1
        · rw [hs] at h1; simp at h1
        · exact h1.1
    obtain ⟨α, h1, h2⟩ := hd items hi
    obtain ⟨i, hi⟩ := List.mem_iff_getElem?.1 ((h.inv.prods y α).1 h2)
    exact ⟨i, α, h1, hi⟩
  · intro i i' k y α hk h1 h2
    replace hk := hsub _ _ hk
    obtain ⟨a1, a2⟩ := hQ i k y α hk h1
    obtain ⟨b1, b2⟩ := hQ i' k y α hk h2
    obtain ⟨l1, e1⟩ := List.getElem?_eq_some_iff.1 a2
    obtain ⟨l2, e2⟩ := List.getElem?_eq_some_iff.1 b2
    have := (List.Nodup.getElem_inj_iff h.nodup).1 (e1.trans e2.symm)
    omega

/-- The parse trees of a symbol of a key in the rules before splitting long ones. -/
theorem seqRules_cut {top' : Sequence}
    (hR : SeqRules (g.pairs ++ Q) (SeqLeaf top) st.map top') (w : List Sym) :
    SameNumber {f : Forest // IsForest (g.pairs ++ Q)
        (fun a => SymOf g.numSyms st.map a ∧ ∀ r ∈ g.pairs ++ Q, r.1 ≠ a) [top'.lhs] f w}
      {q : List Sym × Forest // Form top'.key q.1 ∧ IsForest (g.pairs ++ Q)
        (fun a => SymOf g.numSyms st.map a ∧ ∀ r ∈ g.pairs ++ Q, r.1 ≠ a) q.1 q.2 w} := by
  refine Cut.equiv (X := SeqLeaf top) (Y := fun y => ∃ k, KeyOf st.map top' k y) ⟨?_, ?_⟩ ?_
    hR.form_iff hR.top_unique w
  · rintro y ⟨k, hk⟩ ⟨-, hT⟩
    obtain ⟨items, hi⟩ := List.exists_mem_of_ne_nil _ (plan_ne_nil k)
    obtain ⟨i, α, -, h2⟩ := hR.done k y hk items hi
    exact hT _ (List.mem_of_getElem? h2) rfl
  · rintro i A β hi ⟨k, hk⟩ x hx
    obtain ⟨items, h2, h3⟩ := hR.made i k A β hi hk
    obtain ⟨it, h4, h5⟩ := forall₂_right h3 hx
    by_cases hXx : SeqLeaf top x
    · exact .inl hXx
    · obtain ⟨k', hk', -⟩ := SeqRules.item_key hk
        (fun s e => hR.syms k A hk items h2 s (e ▸ h4)) h5 hXx
      exact .inr ⟨k', hk'⟩
  · simp only [List.mem_singleton, forall_eq]
    exact .inr ⟨top'.key, .inl ⟨rfl, rfl⟩⟩

theorem LInv.uncut (h : LInv p g L top P Q st) (hin : SeqIn g top) {k : PartialSequence}
    (hk : k.rhs = top.rhs) (hsep : ∀ s, k.separator.sym? = some s → top.separator.sym? = some s)
    (w : List Sym) :
    SameNumber {q : List Sym × Forest // Form k q.1 ∧ IsForest (g.pairs ++ Q)
        (fun a => SymOf g.numSyms st.map a ∧ ∀ r ∈ g.pairs ++ Q, r.1 ≠ a) q.1 q.2 w}
      {q : List Sym × Forest // Form k q.1 ∧ IsForest st.g.pairs st.g.Term q.1 q.2 w} := by
  have hsub : ∀ q, Form k q → ∀ x ∈ q, SymOf g.numSyms st.map x := by
    rintro q ⟨n, -, -, hr⟩ x hx
    rcases repeats_mem hr x hx with rfl | e
    · rw [hk]; exact .inl hin.2.1
    · exact .inl (hin.2.2 x (hsep x e))
  exact SameNumber.pairs fun β hβ => (h.inv.fold.forests (hsub β hβ) w).symm

/-- The parse trees of the left side are the ways to parse promised repetitions. -/
theorem LInv.trees (h : LInv p g L top P Q st) (hs : st.stack = []) (hwf : g.WF)
    (hok : KeyOk top.key) (hL : ∀ k, L k → KeyOk k ∧ seqKeys top k ∧ Strict k.separator)
    (hlib : ∀ s, top.separator = .liberal s → 1 ≤ top.start)
    (hno : ∀ r ∈ g.rules, r.lhs ≠ top.lhs) (hX : ¬ SeqLeaf top top.lhs) (hin : SeqIn g top)
    (w : List Sym) :
    SameNumber (st.g.Trees top.lhs w) {q : List Sym × Forest //
      Form top.key q.1 ∧ IsForest st.g.pairs st.g.Term q.1 q.2 w} := by
  have hR := h.seqRules hs hwf hok hL hno hX hin (fun _ _ h => h) hlib
  have h1 := h.inv.fold.forests (α := [top.lhs]) (by
    simp only [List.mem_singleton, forall_eq]; exact .inl hin.1) w
  exact h1.trans ((seqRules_cut hR w).trans (h.uncut hin rfl (fun _ h => h) w))

/-- A symbol with two rules for one symbol each. -/
theorem trees_two {rules : List (Sym × List Sym)} {T : Sym → Prop} {A a b : Sym} {i j : Nat}
    (hA : ¬ T A) (hi : rules[i]? = some (A, [a])) (hj : rules[j]? = some (A, [b])) (hij : i ≠ j)
    (hall : ∀ (l : Nat) α, rules[l]? = some (A, α) → l = i ∨ l = j) (w : List Sym) :
    SameNumber {f : Forest // IsForest rules T [A] f w}
      ({f : Forest // IsForest rules T [a] f w} ⊕ {f : Forest // IsForest rules T [b] f w}) := by
  have mk : ∀ {l : Nat} {c : Sym}, rules[l]? = some (A, [c]) → ∀ {f : Forest},
      IsForest rules T [c] f w → IsForest rules T [A] (.node l f .nil) w := by
    intro l c hl f hf
    have := IsForest.node hl hA hf .nil
    rwa [List.append_nil] at this
  refine SameNumber.symm ⟨Equiv.ofBijective (Sum.elim (fun f => ⟨.node i f.1 .nil, mk hi f.2⟩)
    (fun f => ⟨.node j f.1 .nil, mk hj f.2⟩)) ⟨?_, ?_⟩⟩
  · rintro (f | f) (f' | f') e <;> simp only [Sum.elim_inl, Sum.elim_inr, Subtype.mk.injEq,
      Forest.node.injEq, true_and, and_true] at e
    · rw [Subtype.ext e]
    · exact absurd e.1 hij
    · exact absurd e.1.symm hij
    · rw [Subtype.ext e]
  · rintro ⟨f, hf⟩
    have key : ∃ c, f = .node i c .nil ∧ IsForest rules T [a] c w ∨
        f = .node j c .nil ∧ IsForest rules T [b] c w := by
      generalize hα : [A] = α at hf
      cases hf with
      | nil => cases hα
      | leaf hT => cases hα; exact absurd hT hA
      | @node l _ c f γ u v _ hr _ hc hf =>
        cases hα
        cases hf
        rw [List.append_nil]
        rcases hall l γ hr with rfl | rfl
        · cases hr.symm.trans hi
          exact ⟨c, .inl ⟨rfl, hc⟩⟩
        · cases hr.symm.trans hj
          exact ⟨c, .inr ⟨rfl, hc⟩⟩
    obtain ⟨c, ⟨rfl, hc⟩ | ⟨rfl, hc⟩⟩ := key
    · exact ⟨.inl ⟨c, hc⟩, rfl⟩
    · exact ⟨.inr ⟨c, hc⟩, rfl⟩

theorem SameNumber.sum {X Y X' Y' : Type} (h : SameNumber X X') (h' : SameNumber Y Y') :
    SameNumber (X ⊕ Y) (X' ⊕ Y') := by
  obtain ⟨e⟩ := h
  obtain ⟨e'⟩ := h'
  exact ⟨Equiv.sumCongr e e'⟩

/-- For a `Liberal` separator, the parse trees of the left side are those for a `Proper` one and
those for a `Trailing` one. -/
theorem LInv.treesLiberal (h : LInv p g L top P Q st) (hs : st.stack = []) (hwf : g.WF)
    (hok : KeyOk top.key) (hL : ∀ k, L k → KeyOk k ∧ seqKeys top k ∧ Strict k.separator)
    {s : Sym} (hsep : top.separator = .liberal s)
    (hno : ∀ r ∈ g.rules, r.lhs ≠ top.lhs) (hX : ¬ SeqLeaf top top.lhs) (hin : SeqIn g top)
    (w : List Sym) :
    SameNumber (st.g.Trees top.lhs w)
      ({q : List Sym × Forest // Form ⟨top.rhs, top.start, top.stop, .proper s⟩ q.1 ∧
          IsForest st.g.pairs st.g.Term q.1 q.2 w} ⊕
        {q : List Sym × Forest // Form ⟨top.rhs, top.start, top.stop, .trailing s⟩ q.1 ∧
          IsForest st.g.pairs st.g.Term q.1 q.2 w}) := by
  have hplan : plan top.key = [[.ref ⟨top.rhs, top.start, top.stop, .proper s⟩],
      [.ref ⟨top.rhs, top.start, top.stop, .trailing s⟩]] := by
    unfold plan Sequence.key
    simp only [hsep]
  have hge : ∀ k y, (k, y) ∈ st.map → g.numSyms ≤ y := fun k y hk => h.inv.ge _ hk
  have htop : KeyOf st.map top top.key top.lhs := .inl ⟨rfl, rfl⟩
  -- the two alternatives
  have hd := h.topDone
  have one : ∀ k, [Item.ref k] ∈ plan top.key → ∃ (y : Sym) (i : Nat), (k, y) ∈ st.map ∧
      (g.pairs ++ Q)[i]? = some (top.lhs, [y]) := by
    intro k hk
    obtain ⟨α, h1, h2⟩ := hd _ hk
    obtain ⟨i, hi⟩ := List.mem_iff_getElem?.1 ((h.inv.prods _ α).1 h2)
    cases h1 with
    | @cons _ y _ _ a b => cases b; exact ⟨y, i, a, hi⟩
  obtain ⟨a, i, ha, hi⟩ := one ⟨top.rhs, top.start, top.stop, .proper s⟩ (by simp [hplan])
  obtain ⟨b, j, hb, hj⟩ := one ⟨top.rhs, top.start, top.stop, .trailing s⟩ (by simp [hplan])
  have hab : a ≠ b := by
    rintro rfl
    have := map_vals_inj h.inv.vals ha hb
    simp at this
  have hij : i ≠ j := by
    rintro rfl
    rw [hi] at hj
    simp only [Option.some.injEq, Prod.mk.injEq, List.cons.injEq, and_true, true_and] at hj
    exact hab hj
  have hQ : ∀ (l : Nat) α, (g.pairs ++ Q)[l]? = some (top.lhs, α) →
      g.pairs.length ≤ l ∧ Q[l - g.pairs.length]? = some (top.lhs, α) := by
    intro l α e
    rcases Nat.lt_or_ge l g.pairs.length with hlt | hge
    · rw [List.getElem?_append_left hlt] at e
      obtain ⟨r, hr, e⟩ := List.mem_map.1 (List.mem_of_getElem? e)
      exact absurd (congrArg Prod.fst e) (hno r hr)
    · rw [List.getElem?_append_right hge] at e
      exact ⟨hge, e⟩
  have huniq : ∀ (l l' : Nat) α, (g.pairs ++ Q)[l]? = some (top.lhs, α) →
      (g.pairs ++ Q)[l']? = some (top.lhs, α) → l = l' := by
    intro l l' α h1 h2
    obtain ⟨a1, a2⟩ := hQ l α h1
    obtain ⟨b1, b2⟩ := hQ l' α h2
    obtain ⟨l1, e1⟩ := List.getElem?_eq_some_iff.1 a2
    obtain ⟨l2, e2⟩ := List.getElem?_eq_some_iff.1 b2
    have := (List.Nodup.getElem_inj_iff h.nodup).1 (e1.trans e2.symm)
    omega
  have symFun : ∀ k y y', (k, y) ∈ st.map → (k, y') ∈ st.map → y = y' := fun k y y' h1 h2 =>
    congrArg Prod.snd (List.inj_on_of_nodup_map h.inv.keys h1 h2 rfl)
  have hall : ∀ (l : Nat) α, (g.pairs ++ Q)[l]? = some (top.lhs, α) → l = i ∨ l = j := by
    intro l α hl
    obtain ⟨k', hk', items, h1, h2⟩ := h.qmade _ (List.mem_of_getElem? (hQ l α hl).2)
    have : k' = top.key := by
      rcases hk' with ⟨rfl, -⟩ | hk'
      · rfl
      · have := hge _ _ hk'
        have := h.topLt
        simp only at *
        omega
    subst this
    rw [hplan] at h1
    simp only [List.mem_cons, List.not_mem_nil, or_false] at h1
    rcases h1 with rfl | rfl
    · left
      cases h2 with
      | @cons _ y _ _ c d =>
        cases d
        obtain rfl := symFun _ _ _ c ha
        exact huniq l i _ hl hi
    · right
      cases h2 with
      | @cons _ y _ _ c d =>
        cases d
        obtain rfl := symFun _ _ _ c hb
        exact huniq l j _ hl hj
  have h1 := h.inv.fold.forests (α := [top.lhs]) (by
    simp only [List.mem_singleton, forall_eq]; exact .inl hin.1) w
  have hA : ¬ (SymOf g.numSyms st.map top.lhs ∧ ∀ r ∈ g.pairs ++ Q, r.1 ≠ top.lhs) := fun hT =>
    hT.2 _ (List.mem_of_getElem? hi) rfl
  have part : ∀ (sp : Separator) (y : Sym), (⟨top.rhs, top.start, top.stop, sp⟩, y) ∈ st.map →
      sp = .proper s ∨ sp = .trailing s → SameNumber {f : Forest // IsForest (g.pairs ++ Q)
        (fun a => SymOf g.numSyms st.map a ∧ ∀ r ∈ g.pairs ++ Q, r.1 ≠ a) [y] f w}
      {q : List Sym × Forest // Form ⟨top.rhs, top.start, top.stop, sp⟩ q.1 ∧
          IsForest st.g.pairs st.g.Term q.1 q.2 w} := by
    intro sp y hy hsp
    have hR := h.seqRules (top' := ⟨y, top.rhs, top.start, top.stop, sp, none⟩) hs hwf hok hL hno hX
      hin (by
        rintro k z (⟨rfl, rfl⟩ | hk)
        · exact .inr hy
        · exact .inr hk) (by
        intro s' e
        rcases hsp with rfl | rfl <;> simp at e)
    refine (seqRules_cut hR w).trans (h.uncut hin rfl (fun s' e => ?_) w)
    rw [hsep]
    rcases hsp with rfl | rfl <;> exact e
  exact h1.trans ((trees_two hA hi hj hij hall w).trans
    (SameNumber.sum (part _ a ha (.inl rfl)) (part _ b hb (.inr rfl))))

end

theorem rewriteSequence_trees (p : Profile) {g : Cfg} {top : Sequence} (hwf : g.WF)
    (hlim : g.LimitOk) (hin : SeqIn g top) (hu : U32Key top.key) (hok : KeyOk top.key)
    (hno : ∀ r ∈ g.rules, r.lhs ≠ top.lhs) (hX : ¬ SeqLeaf top top.lhs) :
    ∃ g', g.rewriteSequence p top = .ok g' ∧
      ((∀ s, top.separator = .liberal s → 1 ≤ top.start) → ∀ w,
        SameNumber (g'.Trees top.lhs w) {q : List Sym × Forest //
          Form top.key q.1 ∧ IsForest g'.pairs g'.Term q.1 q.2 w}) ∧
      ∀ s, top.separator = .liberal s → ∀ w, SameNumber (g'.Trees top.lhs w)
        ({q : List Sym × Forest // Form ⟨top.rhs, top.start, top.stop, .proper s⟩ q.1 ∧
            IsForest g'.pairs g'.Term q.1 q.2 w} ⊕
          {q : List Sym × Forest // Form ⟨top.rhs, top.start, top.stop, .trailing s⟩ q.1 ∧
            IsForest g'.pairs g'.Term q.1 q.2 w}) := by
  have hA := seqKeys_allowed hin
  have hA' : Allowed g.numSyms (fun k => KeyOk k ∧ seqKeys top k ∧ Strict k.separator) :=
    ⟨fun k h => hA.elem k h.2.1, fun k h => hA.sep k h.2.1, fun k h => hA.u32 k h.2.1,
      fun k h hv items hi k' hk => ⟨(h.1.refs hi hk).1, hA.refs k h.2.1 hv items hi k' hk,
        plan_ref_strict hi hk⟩⟩
  rcases rewriteSequence_run (p := p) hwf hlim hin hA' (fun k h => h.2.1.2) hu (hok.stepOk hu p).2
    (fun items hi k' hk => ⟨(hok.refs hi hk).1, ⟨hu.refs hi hk,
      keyList_refs (self_mem_keyList _) hi hk⟩, plan_ref_strict hi hk⟩) with
    ⟨-, k, hk, hk'⟩ | ⟨st, P, Q, e, h, hs⟩
  · exact absurd (hk.1.stepOk hk.2.1.1 p) hk'
  · exact ⟨st.g, e, fun hlib => h.trees hs hwf hok (fun k hk => hk) hlib hno hX hin,
      fun s hsep => h.treesLiberal hs hwf hok (fun k hk => hk) hsep hno hX hin⟩

end Verif
