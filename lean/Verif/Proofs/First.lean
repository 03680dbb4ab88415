import Verif.Model.PredictSets
import Verif.Spec.Predict
import Verif.Proofs.BitSet
import Verif.Proofs.Closure
import Verif.Proofs.Nulling
import Verif.Proofs.Tactics

/-! # Lemmas about FIRST sets -/

namespace Verif

/-! ## Sorted lists -/

theorem dedupSyms_sorted {l : List Sym} (h : l.Pairwise (· ≤ ·)) :
    (dedupSyms l).Pairwise (· < ·) := by
  induction l using dedupSyms.induct with
  | case1 => simp [dedupSyms]
  | case2 a => simp [dedupSyms]
  | case3 a l ih =>
    rw [dedupSyms, if_pos rfl]
    exact ih (List.pairwise_cons.1 h).2
  | case4 a b l hne ih =>
    rw [dedupSyms, if_neg hne]
    obtain ⟨h1, h2⟩ := List.pairwise_cons.1 h
    refine List.pairwise_cons.2 ⟨fun c hc => ?_, ih h2⟩
    rw [mem_dedupSyms] at hc
    have hb := h1 b (by simp)
    rcases List.mem_cons.1 hc with rfl | hc
    · omega
    · have := (List.pairwise_cons.1 h2).1 c hc
      omega

theorem sortDedup_sorted (l : List Sym) : (sortDedup l).Pairwise (· < ·) :=
  dedupSyms_sorted (List.pairwise_insertionSort (· ≤ ·) l)

theorem Sorted.ext {l l' : List Sym} (h : l.Pairwise (· < ·)) (h' : l'.Pairwise (· < ·))
    (he : ∀ a, a ∈ l ↔ a ∈ l') : l = l' := by
  have hn : l.Nodup := h.imp (fun hab => by omega)
  have hn' : l'.Nodup := h'.imp (fun hab => by omega)
  have hp : l.Perm l' := (List.perm_ext_iff_of_nodup hn hn').2 he
  exact hp.eq_of_pairwise (le := (· < ·)) (fun a b _ _ h1 h2 => by omega) h h'

theorem Sorted.length_le {l l' : List Sym} (h : l.Pairwise (· < ·))
    (he : ∀ a ∈ l, a ∈ l') : l.length ≤ l'.length :=
  List.Subperm.length_le (List.subperm_of_subset (h.imp (fun hab => by omega)) he)

theorem Sorted.eq_of_length {l l' : List Sym} (h : l.Pairwise (· < ·))
    (h' : l'.Pairwise (· < ·)) (he : ∀ a ∈ l, a ∈ l') (hl : l'.length ≤ l.length) : l = l' := by
  have hs : l.Subperm l' := List.subperm_of_subset (h.imp (fun hab => by omega)) he
  have hp := hs.perm_of_length_le hl
  exact Sorted.ext h h' fun a => hp.mem_iff

theorem Sorted.length_le_bound {l : List Sym} {n : Nat} (h : l.Pairwise (· < ·))
    (hb : ∀ a ∈ l, a < n) : l.length ≤ n := by
  have := Sorted.length_le (l' := List.range n) h (fun a ha => List.mem_range.2 (hb a ha))
  simpa using this

/-! ## Sums over the symbols -/

/-- Sum of `f` over `0 .. n - 1`. -/
def sumTo (f : Nat → Nat) : Nat → Nat
  | 0 => 0
  | n + 1 => sumTo f n + f n

theorem sumTo_le {f f' : Nat → Nat} {n : Nat} (h : ∀ i < n, f i ≤ f' i) :
    sumTo f n ≤ sumTo f' n := by
  induction n with
  | zero => exact Nat.le_refl _
  | succ n ih =>
    have h1 := ih fun i hi => h i (by omega)
    have h2 := h n (by omega)
    simp only [sumTo]; omega

theorem sumTo_lt {f f' : Nat → Nat} {n : Nat} (h : ∀ i < n, f i ≤ f' i) {j : Nat} (hj : j < n)
    (hlt : f j < f' j) : sumTo f n < sumTo f' n := by
  induction n with
  | zero => omega
  | succ n ih =>
    have h1 : sumTo f n ≤ sumTo f' n := sumTo_le fun i hi => h i (by omega)
    have h2 := h n (by omega)
    simp only [sumTo]
    by_cases e : j = n
    · subst e; omega
    · have := ih (fun i hi => h i (by omega)) (by omega)
      omega

theorem sumTo_bound {f : Nat → Nat} {n b : Nat} (h : ∀ i < n, f i ≤ b) : sumTo f n ≤ n * b := by
  induction n with
  | zero => simp [sumTo]
  | succ n ih =>
    have h1 := ih fun i hi => h i (by omega)
    have h2 := h n (by omega)
    simp only [sumTo]
    rw [Nat.add_mul]; omega

/-! ## The loop -/

theorem whileChanged_spec {σ : Type} {round : σ → Res (σ × Bool)} {Inv Done : σ → Prop}
    {M : σ → Nat} {B : Nat} (hB : ∀ s, Inv s → M s ≤ B)
    (step : ∀ s, Inv s → ∃ s' ch, round s = .ok (s', ch) ∧ Inv s' ∧
      (ch = true → M s < M s') ∧ (ch = false → Done s')) :
    ∀ (fuel : Nat) (s : σ), Inv s → B < fuel + M s →
      ∃ s', whileChanged round fuel s = .ok s' ∧ Inv s' ∧ Done s' := by
  intro fuel
  induction fuel with
  | zero =>
    intro s hs hf
    have := hB s hs
    omega
  | succ fuel ih =>
    intro s hs hf
    obtain ⟨s', ch, e, hi, h1, h2⟩ := step s hs
    simp only [whileChanged, e, Res.bind_ok]
    cases ch with
    | true =>
      simp only [if_true]
      exact ih s' hi (by have := h1 rfl; omega)
    | false =>
      exact ⟨s', by simp, hi, h2 rfl⟩

/-! ## FIRST sets, abstractly -/

section Abstract

variable {P : Productions} {T : Sym → Prop}

/-- `a` is a FIRST terminal of the string according to the sets `F` and the flags `N`. -/
def FirstBy (T : Sym → Prop) (F : Sym → Sym → Prop) (N : Sym → Prop) (α : List Sym) (a : Sym) :
    Prop :=
  ∃ pre x post, α = pre ++ x :: post ∧ (∀ s ∈ pre, ¬ T s ∧ N s) ∧
    ((T x ∧ a = x) ∨ (¬ T x ∧ F x a))

theorem firstBy_nil {F : Sym → Sym → Prop} {N : Sym → Prop} {a : Sym} :
    ¬ FirstBy T F N [] a := by
  rintro ⟨pre, x, post, h, -⟩
  simp at h

theorem firstBy_cons {F : Sym → Sym → Prop} {N : Sym → Prop} {s : Sym} {α : List Sym} {a : Sym} :
    FirstBy T F N (s :: α) a ↔
      (T s ∧ a = s) ∨ (¬ T s ∧ F s a) ∨ (¬ T s ∧ N s ∧ FirstBy T F N α a) := by
  constructor
  · rintro ⟨pre, x, post, h, hp, hx⟩
    cases pre with
    | nil =>
      simp only [List.nil_append, List.cons.injEq] at h
      obtain ⟨rfl, rfl⟩ := h
      rcases hx with hx | hx
      · exact .inl hx
      · exact .inr (.inl hx)
    | cons b pre =>
      simp only [List.cons_append, List.cons.injEq] at h
      obtain ⟨rfl, rfl⟩ := h
      obtain ⟨h1, h2⟩ := hp s (by simp)
      exact .inr (.inr ⟨h1, h2, pre, x, post, rfl, fun t ht => hp t (by simp [ht]), hx⟩)
  · rintro (h | h | ⟨h1, h2, pre, x, post, rfl, hp, hx⟩)
    · exact ⟨[], s, α, rfl, by simp, .inl h⟩
    · exact ⟨[], s, α, rfl, by simp, .inr h⟩
    · refine ⟨s :: pre, x, post, rfl, fun t ht => ?_, hx⟩
      rcases List.mem_cons.1 ht with rfl | ht
      · exact ⟨h1, h2⟩
      · exact hp t ht

/-- Sets closed under the rules contain all FIRST terminals. -/
theorem firstBy_complete {F : Sym → Sym → Prop} {N : Sym → Prop}
    (hT : ∀ A α, P A α → ¬ T A) (hN : ∀ s, Nullable P s → N s)
    (hF : ∀ A α a, P A α → FirstBy T F N α a → F A a) {u v : List Sym} (h : Der P u v) :
    ∀ a γ, v = a :: γ → T a → FirstBy T F N u a := by
  induction h with
  | nil => intro a γ e; simp at e
  | keep s _ ih =>
    intro a γ e ha
    simp only [List.cons.injEq] at e
    obtain ⟨rfl, rfl⟩ := e
    exact firstBy_cons.2 (.inl ⟨ha, rfl⟩)
  | @expand A α v₁ u v₂ hp h₁ h₂ ih₁ ih₂ =>
    intro a γ e ha
    cases v₁ with
    | nil =>
      have hn : Nullable P A := derives_iff_der.2 (Der.single_iff.2 (.inr ⟨α, hp, h₁⟩))
      exact firstBy_cons.2 (.inr (.inr ⟨hT A α hp, hN A hn, ih₂ a γ (by simpa using e) ha⟩))
    | cons b v₁ =>
      simp only [List.cons_append, List.cons.injEq] at e
      obtain ⟨rfl, -⟩ := e
      exact firstBy_cons.2 (.inr (.inl ⟨hT A α hp, hF A α b hp (ih₁ b v₁ rfl ha)⟩))

/-- Sets that contain only FIRST terminals give only FIRST terminals of strings. -/
theorem firstBy_sound {F : Sym → Sym → Prop} {N : Sym → Prop}
    (hN : ∀ s, N s → Nullable P s) (hF : ∀ A a, F A a → FirstOf P T [A] a) {α : List Sym}
    {a : Sym} (h : FirstBy T F N α a) : FirstOf P T α a := by
  obtain ⟨pre, x, post, rfl, hp, hx⟩ := h
  have hpre : Der P pre [] := by
    clear hx
    induction pre with
    | nil => exact Der.nil
    | cons s pre ih =>
      have h1 := derives_iff_der.1 (hN s (hp s (by simp)).2)
      exact (h1.append (ih fun t ht => hp t (by simp [ht])) : Der P ([s] ++ pre) ([] ++ []))
  obtain ⟨hTa, γ, hd⟩ : FirstOf P T [x] a := by
    rcases hx with ⟨hx, rfl⟩ | ⟨-, hx⟩
    · exact ⟨hx, [], derives_iff_der.2 (Der.refl _)⟩
    · exact hF x a hx
  refine ⟨hTa, γ ++ post, derives_iff_der.2 ?_⟩
  have := hpre.append ((derives_iff_der.1 hd).append (Der.refl post))
  simpa using this

/-- A string of symbols all nullable derives the empty string, and conversely. -/
theorem der_nil_iff {α : List Sym} : Der P α [] ↔ ∀ s ∈ α, Nullable P s := by
  induction α with
  | nil => simp [Der.nil_iff]
  | cons s α ih =>
    constructor
    · intro h
      obtain ⟨w₁, w₂, e, h₁, h₂⟩ := Der.split (u₁ := [s]) (u₂ := α) h
      obtain ⟨rfl, rfl⟩ := List.append_eq_nil_iff.1 e.symm
      intro t ht
      rcases List.mem_cons.1 ht with rfl | ht
      · exact derives_iff_der.2 h₁
      · exact ih.1 h₂ t ht
    · intro h
      have h1 := derives_iff_der.1 (h s (by simp))
      exact (h1.append (ih.2 fun t ht => h t (by simp [ht])) : Der P ([s] ++ α) ([] ++ []))

end Abstract

/-! ## FIRST sets of the model -/

/-- The entry of a map, empty if there is none. -/
def SetMap.val (m : SetMap) (s : Sym) : SetVal := (m s).getD {}

/-- `F` of the map. -/
def SetMap.F (m : SetMap) (s a : Sym) : Prop := a ∈ (m.val s).list

/-- `N` of the map. -/
def SetMap.N (m : SetMap) (s : Sym) : Prop := (m.val s).hasNone = true

theorem SetMap.val_insert {m : SetMap} {k s : Sym} {v : SetVal} :
    (m.insert k v).val s = if s = k then v else m.val s := by
  unfold SetMap.val SetMap.insert
  split <;> simp

theorem firstSetCollect_spec {terminal : BitSet} {m : SetMap} {T : Sym → Prop}
    (hT : ∀ s, s < terminal.length → (Has terminal s ↔ T s)) (α : List Sym)
    (hα : ∀ s ∈ α, s < terminal.length) :
    ∀ la : SetVal, ∃ la', firstSetCollect terminal m la α = .ok la' ∧
      (∀ a, a ∈ la'.list ↔ a ∈ la.list ∨ FirstBy T m.F m.N α a) ∧
      (la'.hasNone = true ↔ la.hasNone = true ∨ ∀ s ∈ α, ¬ T s ∧ m.N s) := by
  induction α with
  | nil =>
    intro la
    refine ⟨_, rfl, fun a => ?_, by simp⟩
    simp [firstBy_nil]
  | cons s α ih =>
    intro la
    have hs := hα s (by simp)
    have ih := ih fun t ht => hα t (by simp [ht])
    simp only [firstSetCollect, get_has hs, Res.bind_ok, decide_eq_true_eq]
    by_cases hT' : T s
    · rw [if_pos ((hT s hs).2 hT')]
      refine ⟨_, rfl, fun a => ?_, ?_⟩
      · simp only [mem_sortDedup, List.mem_append, List.mem_singleton, firstBy_cons, hT',
          not_true_eq_false, false_and, or_false, true_and]
      · simp [hT']
    · rw [if_neg (fun h => hT' ((hT s hs).1 h))]
      cases hm : m s with
      | none =>
        refine ⟨la, rfl, fun a => ?_, ?_⟩
        · simp [firstBy_cons, hT', SetMap.F, SetMap.N, SetMap.val, hm]
        · simp [SetMap.N, SetMap.val, hm]
      | some v =>
        have hF : ∀ a, m.F s a ↔ a ∈ v.list := fun a => by simp [SetMap.F, SetMap.val, hm]
        have hN : m.N s ↔ v.hasNone = true := by simp [SetMap.N, SetMap.val, hm]
        simp only []
        by_cases hv : v.hasNone = true
        · rw [if_pos hv]
          obtain ⟨la', e, h1, h2⟩ := ih { la with list := sortDedup (la.list ++ v.list) }
          refine ⟨la', e, fun a => ?_, ?_⟩
          · rw [h1, firstBy_cons, hF, hN]
            simp [mem_sortDedup, hT', hv, or_assoc]
          · rw [h2]
            simp [hT', hN, hv]
        · rw [if_neg hv]
          refine ⟨_, rfl, fun a => ?_, ?_⟩
          · rw [firstBy_cons, hF, hN]
            simp [mem_sortDedup, hT', hv]
          · simp [hN, hv]

/-- Invariant of the computation of FIRST sets. -/
structure FInv (g : Cfg) (m : SetMap) : Prop where
  keys : ∀ s v, m s = some v → s < g.numSyms ∧ ¬ g.Term s
  sorted : ∀ s, (m.val s).list.Pairwise (· < ·)
  sound : ∀ s a, m.F s a → FirstOf g.prod g.Term [s] a
  null : ∀ s, m.N s → Nullable g.prod s

/-- The measure: the number of members of all sets. -/
def SetMap.size (n : Nat) (m : SetMap) : Nat := sumTo (fun s => (m.val s).len) n

theorem size_le_bound {n : Nat} {m : SetMap} (hs : ∀ s, (m.val s).list.Pairwise (· < ·))
    (hb : ∀ s, ∀ a ∈ (m.val s).list, a < n) : m.size n ≤ n * (n + 1) := by
  refine sumTo_bound fun s _ => ?_
  have := Sorted.length_le_bound (hs s) (hb s)
  have h2 : (m.val s).hasNone.toNat ≤ 1 := Bool.toNat_le _
  simp only [SetVal.len]; omega

theorem len_le_of_le {v v' : SetVal} (hs : v.list.Pairwise (· < ·))
    (hl : ∀ a ∈ v.list, a ∈ v'.list) (hn : v.hasNone = true → v'.hasNone = true) :
    v.len ≤ v'.len := by
  have h1 := Sorted.length_le hs hl
  have h2 : v.hasNone.toNat ≤ v'.hasNone.toNat := by
    cases hv : v.hasNone
    · simp
    · simp [hn hv]
  simp only [SetVal.len]; omega

theorem eq_of_len {v v' : SetVal} (hs : v.list.Pairwise (· < ·)) (hs' : v'.list.Pairwise (· < ·))
    (hl : ∀ a ∈ v.list, a ∈ v'.list) (hn : v.hasNone = true → v'.hasNone = true)
    (h : v.len = v'.len) : v = v' := by
  have h1 := Sorted.length_le hs hl
  have h2 : v.hasNone.toNat ≤ v'.hasNone.toNat := by
    cases hv : v.hasNone
    · simp
    · simp [hn hv]
  simp only [SetVal.len] at h
  have h3 : v.list = v'.list := Sorted.eq_of_length hs hs' hl (by omega)
  have h4 : v.hasNone.toNat = v'.hasNone.toNat := by omega
  cases v with
  | mk a l =>
    cases v' with
    | mk a' l' =>
      simp only at h3 h4
      subst h3
      cases a <;> cases a' <;> simp_all

/-- Replacing an entry by a larger one. -/
theorem size_insert {n : Nat} {m : SetMap} {k : Sym} {v : SetVal} (hk : k < n)
    (hs : (m.val k).list.Pairwise (· < ·)) (hl : ∀ a ∈ (m.val k).list, a ∈ v.list)
    (hn : (m.val k).hasNone = true → v.hasNone = true) :
    m.size n ≤ (m.insert k v).size n ∧
      ((m.val k).len ≠ v.len → m.size n < (m.insert k v).size n) := by
  have hle := len_le_of_le hs hl hn
  have hall : ∀ i < n, (m.val i).len ≤ ((m.insert k v).val i).len := by
    intro i _
    rw [SetMap.val_insert]
    split
    · rename_i e; subst e; exact hle
    · exact Nat.le_refl _
  refine ⟨sumTo_le hall, fun hne => sumTo_lt hall hk ?_⟩
  rw [SetMap.val_insert, if_pos rfl]
  omega

/-- The rule is taken account of. -/
def FirstDone (g : Cfg) (m : SetMap) (r : CfgRule) : Prop :=
  (m r.lhs).isSome ∧ (∀ a, FirstBy g.Term m.F m.N r.rhs a → m.F r.lhs a) ∧
    ((∀ s ∈ r.rhs, ¬ g.Term s ∧ m.N s) → m.N r.lhs)

theorem firstProcessRule_spec {g : Cfg} (hwf : g.WF) {terminal : BitSet}
    (hlen : terminal.length = g.numSyms) (hT : ∀ s, Has terminal s ↔ g.Term s) {m : SetMap}
    (hi : FInv g m) {r : CfgRule} (hr : r ∈ g.rules) :
    ∃ m' ch, firstProcessRule terminal m r = .ok (m', ch) ∧ FInv g m' ∧
      m.size g.numSyms ≤ m'.size g.numSyms ∧ (∀ s, (m s).isSome → (m' s).isSome) ∧
      (m' r.lhs).isSome ∧
      (ch = true → m.size g.numSyms < m'.size g.numSyms) ∧
      (ch = false → m'.val = m.val ∧ FirstDone g m' r) := by
  obtain ⟨la, e, h1, h2⟩ := firstSetCollect_spec (m := m) (T := g.Term)
    (fun s _ => hT s) r.rhs (fun s hs => by rw [hlen]; exact (hwf r hr).2 s hs) {}
  have hlt := (hwf r hr).1
  have hnt : ∀ s, g.prod s r.rhs → ¬ g.Term s := fun s ⟨r', hr', e, _⟩ ht => ht.2 r' hr' e
  have hp : g.prod r.lhs r.rhs := ⟨r, hr, rfl, rfl⟩
  obtain ⟨new, hnew⟩ : ∃ new : SetVal, new = ⟨(m.val r.lhs).hasNone || la.hasNone,
    sortDedup ((m.val r.lhs).list ++ la.list)⟩ := ⟨_, rfl⟩
  have hnl : ∀ a, a ∈ new.list ↔ m.F r.lhs a ∨ FirstBy g.Term m.F m.N r.rhs a := by
    intro a
    rw [hnew]
    simp [mem_sortDedup, h1, SetMap.F]
  have hnn : new.hasNone = true ↔ m.N r.lhs ∨ ∀ s ∈ r.rhs, ¬ g.Term s ∧ m.N s := by
    rw [hnew]
    simp [h2, SetMap.N]
  have hns : new.list.Pairwise (· < ·) := by rw [hnew]; exact sortDedup_sorted _
  have hsize := size_insert (n := g.numSyms) (m := m) (k := r.lhs) (v := new) hlt
    (hi.sorted _) (fun a ha => (hnl a).2 (.inl ha)) (fun h => hnn.2 (.inl h))
  refine ⟨m.insert r.lhs new, (m.val r.lhs).len != new.len, ?_, ⟨?_, ?_, ?_, ?_⟩, hsize.1, ?_, ?_,
    ?_, ?_⟩
  · simp only [firstProcessRule, e, Res.bind_ok, hnew]; rfl
  · intro s v hv
    by_cases hs : s = r.lhs
    · subst hs; exact ⟨hlt, hnt _ hp⟩
    · rw [SetMap.insert, if_neg hs] at hv; exact hi.keys s v hv
  · intro s
    rw [SetMap.val_insert]
    split
    · exact hns
    · exact hi.sorted s
  · intro s a ha
    rw [SetMap.F, SetMap.val_insert] at ha
    split at ha
    · rename_i e; subst e
      rcases (hnl a).1 ha with h | h
      · exact hi.sound _ a h
      · obtain ⟨hTa, γ, hd⟩ := firstBy_sound (P := g.prod) hi.null hi.sound h
        exact ⟨hTa, γ, derives_iff_der.2 (Der.single_iff.2
          (.inr ⟨_, hp, derives_iff_der.1 hd⟩))⟩
    · exact hi.sound s a ha
  · intro s hs
    rw [SetMap.N, SetMap.val_insert] at hs
    split at hs
    · rename_i e; subst e
      rcases hnn.1 hs with h | h
      · exact hi.null _ h
      · exact derives_iff_der.2 (Der.single_iff.2 (.inr ⟨_, hp,
          der_nil_iff.2 fun s hs => hi.null s (h s hs).2⟩))
    · exact hi.null s hs
  · intro s hs
    rw [SetMap.insert]
    split
    · rfl
    · exact hs
  · simp [SetMap.insert]
  · intro h
    exact hsize.2 (by simpa using h)
  · intro h
    have hl : (m.val r.lhs).len = new.len := by simpa using h
    have hve : m.val r.lhs = new := eq_of_len (hi.sorted _) hns
      (fun a ha => (hnl a).2 (.inl ha)) (fun h => hnn.2 (.inl h)) hl
    have hv : (m.insert r.lhs new).val = m.val := by
      funext s
      rw [SetMap.val_insert]
      split
      · rename_i e; subst e; exact hve.symm
      · rfl
    have hF : (m.insert r.lhs new).F = m.F := by funext s a; rw [SetMap.F, hv]; rfl
    have hN : (m.insert r.lhs new).N = m.N := by funext s; rw [SetMap.N, hv]; rfl
    refine ⟨hv, by simp [SetMap.insert], ?_, ?_⟩
    · rw [hF, hN]
      intro a ha
      have := (hnl a).2 (.inr ha)
      rw [← hve] at this
      exact this
    · rw [hN]
      intro h
      have := hnn.2 (.inr h)
      rw [← hve] at this
      exact this

theorem FirstDone.congr {g : Cfg} {m m' : SetMap} {r : CfgRule} (hv : m'.val = m.val)
    (hs : ∀ s, (m s).isSome → (m' s).isSome) (h : FirstDone g m r) : FirstDone g m' r := by
  have hF : m'.F = m.F := by funext s a; rw [SetMap.F, hv]; rfl
  have hN : m'.N = m.N := by funext s; rw [SetMap.N, hv]; rfl
  refine ⟨hs _ h.1, ?_, ?_⟩
  · rw [hF, hN]; exact h.2.1
  · rw [hN]; exact h.2.2

theorem firstRound_spec {g : Cfg} (hwf : g.WF) {terminal : BitSet}
    (hlen : terminal.length = g.numSyms) (hT : ∀ s, Has terminal s ↔ g.Term s)
    (rules : List CfgRule) (hr : ∀ r ∈ rules, r ∈ g.rules) :
    ∀ (m : SetMap) (ch : Bool), FInv g m →
    ∃ m' ch', firstRound terminal rules (m, ch) = .ok (m', ch') ∧ FInv g m' ∧
      m.size g.numSyms ≤ m'.size g.numSyms ∧ (∀ s, (m s).isSome → (m' s).isSome) ∧
      (ch' = true → ch = true ∨ m.size g.numSyms < m'.size g.numSyms) ∧
      (ch' = false → ch = false ∧ m'.val = m.val ∧ ∀ r ∈ rules, FirstDone g m' r) := by
  induction rules with
  | nil =>
    intro m ch hi
    exact ⟨m, ch, rfl, hi, Nat.le_refl _, fun _ h => h, fun h => .inl h,
      fun h => ⟨h, rfl, by simp⟩⟩
  | cons r rules ih =>
    intro m ch hi
    obtain ⟨m₁, c₁, e₁, hi₁, hs₁, hk₁, -, ht₁, hf₁⟩ :=
      firstProcessRule_spec hwf hlen hT hi (hr r (by simp))
    obtain ⟨m₂, c₂, e₂, hi₂, hs₂, hk₂, ht₂, hf₂⟩ :=
      ih (fun r' h => hr r' (by simp [h])) m₁ (ch || c₁) hi₁
    refine ⟨m₂, c₂, ?_, hi₂, by omega, fun s h => hk₂ s (hk₁ s h), fun h => ?_, fun h => ?_⟩
    · simp only [firstRound, e₁, Res.bind_ok]; exact e₂
    · rcases ht₂ h with h | h
      · rw [Bool.or_eq_true] at h
        rcases h with h | h
        · exact .inl h
        · have := ht₁ h; right; omega
      · right; omega
    · obtain ⟨h1, h2, h3⟩ := hf₂ h
      rw [Bool.or_eq_false_iff] at h1
      obtain ⟨h4, h5⟩ := hf₁ h1.2
      refine ⟨h1.1, h2.trans h4, fun r' hr' => ?_⟩
      rcases List.mem_cons.1 hr' with rfl | hr'
      · exact h5.congr h2 hk₂
      · exact h3 r' hr'

theorem terminalSymbols_term {g : Cfg} (hwf : g.WF) :
    ∃ b, g.terminalSymbols = .ok b ∧ b.length = g.numSyms ∧ ∀ s, Has b s ↔ g.Term s := by
  obtain ⟨b, e, hl, h⟩ := BitSet.terminal_spec hwf
  exact ⟨b, e, hl, fun s => h s⟩

/-- What the computed FIRST sets are. -/
structure FirstInfo (g : Cfg) (fs : FirstSets) : Prop where
  len : fs.terminalSet.length = g.numSyms
  term : ∀ s, Has fs.terminalSet s ↔ g.Term s
  keys : ∀ s, (fs.map s).isSome ↔ ∃ r ∈ g.rules, r.lhs = s
  sorted : ∀ s, (fs.map.val s).list.Pairwise (· < ·)
  first : ∀ s, ¬ g.Term s → ∀ a, a ∈ (fs.map.val s).list ↔ FirstOf g.prod g.Term [s] a
  null : ∀ s, (fs.map.val s).hasNone = true ↔ Nullable g.prod s

theorem firstSets_spec {g : Cfg} (hwf : g.WF) :
    ∃ fs, g.firstSets = .ok fs ∧ FirstInfo g fs := by
  obtain ⟨terminal, e, hlen, hT⟩ := terminalSymbols_term hwf
  have hi₀ : FInv g (fun _ => none) :=
    ⟨by simp, by simp [SetMap.val], by simp [SetMap.F, SetMap.val],
      by simp [SetMap.N, SetMap.val]⟩
  obtain ⟨m, em, hi, hd⟩ := whileChanged_spec
    (round := fun map => firstRound terminal g.rules (map, false)) (Inv := FInv g)
    (Done := fun m => ∀ r ∈ g.rules, FirstDone g m r)
    (M := SetMap.size g.numSyms) (B := g.numSyms * (g.numSyms + 1))
    (fun m hm => size_le_bound hm.sorted fun s a ha => (hm.sound s a ha).1.1)
    (fun m hm => by
      obtain ⟨m', ch, e, h1, h2, h3, h4, h5⟩ :=
        firstRound_spec hwf hlen hT g.rules (fun _ h => h) m false hm
      exact ⟨m', ch, e, h1, fun h => (h4 h).resolve_left (by simp), fun h => (h5 h).2.2⟩)
    (g.numSyms * (g.numSyms + 1) + 1) (fun _ => none) hi₀ (by omega)
  have hNull : ∀ s, Nullable g.prod s → m.N s := by
    intro s hs
    have key : ∀ {u v}, Der g.prod u v → v = [] → ∀ s ∈ u, m.N s := by
      intro u v h
      induction h with
      | nil => simp
      | keep s _ _ => intro e; simp at e
      | @expand A α v₁ u v₂ hp h₁ h₂ ih₁ ih₂ =>
        intro e
        obtain ⟨e₁, e₂⟩ := List.append_eq_nil_iff.1 e
        intro s hs
        rcases List.mem_cons.1 hs with rfl | hs
        · obtain ⟨r, hr, rfl, rfl⟩ := hp
          refine (hd r hr).2.2 fun t ht => ⟨fun htt => ?_, ih₁ e₁ t ht⟩
          have hnt := ih₁ e₁ t ht
          cases ht' : m t with
          | none => simp [SetMap.N, SetMap.val, ht'] at hnt
          | some v => exact (hi.keys t v ht').2 htt
        · exact ih₂ e₂ s hs
    exact key (derives_iff_der.1 hs) rfl s (by simp)
  have hnt : ∀ A α, g.prod A α → ¬ g.Term A := fun A α ⟨r, hr, e, _⟩ ht => ht.2 r hr e
  refine ⟨⟨m, terminal⟩, ?_, hlen, hT, ?_, hi.sorted, ?_, fun s => ⟨hi.null s, hNull s⟩⟩
  · simp only [Cfg.firstSets, e, Res.bind_ok, em]
  · intro s
    constructor
    · intro h
      obtain ⟨v, hv⟩ := Option.isSome_iff_exists.1 h
      obtain ⟨h1, h2⟩ := hi.keys s v hv
      by_contra hno
      exact h2 ⟨h1, fun r hr e => hno ⟨r, hr, e⟩⟩
    · rintro ⟨r, hr, rfl⟩
      exact (hd r hr).1
  · intro s hs a
    constructor
    · exact hi.sound s a
    · rintro ⟨hTa, γ, hd'⟩
      have := firstBy_complete (T := g.Term) (F := m.F) (N := m.N) hnt hNull
        (fun A α a ⟨r, hr, e1, e2⟩ h => by subst e1 e2; exact (hd r hr).2.1 a h)
        (derives_iff_der.1 hd') a γ rfl hTa
      rcases firstBy_cons.1 this with h | h | h
      · exact absurd h.1 hs
      · exact h.2
      · exact absurd h.2.2 firstBy_nil

end Verif
