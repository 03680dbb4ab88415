import Verif.Model.Distance
import Verif.Spec.Distance
import Verif.Proofs.Values
import Verif.Proofs.BitSet
import Verif.Proofs.Derivation
import Verif.Proofs.Tactics

/-! # Proofs about minimal distances -/

namespace Verif

/-! ## Sentence lengths -/

theorem setValue_fold {α : Type} (sym : α → Sym) (v : Nat) (l : List α)
    (value : List (Option Nat)) (h : ∀ a ∈ l, sym a < value.length) :
    ∃ value', l.foldlM (fun l a => Cfg.minimalSentenceLengths.setValue l (sym a) v) value
        = .ok value' ∧ value'.length = value.length ∧
      ∀ s, (s ∈ l.map sym → tbl value' s = some v) ∧ (s ∉ l.map sym → tbl value' s = tbl value s) := by
  induction l generalizing value with
  | nil => exact ⟨value, rfl, rfl, by simp⟩
  | cons a l ih =>
    have ha := h a (by simp)
    obtain ⟨value', h1, h2, h3⟩ := ih (value.set (sym a) (some v)) fun b hb => by
      rw [List.length_set]; exact h b (by simp [hb])
    refine ⟨value', ?_, by rw [h2, List.length_set], fun s => ?_⟩
    · rw [List.foldlM_cons, Cfg.minimalSentenceLengths.setValue, if_pos ha, Res.bind_ok, h1]
    · obtain ⟨h4, h5⟩ := h3 s
      by_cases hs : s ∈ l.map sym
      · exact ⟨fun _ => h4 hs, fun hn => absurd (by simp [hs]) hn⟩
      · rw [h5 hs, tbl_set ha]
        by_cases e : s = sym a
        · subst e; simp
        · rw [if_neg e]
          simp only [List.map_cons, List.mem_cons, e, hs, or_self, false_implies,
            not_false_eq_true, forall_const, and_self]

theorem foldlM_filter {α β : Type} (p : α → Bool) (f : β → α → Res β) (l : List α) (b : β) :
    l.foldlM (fun b a => if p a then f b a else .ok b) b = (l.filter p).foldlM f b := by
  induction l generalizing b with
  | nil => rfl
  | cons a l ih =>
    rw [List.foldlM_cons, List.filter_cons]
    by_cases h : p a = true
    · rw [if_pos h, if_pos h, List.foldlM_cons]
      congr 1; funext b; exact ih b
    · rw [if_neg h, if_neg h, Res.bind_ok, ih]

/-- The table of lengths that the propagation starts from. -/
structure StartLens (g : Cfg) (f : Sym → Option Nat) : Prop where
  term : ∀ s, g.Term s → f s = some 1
  empty : ∀ s, g.prod s [] → f s = some 0
  sound : ∀ s v, f s = some v → ∃ w, g.Lang s w ∧ w.length = v

theorem startLens_forward {g : Cfg} {f : Sym → Option Nat} (hf : StartLens g f) {w : List Sym}
    {c : Nat} (hw : weight f w = some c) :
    ∃ v, Der g.prod w v ∧ (∀ a ∈ v, g.Term a) ∧ v.length = c := by
  induction w generalizing c with
  | nil => simp [weight] at hw; exact ⟨[], .nil, by simp, hw⟩
  | cons a w ih =>
    simp only [weight] at hw
    cases ha : f a with
    | none => simp [ha] at hw
    | some x =>
      cases hb : weight f w with
      | none => simp [ha, hb] at hw
      | some y =>
        simp only [ha, hb, Option.some.injEq] at hw
        obtain ⟨v₁, h1, h2⟩ := hf.sound a x ha
        obtain ⟨v₂, h3, h4, h5⟩ := ih hb
        obtain ⟨h6, h7⟩ := inLang_iff.1 h1
        refine ⟨v₁ ++ v₂, Der.append (u₁ := [a]) h6 h3, ?_, by rw [List.length_append]; omega⟩
        intro b hb
        rcases List.mem_append.1 hb with hb | hb
        · exact h7 b hb
        · exact h4 b hb

theorem startLens_backward {g : Cfg} {f : Sym → Option Nat} (hf : StartLens g f)
    {u v : List Sym} (d : Der g.prod u v) (hv : ∀ a ∈ v, g.Term a) :
    ∃ w, Der (NonEmptyProds g.prod) u w ∧ weight f w = some v.length := by
  induction d with
  | nil => exact ⟨[], .nil, rfl⟩
  | @keep a u v d ih =>
    obtain ⟨w, h1, h2⟩ := ih fun b hb => hv b (by simp [hb])
    refine ⟨a :: w, .keep a h1, ?_⟩
    simp only [weight, hf.term a (hv a (by simp)), h2, List.length_cons]
    congr 1; omega
  | @expand A α v₁ u v₂ hp h₁ h₂ ih₁ ih₂ =>
    obtain ⟨w₂, h3, h4⟩ := ih₂ fun b hb => hv b (by simp [hb])
    by_cases he : α = []
    · subst he
      have e := Der.nil_iff.1 h₁
      subst e
      refine ⟨A :: w₂, .keep A h3, ?_⟩
      simp only [weight, hf.empty A hp, h4, List.nil_append]
      congr 1; omega
    · obtain ⟨w₁, h5, h6⟩ := ih₁ fun b hb => hv b (by simp [hb])
      refine ⟨w₁ ++ w₂, .expand ⟨hp, he⟩ h5 h3, ?_⟩
      rw [weight_append, h6, h4, List.length_append]

theorem hasWeight_iff {g : Cfg} {f : Sym → Option Nat} (hf : StartLens g f) (s : Sym) :
    (∀ c, HasWeight (NonEmptyProds g.prod) f s c → ∃ w, g.Lang s w ∧ w.length = c) ∧
    ∀ w, g.Lang s w → HasWeight (NonEmptyProds g.prod) f s w.length := by
  constructor
  · rintro c ⟨w, d, hw⟩
    obtain ⟨v, h1, h2, h3⟩ := startLens_forward hf hw
    refine ⟨v, inLang_iff.2 ⟨Der.trans ?_ h1, h2⟩, h3⟩
    exact (derives_iff_der.1 d).mono fun A α h => h.1
  · intro w hw
    obtain ⟨h1, h2⟩ := inLang_iff.1 hw
    obtain ⟨v, h3, h4⟩ := startLens_backward hf h1 h2
    exact ⟨v, derives_iff_der.2 h3, h4⟩

/-- A table of lengths, possibly from an earlier call: every entry is the length of a string. -/
def LensSound (g : Cfg) (value : List (Option Nat)) : Prop :=
  value.length = g.numSyms ∧ ∀ s v, tbl value s = some v → v < 2 ^ 32 ∧ ∃ w, g.Lang s w ∧ w.length = v

theorem lens_start {g : Cfg} (hwf : g.WF) (value : List (Option Nat)) (hs : LensSound g value) :
    ∃ value', g.minimalSentenceLengths value = g.rhsClosureWithValues value' ∧
      value'.length = g.numSyms ∧ StartLens g (tbl value') ∧
      (∀ s v, tbl value' s = some v → v < 2 ^ 32) ∧
      (∀ V, 1 ≤ V → (∀ s v, tbl value s = some v → v ≤ V) → ∀ s v, tbl value' s = some v → v ≤ V) := by
  obtain ⟨b, b1, b2, b3⟩ := BitSet.terminal_spec hwf
  obtain ⟨v1, h1, h2, h3⟩ := setValue_fold id 1 b.iter value fun a ha => by
    rw [hs.1]; exact ((b3 a).1 (BitSet.mem_iter.1 ha)).1
  obtain ⟨v2, h4, h5, h6⟩ := setValue_fold CfgRule.lhs 0 (g.rules.filter fun r => r.rhs.isEmpty) v1
    fun a ha => by rw [h2, hs.1]; exact (hwf a (List.mem_filter.1 ha).1).1
  have hmem1 : ∀ s, s ∈ b.iter.map id ↔ g.Term s := fun s => by
    rw [List.map_id, BitSet.mem_iter, b3]
  have hmem2 : ∀ s, s ∈ (g.rules.filter fun r => r.rhs.isEmpty).map CfgRule.lhs ↔ g.prod s [] := by
    intro s
    simp only [List.mem_map, List.mem_filter, List.isEmpty_iff, Cfg.prod]
    constructor
    · rintro ⟨r, ⟨h1, h2⟩, h3⟩; exact ⟨r, h1, h3, h2⟩
    · rintro ⟨r, h1, h3, h2⟩; exact ⟨r, ⟨h1, h2⟩, h3⟩
  have hexcl : ∀ s, g.Term s → ¬ g.prod s [] := by
    rintro s ⟨-, h⟩ ⟨r, hr, e, -⟩; exact h r hr e
  have hval : ∀ s v, tbl v2 s = some v → (g.prod s [] ∧ v = 0) ∨ (g.Term s ∧ v = 1) ∨
      tbl value s = some v := by
    intro s v hv
    by_cases hp : g.prod s []
    · rw [(h6 s).1 ((hmem2 s).2 hp)] at hv
      exact .inl ⟨hp, by injection hv with hv; exact hv.symm⟩
    · rw [(h6 s).2 fun h => hp ((hmem2 s).1 h)] at hv
      by_cases ht : g.Term s
      · rw [(h3 s).1 ((hmem1 s).2 ht)] at hv
        exact .inr (.inl ⟨ht, by injection hv with hv; exact hv.symm⟩)
      · rw [(h3 s).2 fun h => ht ((hmem1 s).1 h)] at hv
        exact .inr (.inr hv)
  refine ⟨v2, ?_, by rw [h5, h2, hs.1], ⟨?_, ?_, ?_⟩, ?_, ?_⟩
  · unfold Cfg.minimalSentenceLengths
    have e : g.terminalSymbols = .ok b := b1
    rw [e, Res.bind_ok]
    have e1 : List.foldlM (fun l terminal => Cfg.minimalSentenceLengths.setValue l terminal 1)
      value b.iter = .ok v1 := h1
    rw [e1, Res.bind_ok, foldlM_filter (fun r : CfgRule => r.rhs.isEmpty)
      (fun l r => Cfg.minimalSentenceLengths.setValue l r.lhs 0), h4, Res.bind_ok]
  · intro s ht
    rw [(h6 s).2 fun h => hexcl s ht ((hmem2 s).1 h), (h3 s).1 ((hmem1 s).2 ht)]
  · intro s hp
    exact (h6 s).1 ((hmem2 s).2 hp)
  · intro s v hv
    rcases hval s v hv with ⟨hp, rfl⟩ | ⟨ht, rfl⟩ | h
    · exact ⟨[], inLang_iff.2 ⟨.prod hp, by simp⟩, rfl⟩
    · exact ⟨[s], inLang_iff.2 ⟨.refl _, by simpa using ht⟩, rfl⟩
    · exact (hs.2 s v h).2
  · intro s v hv
    rcases hval s v hv with ⟨-, rfl⟩ | ⟨-, rfl⟩ | h
    · omega
    · omega
    · exact (hs.2 s v h).1
  · intro V hV1 hV s v hv
    rcases hval s v hv with ⟨-, rfl⟩ | ⟨-, rfl⟩ | h
    · omega
    · omega
    · exact hV s v h

/-- Main lemma on sentence lengths. -/
theorem minimalSentenceLengths_spec {g : Cfg} (hwf : g.WF) (value : List (Option Nat))
    (hs : LensSound g value) (V K : Nat) (hV1 : 1 ≤ V)
    (hV : ∀ s v, tbl value s = some v → v ≤ V) (hK1 : 1 ≤ K)
    (hK : ∀ r ∈ g.rules, r.rhs.length ≤ K) :
    (g.minimalSentenceLengths value = .panic ∧ ¬ V * K ^ (g.numSyms + 1) < 2 ^ 32) ∨
    ∃ value', g.minimalSentenceLengths value = .ok value' ∧ value'.length = g.numSyms ∧
      ∀ s v, tbl value' s = some v ↔ g.MinLen s v := by
  obtain ⟨start, h1, h2, h3, h4, h5⟩ := lens_start hwf value hs
  rw [h1]
  rcases rhsClosureWithValues_spec hwf start h2 h4 V K hK1 hK (h5 V hV1 hV) with h | ⟨v', h6, h7, h8⟩
  · exact .inl h
  · refine .inr ⟨v', h6, h7, fun s v => ?_⟩
    rw [h8]
    obtain ⟨a, b⟩ := hasWeight_iff h3 s
    constructor
    · rintro ⟨c1, c2⟩
      exact ⟨a v c1, fun w hw => c2 _ (b w hw)⟩
    · rintro ⟨⟨w, c1, rfl⟩, c2⟩
      refine ⟨b w c1, fun c hc => ?_⟩
      obtain ⟨w', c3, rfl⟩ := a c hc
      exact c2 w' c3

/-! ## `set_min` -/

theorem setMinAt_spec {l : List (Option Nat)} {i : Nat} (h : i < l.length) (new : Nat) :
    (setMinAt l i new = .ok (l, false) ∧ ∃ c, tbl l i = some c ∧ c ≤ new) ∨
    (setMinAt l i new = .ok (l.set i (some new), true) ∧ ∀ c, tbl l i = some c → new < c) := by
  have e := tbl_eq h
  unfold setMinAt
  rw [Res.index_ok.2 e, Res.bind_ok]
  cases hc : tbl l i with
  | none => exact .inr ⟨rfl, by simp⟩
  | some c =>
    by_cases hlt : c > new
    · refine .inr ⟨?_, fun c' h => ?_⟩
      · simp only [setMin, if_pos hlt]
      · injection h with h; omega
    · refine .inl ⟨?_, c, rfl, by omega⟩
      simp only [setMin, if_neg hlt]
      rw [hc] at e
      obtain ⟨hi, e'⟩ := List.getElem?_eq_some_iff.1 e
      rw [← e', List.set_getElem_self]

/-- Every entry of `l` is there in `l'` and not larger. -/
def RowLe (l' l : List (Option Nat)) : Prop :=
  l'.length = l.length ∧ ∀ i c, tbl l i = some c → ∃ c', tbl l' i = some c' ∧ c' ≤ c

theorem RowLe.refl (l : List (Option Nat)) : RowLe l l := ⟨rfl, fun _ c h => ⟨c, h, Nat.le_refl _⟩⟩

theorem RowLe.trans {l₁ l₂ l₃ : List (Option Nat)} (h₁ : RowLe l₁ l₂) (h₂ : RowLe l₂ l₃) :
    RowLe l₁ l₃ := by
  refine ⟨h₁.1.trans h₂.1, fun i c hc => ?_⟩
  obtain ⟨c', h3, h4⟩ := h₂.2 i c hc
  obtain ⟨c'', h5, h6⟩ := h₁.2 i c' h3
  exact ⟨c'', h5, by omega⟩

/-- `set_min` on an element: the entry is there and at most `new`, the others are unchanged. -/
theorem setMinAt_row {l : List (Option Nat)} {i : Nat} (h : i < l.length) {new : Nat}
    (hn : new < 2 ^ 32) :
    ∃ l' b, setMinAt l i new = .ok (l', b) ∧ RowLe l' l ∧
      (∃ v, tbl l' i = some v ∧ v ≤ new) ∧
      (∀ Q : Nat → Nat → Prop, (∀ p v, tbl l p = some v → Q p v) → Q i new →
        ∀ p v, tbl l' p = some v → Q p v) ∧
      potential l' + (if b then 1 else 0) ≤ potential l := by
  rcases setMinAt_spec h new with ⟨h1, c, h2, h3⟩ | ⟨h1, h2⟩
  · exact ⟨l, false, h1, .refl l, ⟨c, h2, h3⟩, fun Q hq _ => hq, by simp⟩
  · refine ⟨_, true, h1, ⟨by simp, fun p c hc => ?_⟩, ⟨new, by rw [tbl_set h, if_pos rfl],
      Nat.le_refl _⟩, fun Q hq hi p v hv => ?_, ?_⟩
    · rw [tbl_set h]
      by_cases e : p = i
      · rw [if_pos e]
        exact ⟨new, rfl, Nat.le_of_lt (h2 c (e ▸ hc))⟩
      · rw [if_neg e]; exact ⟨c, hc, Nat.le_refl _⟩
    · rw [tbl_set h] at hv
      by_cases e : p = i
      · rw [if_pos e] at hv
        injection hv with hv
        rw [e, ← hv]; exact hi
      · rw [if_neg e] at hv; exact hq p v hv
    · have := potential_set h h2 hn
      simpa using this

/-! ## Walking over a rule -/

/-- Number of entries. -/
def filled (l : List (Option Nat)) : Nat := l.countP Option.isSome

theorem filled_le (l : List (Option Nat)) : filled l ≤ l.length := List.countP_le_length

theorem filled_set {l : List (Option Nat)} {i : Nat} (h : i < l.length) (v : Nat) :
    filled (l.set i (some v)) = if tbl l i = none then filled l + 1 else filled l := by
  unfold filled
  induction l generalizing i with
  | nil => simp at h
  | cons a l ih =>
    cases i with
    | zero => cases a <;> simp [tbl]
    | succ i =>
      have := ih (i := i) (by simpa using h)
      have e : tbl (a :: l) (i + 1) = tbl l i := by simp [tbl]
      rw [List.set_cons_succ, List.countP_cons, List.countP_cons, this, e]
      split <;> omega

/-- The completion distances are bounded by the number of entries times `B`. -/
def ABound (B : Nat) (after : List (Option Nat)) : Prop :=
  ∀ s v, tbl after s = some v → v ≤ filled after * B

/-- Steps from one position to another, with what is known about costs: `Q` about costs at
positions of this rule, `QA` about completion distances and `QB` about prediction distances. -/
inductive StepChain (ml : List (Option Nat)) (Q QA QB : Nat → Nat → Prop) :
    List (Nat × Sym) → Nat → Nat → Prop where
  | nil {p : Nat} : StepChain ml Q QA QB [] p p
  | cons {p p' last : Nat} {sym : Sym} {steps : List (Nat × Sym)} :
      (∀ c, Q p c → QA sym c) →
      (∀ c m, Q p c → tbl ml sym = some m → Q p' (c + m)) →
      (∀ c b, Q p c → QB sym b → Q p' b) →
      StepChain ml Q QA QB steps p' last → StepChain ml Q QA QB ((p, sym) :: steps) p last

/-- The tables have the right size and bounds. -/
structure DInv (n B : Nat) (d : Distances) : Prop where
  before : d.before.length = n
  after : d.after.length = n
  bound : ABound B d.after

/-- The entries of the tables satisfy the predicates. -/
def DSound (QA QB : Nat → Nat → Prop) (d : Distances) : Prop :=
  (∀ s v, tbl d.after s = some v → QA s v) ∧ ∀ s v, tbl d.before s = some v → QB s v

theorem walk_spec {n M B : Nat} {ml : List (Option Nat)} (hml : ml.length = n)
    (hB : (n + 1) * B < 2 ^ 32) (steps : List (Nat × Sym)) (cur : Nat) (row : List (Option Nat))
    (d : Distances)
    (hsteps : ∀ x ∈ steps, x.1 < row.length ∧ ∃ v, tbl ml x.2 = some v ∧ v ≤ M)
    (hd : DInv n B d) (hcur : cur + steps.length * M ≤ (filled d.after + 1) * B) :
    ∃ row' d' cur', Distances.walk ml steps cur row d = .ok (row', d', cur') ∧
      DInv n B d' ∧ d'.before = d.before ∧ filled d.after ≤ filled d'.after ∧
      cur' ≤ cur + steps.length * M ∧ RowLe row' row ∧ potential row' ≤ potential row ∧
      (∀ Q QA QB p last, StepChain ml Q QA QB steps p last → (∀ p v, tbl row p = some v → Q p v) →
        DSound QA QB d → Q p cur →
        (∀ p v, tbl row' p = some v → Q p v) ∧ DSound QA QB d' ∧ Q last cur') ∧
      (∀ (j : Nat) x c, steps[j]? = some x → weight (tbl ml) ((steps.take j).map Prod.snd) = some c →
        ∃ v, tbl row' x.1 = some v ∧ v ≤ cur + c) ∧
      (∀ c, weight (tbl ml) (steps.map Prod.snd) = some c → cur' ≤ cur + c) := by
  induction steps generalizing cur row d with
  | nil =>
    refine ⟨row, d, cur, rfl, hd, rfl, Nat.le_refl _, by simp, .refl _, Nat.le_refl _, ?_, by simp,
      by simp⟩
    intro Q QA QB p last hch h1 h2 h3
    cases hch
    exact ⟨h1, h2, h3⟩
  | cons x steps ih =>
    obtain ⟨pos, sym⟩ := x
    obtain ⟨hpos, m, hm, hmM⟩ := hsteps (pos, sym) (by simp)
    simp only at hpos hm
    have hsym : sym < n := by
      rw [← hml]
      by_contra hc
      unfold tbl at hm
      rw [List.getElem?_eq_none (by omega)] at hm
      cases hm
    rw [List.length_cons, Nat.succ_mul steps.length] at hcur
    have hfn : filled d.after ≤ n := hd.after ▸ filled_le _
    have hle : (filled d.after + 1) * B ≤ (n + 1) * B := Nat.mul_le_mul_right _ (by omega)
    have hc32 : cur < 2 ^ 32 := by omega
    obtain ⟨row1, b1, r1, r2, ⟨v1, r3, r4⟩, r5, r6⟩ := setMinAt_row hpos hc32
    obtain ⟨after1, b2, a1, a2, a3, a4, a5⟩ : ∃ after1 b2, setMinAt d.after sym cur = .ok (after1, b2) ∧
        after1.length = n ∧ filled d.after ≤ filled after1 ∧ ABound B after1 ∧
        ∀ QA : Nat → Nat → Prop, (∀ s v, tbl d.after s = some v → QA s v) → QA sym cur →
          ∀ s v, tbl after1 s = some v → QA s v := by
      have hs : sym < d.after.length := by rw [hd.after]; exact hsym
      obtain ⟨l', b, s1, s2, s3, s4, s5⟩ := setMinAt_row hs hc32
      refine ⟨l', b, s1, by rw [s2.1, hd.after], ?_, ?_, s4⟩
      · rcases setMinAt_spec hs cur with ⟨e, -⟩ | ⟨e, -⟩ <;> rw [e] at s1 <;>
          (injection s1 with s1; injection s1 with s1 s6; subst s1)
        · exact Nat.le_refl _
        · rw [filled_set hs]; split <;> omega
      · rcases setMinAt_spec hs cur with ⟨e, -⟩ | ⟨e, e2⟩ <;> rw [e] at s1 <;>
          (injection s1 with s1; injection s1 with s1 s6; subst s1)
        · exact hd.bound
        · intro s v hv
          rw [filled_set hs]
          rw [tbl_set hs] at hv
          by_cases hnone : tbl d.after sym = none
          · rw [if_pos hnone]
            by_cases es : s = sym
            · rw [if_pos es] at hv; injection hv with hv; omega
            · rw [if_neg es] at hv
              have := hd.bound s v hv
              rw [Nat.succ_mul]; omega
          · rw [if_neg hnone]
            by_cases es : s = sym
            · rw [if_pos es] at hv; injection hv with hv
              obtain ⟨c, hc⟩ := Option.ne_none_iff_exists'.1 hnone
              have h1 := e2 c hc
              have h2 := hd.bound sym c hc
              omega
            · rw [if_neg es] at hv; exact hd.bound s v hv
    have hml' : ml[sym]? = some (some m) := by rw [← hm]; exact tbl_eq (by omega)
    have hbef : d.before[sym]? = some (tbl d.before sym) := tbl_eq (by rw [hd.before]; exact hsym)
    have hno : ¬ 2 ^ 32 ≤ cur + m := by omega
    -- the new value of `cur`
    obtain ⟨cur1, u1, u2, u3⟩ : ∃ cur1, d.updateSym ml cur sym = .ok (⟨d.before, after1⟩, cur1) ∧
        cur1 ≤ cur + m ∧ (cur1 = cur + m ∨ tbl d.before sym = some cur1) := by
      unfold Distances.updateSym
      simp only [a1, Res.bind_ok, Res.index_ok.2 hml', Res.index_ok.2 hbef, Res.ofOption, if_neg hno]
      cases hb : tbl d.before sym with
      | none => exact ⟨cur + m, rfl, Nat.le_refl _, .inl rfl⟩
      | some b =>
        refine ⟨min (cur + m) b, rfl, Nat.min_le_left _ _, ?_⟩
        rcases Nat.le_total (cur + m) b with h | h
        · exact .inl (Nat.min_eq_left h)
        · exact .inr (by rw [Nat.min_eq_right h])
    obtain ⟨row', d', cur', w1, w2, w3, w4, w5, w6, w7, w8, w9, w10⟩ := ih cur1 row1
      ⟨d.before, after1⟩ (fun x hx => by
        rw [r2.1]; exact hsteps x (by simp [hx])) ⟨hd.before, a2, a4⟩ (by
        have : (filled d.after + 1) * B ≤ (filled after1 + 1) * B :=
          Nat.mul_le_mul_right _ (by omega)
        show cur1 + steps.length * M ≤ (filled after1 + 1) * B
        omega)
    refine ⟨row', d', cur', ?_, w2, w3, Nat.le_trans a3 w4, ?_, w6.trans r2, by omega, ?_, ?_, ?_⟩
    · simp only [Distances.walk, r1, u1, Res.bind_ok, w1]
    · simp only [List.length_cons, Nat.succ_mul]; omega
    · intro Q QA QB p last hch h1 h2 h3
      cases hch with
      | @cons _ p' _ _ _ c1 c2 c3 c4 =>
        refine w8 Q QA QB p' last c4 (r5 Q h1 h3) ⟨a5 QA h2.1 (c1 _ h3), h2.2⟩ ?_
        rcases u3 with e | e
        · rw [e]; exact c2 _ _ h3 hm
        · exact c3 _ _ h3 (h2.2 _ _ e)
    · intro j x c hx hc
      cases j with
      | zero =>
        simp only [List.getElem?_cons_zero, Option.some.injEq] at hx
        subst hx
        obtain ⟨v, v2, v3⟩ := w6.2 pos v1 r3
        exact ⟨v, v2, by omega⟩
      | succ j =>
        simp only [List.getElem?_cons_succ] at hx
        simp only [List.take_succ_cons, List.map_cons, weight, hm] at hc
        cases hw : weight (tbl ml) ((steps.take j).map Prod.snd) with
        | none => rw [hw] at hc; cases hc
        | some c' =>
          simp only [hw, Option.some.injEq] at hc
          obtain ⟨v, v2, v3⟩ := w9 j x c' hx hw
          exact ⟨v, v2, by omega⟩
    · intro c hc
      simp only [List.map_cons, weight, hm] at hc
      cases hw : weight (tbl ml) (steps.map Prod.snd) with
      | none => simp [hw] at hc
      | some c' =>
        simp only [hw, Option.some.injEq] at hc
        have := w10 c' hw
        omega

/-! ## Updating a rule -/

/-- The steps of a forward update over the first symbols of a right side. -/
def fsteps (rhs : List Sym) : List (Nat × Sym) :=
  (rhs.zipIdx.map fun (sym, dot) => (dot + 1, sym)).reverse

theorem fsteps_append (rhs : List Sym) (s : Sym) :
    fsteps (rhs ++ [s]) = (rhs.length + 1, s) :: fsteps rhs := by
  simp [fsteps, List.zipIdx_append]

theorem fsteps_length (rhs : List Sym) : (fsteps rhs).length = rhs.length := by simp [fsteps]

theorem fsteps_mem {rhs : List Sym} {x : Nat × Sym} (h : x ∈ fsteps rhs) :
    x.1 ≤ rhs.length ∧ x.2 ∈ rhs := by
  simp only [fsteps, List.mem_reverse, List.mem_map, Prod.exists] at h
  obtain ⟨s, i, h, rfl⟩ := h
  rw [List.mk_mem_zipIdx_iff_getElem?] at h
  have := (List.getElem?_eq_some_iff.1 h).1
  exact ⟨by simp only; omega, List.mem_of_getElem? h⟩

theorem fsteps_snd (rhs : List Sym) : (fsteps rhs).map Prod.snd = rhs.reverse := by
  rw [fsteps, List.map_reverse, List.map_map]
  congr 1
  have : (Prod.snd ∘ fun (x : Sym × Nat) => (x.2 + 1, x.1)) = Prod.fst := by funext x; rfl
  show rhs.zipIdx.map (Prod.snd ∘ fun (x : Sym × Nat) => (x.2 + 1, x.1)) = rhs
  rw [this]
  exact List.zipIdx_map_fst 0 rhs

theorem fsteps_get (rhs : List Sym) (p : Nat) (h : p < rhs.length) :
    ∃ s, (fsteps rhs)[rhs.length - 1 - p]? = some (p + 1, s) := by
  refine ⟨rhs[p], ?_⟩
  unfold fsteps
  rw [List.getElem?_reverse (by simp; omega)]
  simp only [List.length_map, List.length_zipIdx]
  rw [show rhs.length - 1 - (rhs.length - 1 - p) = p by omega]
  simp [h]

theorem weight_reverse (f : Sym → Option Nat) (u : List Sym) : weight f u.reverse = weight f u := by
  induction u with
  | nil => rfl
  | cons a u ih =>
    rw [List.reverse_cons, weight_append, ih]
    simp only [weight]
    cases f a <;> cases weight f u <;> simp [Nat.add_comm]

/-- A row update, in both directions, on a slice `slice` of the right side. -/
theorem updateRule_spec {n M B : Nat} {ml : List (Option Nat)} (hml : ml.length = n)
    (hB : (n + 1) * B < 2 ^ 32) (slice : List Sym) (cur : Nat) (row : List (Option Nat))
    (d : Distances) (reverse : Bool) (hlen : slice.length < row.length)
    (hsyms : ∀ s ∈ slice, ∃ v, tbl ml s = some v ∧ v ≤ M)
    (hd : DInv n B d) (hcur : cur + slice.length * M ≤ (filled d.after + 1) * B) :
    ∃ row' d' cur' changed,
      Distances.updateRule ml cur slice row d reverse = .ok (row', d', cur', changed) ∧
      DInv n B d' ∧ d'.before = d.before ∧ RowLe row' row ∧
      potential row' + (if changed then 1 else 0) ≤ potential row ∧ cur' < 2 ^ 32 ∧
      (reverse = false → ∀ Q QA QB, StepChain ml Q QA QB (fsteps slice) slice.length 0 →
        (∀ p v, tbl row p = some v → Q p v) → DSound QA QB d → Q slice.length cur →
        (∀ p v, tbl row' p = some v → Q p v) ∧ DSound QA QB d' ∧ Q 0 cur') ∧
      (reverse = false → ∀ p ≤ slice.length, ∀ c, weight (tbl ml) (slice.drop p) = some c →
        ∃ v, tbl row' p = some v ∧ v ≤ cur + c) ∧
      (reverse = true → ∀ p ≤ slice.length, ∀ c, weight (tbl ml) (slice.take p) = some c →
        ∃ v, tbl row' p = some v ∧ v ≤ cur + c) := by
  have hfn : filled d.after ≤ n := hd.after ▸ filled_le _
  have hle : (filled d.after + 1) * B ≤ (n + 1) * B := Nat.mul_le_mul_right _ (by omega)
  cases reverse with
  | true =>
    obtain ⟨row', d', cur', w1, w2, w3, w4, w5, w6, w7, -, w9, w10⟩ := walk_spec (M := M) hml hB
      (slice.zipIdx.map fun (sym, dot) => (dot, sym)) cur row d (by
        intro x hx
        simp only [List.mem_map, Prod.exists] at hx
        obtain ⟨s, i, h, rfl⟩ := hx
        rw [List.mk_mem_zipIdx_iff_getElem?] at h
        have := (List.getElem?_eq_some_iff.1 h).1
        exact ⟨by simp only; omega, hsyms s (List.mem_of_getElem? h)⟩) hd (by simpa using hcur)
    rw [List.length_map, List.length_zipIdx] at w5
    have hc32 : cur' < 2 ^ 32 := by omega
    obtain ⟨row2, b, r1, r2, ⟨v0, r3, r3'⟩, r4, r5⟩ := setMinAt_row (l := row') (i := slice.length) (by
      rw [w6.1]; exact hlen) hc32
    have esnd : (slice.zipIdx.map fun (sym, dot) => (dot, sym)).map Prod.snd = slice := by
      rw [List.map_map]
      exact List.zipIdx_map_fst 0 slice
    refine ⟨row2, d', cur', b, ?_, w2, w3, r2.trans w6, by omega, hc32, by simp, by simp, ?_⟩
    · simp only [Distances.updateRule, if_true, Res.bind_ok, w1, r1]
    · intro _ p hp c hc
      rcases Nat.lt_or_eq_of_le hp with hp | rfl
      · obtain ⟨v, h1, h2⟩ := w9 p (p, slice[p]) c (by simp [hp]) (by
          rw [List.map_take, esnd]
          exact hc)
        obtain ⟨v', h3, h4⟩ := r2.2 _ _ h1
        exact ⟨v', h3, by omega⟩
      · have := w10 c (by rw [esnd]; simpa using hc)
        exact ⟨v0, r3, by omega⟩
  | false =>
    obtain ⟨row', d', cur', w1, w2, w3, w4, w5, w6, w7, w8, w9, w10⟩ := walk_spec (M := M) hml hB
      (fsteps slice) cur row d (fun x hx => by
        obtain ⟨h1, h2⟩ := fsteps_mem hx
        exact ⟨by omega, hsyms _ h2⟩) hd (by rw [fsteps_length]; exact hcur)
    rw [fsteps_length] at w5
    have hc32 : cur' < 2 ^ 32 := by omega
    obtain ⟨row2, b, r1, r2, ⟨v0, r3, r3'⟩, r4, r5⟩ := setMinAt_row (l := row') (i := 0) (by
      rw [w6.1]; omega) hc32
    refine ⟨row2, d', cur', b, ?_, w2, w3, r2.trans w6, by omega, hc32, ?_, ?_, by simp⟩
    · have e : (slice.zipIdx.map fun (sym, dot) => (dot + 1, sym)).reverse = fsteps slice := rfl
      simp only [Distances.updateRule, e, Bool.false_eq_true, if_false, Res.bind_ok, w1, r1]
    · intro _ Q QA QB hch h1 h2 h3
      obtain ⟨h4, h5, h6⟩ := w8 Q QA QB _ _ hch h1 h2 h3
      exact ⟨r4 Q h4 h6, h5, h6⟩
    · intro _ p hp c hc
      cases p with
      | zero =>
        have := w10 c (by rw [fsteps_snd, weight_reverse]; simpa using hc)
        exact ⟨v0, r3, by omega⟩
      | succ p =>
        obtain ⟨s, hs⟩ := fsteps_get slice p (by omega)
        obtain ⟨v, h1, h2⟩ := w9 _ _ c hs (by
          rw [List.map_take, fsteps_snd, List.take_reverse, weight_reverse]
          rw [show slice.length - (slice.length - 1 - p) = p + 1 by omega]
          exact hc)
        obtain ⟨v', h3, h4⟩ := r2.2 _ _ h1
        exact ⟨v', h3, by omega⟩

/-! ## The whole state -/

theorem sum_map_set {α : Type} (f : α → Nat) (l : List α) (i : Nat) (a x : α) (h : l[i]? = some a) :
    ((l.set i x).map f).sum + f a = (l.map f).sum + f x := by
  induction l generalizing i with
  | nil => simp at h
  | cons b l ih =>
    cases i with
    | zero => simp at h; subst h; simp; omega
    | succ i =>
      have := ih i (by simpa using h)
      simp only [List.set_cons_succ, List.map_cons, List.sum_cons]
      omega

/-- What a grammar and its shortest lengths have to satisfy: `K` bounds the lengths of right sides,
`M` the shortest lengths. -/
structure DistCtx (g : Cfg) (K M : Nat) : Prop where
  wf : g.WF
  len : ∀ r ∈ g.rules, r.rhs.length ≤ K
  lens : ∀ r ∈ g.rules, ∀ s ∈ r.rhs, ∃ m, g.MinLen s m ∧ m ≤ M
  small : (g.numSyms + 1) * (K * M) < 2 ^ 32
  oneK : 1 ≤ K
  oneM : 1 ≤ M
  all : ∀ s m, g.MinLen s m → m ≤ M
  pow : M * K ^ (g.numSyms + 1) < 2 ^ 32

/-- Sum of the potentials of the rows. -/
def MinimalDistance.total (m : MinimalDistance) : Nat := (m.distances.map potential).sum

/-- Invariant of the state, apart from the table of sentence lengths. -/
structure MInv (g : Cfg) (B : Nat) (m : MinimalDistance) : Prop where
  rowsLen : m.distances.length = g.rules.length
  rows : ∀ (i : Nat) r row, g.rules[i]? = some r → m.distances[i]? = some row →
    row.length = r.rhs.length + 1
  fwd : DInv g.numSyms B m.forwardDistances
  bwd : DInv g.numSyms B m.backwardDistances
  pot : m.total ≤ (m.distances.map List.length).sum * 2 ^ 32

/-- The table of sentence lengths is right. -/
def LensOk (g : Cfg) (m : MinimalDistance) : Prop :=
  m.minLength.length = g.numSyms ∧ ∀ s v, tbl m.minLength s = some v ↔ g.MinLen s v

/-- Rows only get smaller. -/
def MLe (m' m : MinimalDistance) : Prop :=
  ∀ (i : Nat) row, m.distances[i]? = some row → ∃ row', m'.distances[i]? = some row' ∧ RowLe row' row

theorem MLe.refl (m : MinimalDistance) : MLe m m := fun _ row h => ⟨row, h, .refl _⟩

theorem MLe.trans {m₁ m₂ m₃ : MinimalDistance} (h₁ : MLe m₁ m₂) (h₂ : MLe m₂ m₃) : MLe m₁ m₃ := by
  intro i row h
  obtain ⟨row', h3, h4⟩ := h₂ i row h
  obtain ⟨row'', h5, h6⟩ := h₁ i row' h3
  exact ⟨row'', h5, h6.trans h4⟩

theorem mle_set {m : MinimalDistance} {i : Nat} {row row' : List (Option Nat)} {f b : Distances}
    {ml : List (Option Nat)} (h : m.distances[i]? = some row) (hle : RowLe row' row) :
    MLe ⟨m.distances.set i row', f, b, ml⟩ m := by
  intro j r hj
  have hi := (List.getElem?_eq_some_iff.1 h).1
  by_cases e : i = j
  · subst e
    rw [h] at hj; injection hj with hj; subst hj
    exact ⟨row', by simp [hi], hle⟩
  · exact ⟨r, by simp [e, hj], .refl _⟩

/-- Completion distances. -/
def AfterD (g : Cfg) (dots : List (Nat × Nat)) (s c : Nat) : Prop :=
  ∃ (i : Nat) (r : CfgRule) (p : Nat), g.rules[i]? = some r ∧ r.rhs[p]? = some s ∧ g.Dist dots i (p + 1) c

/-- Prediction distances. -/
def BeforeD (g : Cfg) (dots : List (Nat × Nat)) (s c : Nat) : Prop :=
  ∃ (j : Nat) (q : CfgRule), g.rules[j]? = some q ∧ q.lhs = s ∧ g.Dist dots j 0 c

/-- Everything reported by forward calls is the cost of a walk. -/
structure FSound (g : Cfg) (dots : List (Nat × Nat)) (m : MinimalDistance) : Prop where
  rows : ∀ (i : Nat) row p v, m.distances[i]? = some row → tbl row p = some v → g.Dist dots i p v
  fwd : DSound (AfterD g dots) (BeforeD g dots) m.forwardDistances
  bwd : ∀ s, tbl m.backwardDistances.after s = none

theorem fchain {g : Cfg} {dots : List (Nat × Nat)} {i : Nat} {r : CfgRule}
    (hr : g.rules[i]? = some r) {ml : List (Option Nat)}
    (hml : ∀ s v, tbl ml s = some v ↔ g.MinLen s v) (k : Nat) (hk : k ≤ r.rhs.length) :
    StepChain ml (g.Dist dots i) (AfterD g dots) (BeforeD g dots) (fsteps (r.rhs.take k)) k 0 := by
  induction k with
  | zero => exact .nil
  | succ k ih =>
    have e : r.rhs.take (k + 1) = r.rhs.take k ++ [r.rhs[k]] := by
      rw [List.take_append_getElem]
    have hg : r.rhs[k]? = some r.rhs[k] := List.getElem?_eq_getElem (by omega)
    rw [e, fsteps_append, List.length_take, Nat.min_eq_left (by omega)]
    refine .cons (p' := k) ?_ ?_ ?_ (ih (by omega))
    · intro c hc
      exact ⟨i, r, k, hr, hg, hc⟩
    · intro c m hc hm
      exact .scan hr hg ((hml _ _).1 hm) hc
    · rintro c b _ ⟨j, q, hq, e, hd⟩
      exact .predict hr hq (by rw [e]; exact hg) hd

theorem updateForward_spec {g : Cfg} {K M : Nat} (hg : DistCtx g K M) {m : MinimalDistance}
    (hm : MInv g (K * M) m) (hl : LensOk g m) {i : Nat} {r : CfgRule} (hr : g.rules[i]? = some r)
    (k : Nat) (hk : k ≤ r.rhs.length) (cur : Nat)
    (hcur : cur ≤ filled m.forwardDistances.after * (K * M)) :
    ∃ m' cur' ch, m.updateForward cur (r.rhs.take k) i = .ok (m', cur', ch) ∧
      MInv g (K * M) m' ∧ MLe m' m ∧ m'.total + (if ch then 1 else 0) ≤ m.total ∧
      m'.distances.map List.length = m.distances.map List.length ∧
      m'.minLength = m.minLength ∧ m'.backwardDistances = m.backwardDistances ∧ cur' < 2 ^ 32 ∧
      (∀ dots, FSound g dots m → g.Dist dots i k cur → FSound g dots m' ∧ g.Dist dots i 0 cur') ∧
      (∀ p ≤ k, ∀ c, weight (tbl m.minLength) ((r.rhs.take k).drop p) = some c →
        ∃ row v, m'.distances[i]? = some row ∧ tbl row p = some v ∧ v ≤ cur + c) := by
  have hmem := List.mem_of_getElem? hr
  have hi : i < m.distances.length := by
    rw [hm.rowsLen]; exact (List.getElem?_eq_some_iff.1 hr).1
  have hrow : m.distances[i]? = some m.distances[i] := List.getElem?_eq_getElem hi
  set row := m.distances[i] with hrowdef
  have hrl := hm.rows i r row hr hrow
  have hkl : (r.rhs.take k).length = k := by rw [List.length_take]; omega
  have hkM : k * M ≤ K * M := Nat.mul_le_mul_right _ (Nat.le_trans hk (hg.len r hmem))
  obtain ⟨row', d', cur', ch, u1, u2, u3, u4, u5, u6, u7, u8⟩ := updateRule_spec (M := M) hl.1 hg.small
    (r.rhs.take k) cur row m.forwardDistances false (by omega)
    (fun s hs => by
      obtain ⟨v, h1, h2⟩ := hg.lens r hmem s (List.mem_of_mem_take hs)
      exact ⟨v, (hl.2 s v).2 h1, h2⟩) hm.fwd (by
      rw [hkl, Nat.succ_mul]; omega)
  refine ⟨⟨m.distances.set i row', d', m.backwardDistances, m.minLength⟩, cur', ch, ?_,
    ?_, mle_set hrow u4, ?_, ?_, rfl, rfl, u6, ?_, ?_⟩
  · unfold MinimalDistance.updateForward
    rw [Res.index_ok.2 hrow, Res.bind_ok, u1, Res.bind_ok]
  · have hpot := sum_map_set potential m.distances i row row' hrow
    have hlen := sum_map_set List.length m.distances i row row' hrow
    have := u4.1
    refine ⟨by simp [hm.rowsLen], ?_, u2, hm.bwd, ?_⟩
    · intro j q rw' hq hj
      by_cases e : i = j
      · subst e
        rw [hr] at hq; injection hq with hq; subst hq
        simp only [List.getElem?_set_self hi, Option.some.injEq] at hj
        subst hj; omega
      · simp only [List.getElem?_set_ne e] at hj
        exact hm.rows j q rw' hq hj
    · have := hm.pot
      unfold MinimalDistance.total at this ⊢
      simp only at this ⊢
      have e : ((m.distances.set i row').map List.length).sum = (m.distances.map List.length).sum := by
        omega
      rw [e]
      omega
  · have hpot := sum_map_set potential m.distances i row row' hrow
    unfold MinimalDistance.total
    simp only
    omega
  · rw [List.map_set]
    apply List.ext_getElem?
    intro j
    by_cases e : i = j
    · subst e
      rw [List.getElem?_set_self (by simpa using hi), List.getElem?_map, hrow, u4.1]; rfl
    · rw [List.getElem?_set_ne e]
  · intro dots hs hd
    obtain ⟨h1, h2, h3⟩ := u7 rfl _ _ _ (by rw [hkl]; exact fchain hr hl.2 k hk)
      (fun p v hv => hs.rows i row p v hrow hv) hs.fwd (by rw [hkl]; exact hd)
    refine ⟨⟨?_, h2, hs.bwd⟩, h3⟩
    intro j rw' p v hj hv
    by_cases e : i = j
    · subst e
      simp only [List.getElem?_set_self hi, Option.some.injEq] at hj
      subst hj
      exact h1 p v hv
    · simp only [List.getElem?_set_ne e] at hj
      exact hs.rows j rw' p v hj hv
  · intro p hp c hc
    obtain ⟨v, h1, h2⟩ := u8.1 rfl p (by omega) c hc
    exact ⟨row', v, by simp [hi], h1, h2⟩

theorem updateBackward_spec {g : Cfg} {K M : Nat} (hg : DistCtx g K M) {m : MinimalDistance}
    (hm : MInv g (K * M) m) (hl : LensOk g m) {i : Nat} {r : CfgRule} (hr : g.rules[i]? = some r)
    (slice : List Sym) (hsl : slice.length ≤ r.rhs.length) (hsub : ∀ s ∈ slice, s ∈ r.rhs) (cur : Nat)
    (hcur : cur ≤ filled m.backwardDistances.after * (K * M)) :
    ∃ m' cur' ch, m.updateBackward cur slice i = .ok (m', cur', ch) ∧
      MInv g (K * M) m' ∧ MLe m' m ∧ m'.total + (if ch then 1 else 0) ≤ m.total ∧
      m'.distances.map List.length = m.distances.map List.length ∧
      m'.minLength = m.minLength ∧ cur' < 2 ^ 32 ∧
      (∀ p ≤ slice.length, ∀ c, weight (tbl m.minLength) (slice.take p) = some c →
        ∃ row v, m'.distances[i]? = some row ∧ tbl row p = some v ∧ v ≤ cur + c) := by
  have hmem := List.mem_of_getElem? hr
  have hi : i < m.distances.length := by
    rw [hm.rowsLen]; exact (List.getElem?_eq_some_iff.1 hr).1
  have hrow : m.distances[i]? = some m.distances[i] := List.getElem?_eq_getElem hi
  set row := m.distances[i] with hrowdef
  have hrl := hm.rows i r row hr hrow
  have hkM : slice.length * M ≤ K * M := Nat.mul_le_mul_right _ (Nat.le_trans hsl (hg.len r hmem))
  obtain ⟨row', d', cur', ch, u1, u2, u3, u4, u5, u6, -, -, u9⟩ := updateRule_spec (M := M) hl.1 hg.small
    slice cur row m.backwardDistances true (by omega)
    (fun s hs => by
      obtain ⟨v, h1, h2⟩ := hg.lens r hmem s (hsub s hs)
      exact ⟨v, (hl.2 s v).2 h1, h2⟩) hm.bwd (by
      rw [Nat.succ_mul]; omega)
  refine ⟨⟨m.distances.set i row', m.forwardDistances, d', m.minLength⟩, cur', ch, ?_,
    ?_, mle_set hrow u4, ?_, ?_, rfl, u6, fun p hp c hc => ⟨row', _, List.getElem?_set_self hi,
      (u9 rfl p hp c hc).choose_spec⟩⟩
  · unfold MinimalDistance.updateBackward
    rw [Res.index_ok.2 hrow, Res.bind_ok, u1, Res.bind_ok]
  · have hpot := sum_map_set potential m.distances i row row' hrow
    have hlen := sum_map_set List.length m.distances i row row' hrow
    have := u4.1
    refine ⟨by simp [hm.rowsLen], ?_, hm.fwd, u2, ?_⟩
    · intro j q rw' hq hj
      by_cases e : i = j
      · subst e
        rw [hr] at hq; injection hq with hq; subst hq
        simp only [List.getElem?_set_self hi, Option.some.injEq] at hj
        subst hj; omega
      · simp only [List.getElem?_set_ne e] at hj
        exact hm.rows j q rw' hq hj
    · have := hm.pot
      unfold MinimalDistance.total at this ⊢
      simp only at this ⊢
      have e : ((m.distances.set i row').map List.length).sum = (m.distances.map List.length).sum := by
        omega
      rw [e]
      omega
  · have hpot := sum_map_set potential m.distances i row row' hrow
    unfold MinimalDistance.total
    simp only
    omega
  · rw [List.map_set]
    apply List.ext_getElem?
    intro j
    by_cases e : i = j
    · subst e
      rw [List.getElem?_set_self (by simpa using hi), List.getElem?_map, hrow, u4.1]; rfl
    · rw [List.getElem?_set_ne e]

/-! ## The dots -/

/-- The distance from a position to a dot of the same rule is reported, if not larger. -/
def Covered (g : Cfg) (x : Nat × Nat) (m : MinimalDistance) : Prop :=
  ∀ r, g.rules[x.1]? = some r → ∀ p ≤ x.2, ∀ c, g.MinLens ((r.rhs.take x.2).drop p) c →
    ∃ row v, m.distances[x.1]? = some row ∧ tbl row p = some v ∧ v ≤ c

theorem Covered.mono {g : Cfg} {x : Nat × Nat} {m m' : MinimalDistance} (h : Covered g x m)
    (hle : MLe m' m) : Covered g x m' := by
  intro r hr p hp c hc
  obtain ⟨row, v, h1, h2, h3⟩ := h r hr p hp c hc
  obtain ⟨row', h4, h5⟩ := hle _ _ h1
  obtain ⟨v', h6, h7⟩ := h5.2 p v h2
  exact ⟨row', v', h4, h6, by omega⟩

/-- Going backward, distances are reported, counted from the dot instead of the start of the rule. -/
def CoveredBack (g : Cfg) (x : Nat × Nat) (m : MinimalDistance) : Prop :=
  ∀ r, g.rules[x.1]? = some r → ∀ p ≤ r.rhs.length - x.2, ∀ c,
    g.MinLens ((r.rhs.drop x.2).take p) c →
    ∃ row v, m.distances[x.1]? = some row ∧ tbl row p = some v ∧ v ≤ c

theorem CoveredBack.mono {g : Cfg} {x : Nat × Nat} {m m' : MinimalDistance} (h : CoveredBack g x m)
    (hle : MLe m' m) : CoveredBack g x m' := by
  intro r hr p hp c hc
  obtain ⟨row, v, h1, h2, h3⟩ := h r hr p hp c hc
  obtain ⟨row', h4, h5⟩ := hle _ _ h1
  obtain ⟨v', h6, h7⟩ := h5.2 p v h2
  exact ⟨row', v', h4, h6, by omega⟩

theorem minLens_weight {g : Cfg} {f : Sym → Option Nat} (hf : ∀ s v, f s = some v ↔ g.MinLen s v)
    {w : List Sym} {c : Nat} (h : g.MinLens w c) : weight f w = some c := by
  induction h with
  | nil => rfl
  | cons h1 _ ih => simp only [weight, (hf _ _).2 h1, ih]

/-- What every part of a call keeps. -/
structure Keeps (g : Cfg) (K M : Nat) (m m' : MinimalDistance) : Prop where
  inv : MInv g (K * M) m'
  lens : LensOk g m'
  le : MLe m' m

theorem processDot_spec {g : Cfg} {K M : Nat} (hg : DistCtx g K M) {m : MinimalDistance}
    (hm : MInv g (K * M) m) (hl : LensOk g m) {i : Nat} {r : CfgRule} (hr : g.rules[i]? = some r)
    (dir : DistanceDirection) (dot : Nat) (hdot : dot ≤ r.rhs.length) :
    ∃ m', m.processDot i r dir dot = .ok m' ∧ Keeps g K M m m' ∧
      (dir ≠ .backward → Covered g (i, dot) m') ∧
      (dir ≠ .forward → CoveredBack g (i, dot) m') ∧
      (dir = .forward → ∀ dots, (i, dot) ∈ dots → FSound g dots m → FSound g dots m') := by
  have hlhs : r.lhs < g.numSyms := (hg.wf r (List.mem_of_getElem? hr)).1
  -- forward half
  have hf : ∃ m', m.processForward i r dot = .ok m' ∧ Keeps g K M m m' ∧ Covered g (i, dot) m' ∧
      ∀ dots, (i, dot) ∈ dots → FSound g dots m → FSound g dots m' := by
    obtain ⟨m1, cur', ch, f1, f2, f3, f4, f5, f6, f7, f8, f9, f10⟩ :=
      updateForward_spec hg hm hl hr dot hdot 0 (Nat.zero_le _)
    obtain ⟨bef, b, b1, b2, b3, b4, b5⟩ := setMinAt_row (l := m1.forwardDistances.before)
      (i := r.lhs) (by rw [f2.fwd.before]; exact hlhs) f8
    refine ⟨{ m1 with forwardDistances := { m1.forwardDistances with before := bef } }, ?_,
      ⟨⟨f2.rowsLen, f2.rows, ⟨b2.1.trans f2.fwd.before, f2.fwd.after, f2.fwd.bound⟩, f2.bwd, f2.pot⟩,
        ⟨by rw [← hl.1, f6], by simp only [f6]; exact hl.2⟩, f3⟩, ?_, ?_⟩
    · unfold MinimalDistance.processForward sliceCheck
      rw [if_pos hdot, Res.bind_ok, f1, Res.bind_ok]
      simp only [b1, Res.bind_ok]
    · intro r' hr' p hp c hc
      rw [hr] at hr'; injection hr' with hr'; subst hr'
      obtain ⟨row, v, h1, h2, h3⟩ := f10 p hp c (minLens_weight hl.2 hc)
      exact ⟨row, v, h1, h2, by omega⟩
    · intro dots hdots hs
      obtain ⟨h1, h2⟩ := f9 dots hs (.target hdots)
      exact ⟨h1.rows, ⟨h1.fwd.1, b4 _ h1.fwd.2 ⟨i, r, hr, rfl, h2⟩⟩, h1.bwd⟩
  -- backward half
  have hb : ∀ m : MinimalDistance, MInv g (K * M) m → LensOk g m →
      ∃ m', m.processBackward i r dot = .ok m' ∧ Keeps g K M m m' ∧ CoveredBack g (i, dot) m' := by
    intro m hm hl
    obtain ⟨m1, cur', ch, f1, f2, f3, f4, f5, f6, f8, f9⟩ :=
      updateBackward_spec hg hm hl hr (r.rhs.drop dot) (by simp)
        (fun s hs => List.mem_of_mem_drop hs) 0 (Nat.zero_le _)
    obtain ⟨bef, b, b1, b2, b3, b4, b5⟩ := setMinAt_row (l := m1.backwardDistances.before)
      (i := r.lhs) (by rw [f2.bwd.before]; exact hlhs) f8
    refine ⟨{ m1 with backwardDistances := { m1.backwardDistances with before := bef } }, ?_,
      ⟨⟨f2.rowsLen, f2.rows, f2.fwd, ⟨b2.1.trans f2.bwd.before, f2.bwd.after, f2.bwd.bound⟩, f2.pot⟩,
        ⟨by rw [← hl.1, f6], by simp only [f6]; exact hl.2⟩, f3⟩, ?_⟩
    · unfold MinimalDistance.processBackward sliceCheck
      rw [if_pos hdot, Res.bind_ok, f1, Res.bind_ok]
      simp only [b1, Res.bind_ok]
    · intro r' hr' p hp c hc
      rw [hr] at hr'; injection hr' with hr'; subst hr'
      obtain ⟨row, v, h1, h2, h3⟩ := f9 p (by simpa using hp) c (minLens_weight hl.2 hc)
      exact ⟨row, v, h1, h2, by omega⟩
  unfold MinimalDistance.processDot
  cases dir with
  | forward =>
    obtain ⟨m', h1, h2, h3, h4⟩ := hf
    refine ⟨m', ?_, h2, fun _ => h3, fun h => absurd rfl h, fun _ => h4⟩
    simp [DistanceDirection.includesForward, DistanceDirection.includesBackward, h1]
  | backward =>
    obtain ⟨m', h1, h2, h3⟩ := hb m hm hl
    refine ⟨m', ?_, h2, fun h => absurd rfl h, fun _ => h3, fun h => nomatch h⟩
    simp [DistanceDirection.includesForward, DistanceDirection.includesBackward, h1]
  | symmetric =>
    obtain ⟨m1, h1, h2, h3, h4⟩ := hf
    obtain ⟨m', h5, h6, h7⟩ := hb m1 h2.inv h2.lens
    refine ⟨m', ?_, ⟨h6.inv, h6.lens, h6.le.trans h2.le⟩, fun _ => h3.mono h6.le, fun _ => h7,
      fun h => nomatch h⟩
    simp [DistanceDirection.includesForward, DistanceDirection.includesBackward, h1, h5]

/-- Folding a step that keeps an invariant, gets smaller in a preorder and establishes something
that stays true in smaller states. -/
theorem foldlM_keeps {α σ : Type} (f : σ → α → Res σ) (Inv : σ → Prop) (le : σ → σ → Prop)
    (Post : α → σ → Prop) (hrefl : ∀ s, le s s) (htrans : ∀ a b c, le a b → le b c → le a c)
    (hmono : ∀ x s s', Post x s → le s' s → Post x s') (l : List α)
    (hstep : ∀ x ∈ l, ∀ s, Inv s → ∃ s', f s x = .ok s' ∧ Inv s' ∧ le s' s ∧ Post x s')
    (s : σ) (hs : Inv s) :
    ∃ s', l.foldlM f s = .ok s' ∧ Inv s' ∧ le s' s ∧ ∀ x ∈ l, Post x s' := by
  induction l generalizing s with
  | nil => exact ⟨s, rfl, hs, hrefl s, by simp⟩
  | cons a l ih =>
    obtain ⟨s1, h1, h2, h3, h4⟩ := hstep a (by simp) s hs
    obtain ⟨s', h5, h6, h7, h8⟩ := ih (fun x hx => hstep x (by simp [hx])) s1 h2
    refine ⟨s', by rw [List.foldlM_cons, h1, Res.bind_ok, h5], h6, htrans _ _ _ h7 h3, ?_⟩
    intro x hx
    rcases List.mem_cons.1 hx with rfl | hx
    · exact hmono _ _ _ h4 h7
    · exact h8 x hx

theorem mem_dotSpan {dots : List (Nat × Nat)} {idx : Nat} {x : Nat × Nat} (h : x ∈ dotSpan dots idx) :
    x ∈ dots ∧ x.1 = idx := by
  unfold dotSpan at h
  have h1 := (List.takeWhile_prefix _).subset h
  have h2 := (List.dropWhile_suffix _).subset h1
  have h3 := List.all_takeWhile (p := fun d : Nat × Nat => d.1 == idx)
    (l := dots.dropWhile fun d => !dotLe (idx, 0) d)
  rw [List.all_eq_true] at h3
  exact ⟨h2, by simpa using h3 x h⟩

theorem dotLe_iff {a b : Nat × Nat} : dotLe a b = true ↔ a.1 < b.1 ∨ (a.1 = b.1 ∧ a.2 ≤ b.2) := by
  simp [dotLe]

theorem mem_dotSpan_of {dots : List (Nat × Nat)} (hs : dots.Pairwise fun a b => dotLe a b = true)
    {x : Nat × Nat} (h : x ∈ dots) : x ∈ dotSpan dots x.1 := by
  unfold dotSpan
  -- after dropping, the list starts at or after `(idx, 0)`
  have key : ∀ l : List (Nat × Nat), l.Pairwise (fun a b => dotLe a b = true) → x ∈ l →
      (∀ y ∈ l, x.1 ≤ y.1) → x ∈ l.takeWhile fun d => d.1 == x.1 := by
    intro l
    induction l with
    | nil => intro _ h; simp at h
    | cons a l ih =>
      intro hp hx hge
      rw [List.pairwise_cons] at hp
      have ha := hge a (by simp)
      have hax : a.1 = x.1 := by
        rcases List.mem_cons.1 hx with rfl | hx
        · rfl
        · rcases dotLe_iff.1 (hp.1 x hx) with h | ⟨h, -⟩ <;> omega
      rw [List.takeWhile_cons, if_pos (by simpa using hax)]
      rcases List.mem_cons.1 hx with e | hx
      · rw [e]; simp
      · exact List.mem_cons_of_mem _ (ih hp.2 hx fun y hy => hge y (by simp [hy]))
  refine key _ (hs.sublist (List.dropWhile_suffix _).sublist) ?_ ?_
  · clear key hs
    induction dots with
    | nil => simp at h
    | cons a l ih =>
      rw [List.dropWhile_cons]
      split
      · next hc =>
        rcases List.mem_cons.1 h with e | h
        · exfalso
          rw [← e] at hc
          have : dotLe (x.1, 0) x = true := dotLe_iff.2 (.inr ⟨rfl, Nat.zero_le _⟩)
          rw [this] at hc
          simp at hc
        · exact ih h
      · exact h
  · clear key h
    induction dots with
    | nil => simp
    | cons a l ih =>
      rw [List.dropWhile_cons]
      rw [List.pairwise_cons] at hs
      split
      · exact ih hs.2
      · next hc =>
        have hle : dotLe (x.1, 0) a = true := by simpa using hc
        have ha : x.1 ≤ a.1 := by rcases dotLe_iff.1 hle with h | ⟨h, -⟩ <;> simp at h <;> omega
        intro y hy
        rcases List.mem_cons.1 hy with rfl | hy
        · exact ha
        · rcases dotLe_iff.1 (hs.1 y hy) with h | ⟨h, -⟩ <;> omega

theorem immediate_spec {g : Cfg} {K M : Nat} (hg : DistCtx g K M) {m : MinimalDistance}
    (hm : MInv g (K * M) m) (hl : LensOk g m) (dots : List (Nat × Nat)) (dir : DistanceDirection)
    (hdots : ∀ x ∈ dots, ∀ r, g.rules[x.1]? = some r → x.2 ≤ r.rhs.length) :
    ∃ m', m.immediate g dots dir = .ok m' ∧ Keeps g K M m m' ∧
      (dir ≠ .backward → dots.Pairwise (fun a b => dotLe a b = true) → ∀ x ∈ dots, Covered g x m') ∧
      (dir ≠ .forward → dots.Pairwise (fun a b => dotLe a b = true) →
        ∀ x ∈ dots, (∃ r, g.rules[x.1]? = some r) → CoveredBack g x m') ∧
      (dir = .forward → ∀ ds, (∀ x ∈ dots, x ∈ ds) → FSound g ds m → FSound g ds m') := by
  obtain ⟨m', h1, ⟨h2, h3, h3'⟩, h4, h5⟩ := foldlM_keeps
    (fun (m : MinimalDistance) (x : CfgRule × Nat) =>
      (dotSpan dots x.2).foldlM (fun m d => m.processDot x.2 x.1 dir d.2) m)
    (fun s => MInv g (K * M) s ∧ LensOk g s ∧ ∀ ds, dir = .forward → (∀ x ∈ dots, x ∈ ds) →
      FSound g ds m → FSound g ds s) MLe
    (fun x s => ∀ y ∈ dotSpan dots x.2, (dir ≠ .backward → Covered g y s) ∧
      (dir ≠ .forward → CoveredBack g y s)) MLe.refl
    (fun _ _ _ => MLe.trans) (fun x s s' h hle y hy => ⟨fun hd => ((h y hy).1 hd).mono hle,
      fun hd => ((h y hy).2 hd).mono hle⟩) g.rules.zipIdx
    (by
      rintro ⟨r, i⟩ hx s ⟨hs1, hs2, hs3⟩
      rw [List.mk_mem_zipIdx_iff_getElem?] at hx
      obtain ⟨s', k1, k2, k3, k4⟩ := foldlM_keeps
        (fun (m : MinimalDistance) (d : Nat × Nat) => m.processDot i r dir d.2)
        (fun s => MInv g (K * M) s ∧ LensOk g s ∧ ∀ ds, dir = .forward → (∀ x ∈ dots, x ∈ ds) →
          FSound g ds m → FSound g ds s) MLe
        (fun y s => (dir ≠ .backward → Covered g y s) ∧ (dir ≠ .forward → CoveredBack g y s)) MLe.refl
        (fun _ _ _ => MLe.trans) (fun x s s' h hle => ⟨fun hd => (h.1 hd).mono hle,
          fun hd => (h.2 hd).mono hle⟩) (dotSpan dots i)
        (by
          rintro ⟨i', p⟩ hy t ⟨ht1, ht2, ht3⟩
          obtain ⟨hy1, hy2⟩ := mem_dotSpan hy
          simp only at hy2
          subst hy2
          obtain ⟨t', l1, l2, l3, l3', l4⟩ := processDot_spec hg ht1 ht2 hx dir p (hdots _ hy1 r hx)
          exact ⟨t', l1, ⟨l2.inv, l2.lens, fun ds e hds hsnd =>
            l4 e ds (hds _ hy1) (ht3 ds e hds hsnd)⟩, l2.le, l3, l3'⟩) s ⟨hs1, hs2, hs3⟩
      exact ⟨s', k1, k2, k3, k4⟩) m ⟨hm, hl, fun _ _ _ h => h⟩
  refine ⟨m', h1, ⟨h2, h3, h4⟩, ?_, ?_, fun e ds hds hsnd => h3' ds e hds hsnd⟩
  · intro hd hsort x hx r hr
    exact (h5 (r, x.1) (by rw [List.mk_mem_zipIdx_iff_getElem?]; exact hr) x
      (mem_dotSpan_of hsort hx)).1 hd r hr
  · rintro hd hsort x hx ⟨r, hr⟩
    exact (h5 (r, x.1) (by rw [List.mk_mem_zipIdx_iff_getElem?]; exact hr) x
      (mem_dotSpan_of hsort hx)).2 hd

/-! ## Passes -/

theorem passRule_spec {g : Cfg} {K M : Nat} (hg : DistCtx g K M) {m : MinimalDistance}
    (hm : MInv g (K * M) m) (hl : LensOk g m) {i : Nat} {r : CfgRule} (hr : g.rules[i]? = some r)
    (changed : Bool) :
    ∃ m' changed', m.passRule r i changed = .ok (m', changed') ∧ Keeps g K M m m' ∧
      m'.total + (if changed' && !changed then 1 else 0) ≤ m.total ∧
      m'.distances.map List.length = m.distances.map List.length ∧
      (∀ dots, FSound g dots m → FSound g dots m') := by
  have hlhs : r.lhs < g.numSyms := (hg.wf r (List.mem_of_getElem? hr)).1
  have hfa : m.forwardDistances.after[r.lhs]? = some (tbl m.forwardDistances.after r.lhs) :=
    tbl_eq (by rw [hm.fwd.after]; exact hlhs)
  -- forward half
  obtain ⟨m1, c1, e1, k1, t1, q1, s1⟩ : ∃ m1 c1, m.passForward r i changed = .ok (m1, c1) ∧
      Keeps g K M m m1 ∧ m1.total + (if c1 && !changed then 1 else 0) ≤ m.total ∧
      m1.distances.map List.length = m.distances.map List.length ∧
      (∀ dots, FSound g dots m → FSound g dots m1) := by
    unfold MinimalDistance.passForward
    rw [Res.index_ok.2 hfa, Res.bind_ok]
    cases hd : tbl m.forwardDistances.after r.lhs with
    | none => exact ⟨m, changed, rfl, ⟨hm, hl, .refl _⟩, by cases changed <;> simp, rfl, fun _ h => h⟩
    | some distance =>
      obtain ⟨m', cur', ch, f1, f2, f3, f4, f5, f6, f7, f8, f9, f10⟩ :=
        updateForward_spec hg hm hl hr r.rhs.length (Nat.le_refl _) distance (hm.fwd.bound _ _ hd)
      rw [List.take_length] at f1
      refine ⟨m', changed || ch, ?_, ⟨f2, ⟨by rw [f6]; exact hl.1, by rw [f6]; exact hl.2⟩, f3⟩, ?_, f5,
        fun dots hs => ?_⟩
      · simp only [f1, Res.bind_ok]
      · cases changed <;> cases ch <;> simp at f4 ⊢ <;> omega
      · obtain ⟨i', r', p, h1, h2, h3⟩ := hs.fwd.1 _ _ hd
        exact (f9 dots hs (.complete h1 hr h2 h3)).1
  have hba : m1.backwardDistances.after[r.lhs]? = some (tbl m1.backwardDistances.after r.lhs) :=
    tbl_eq (by rw [k1.inv.bwd.after]; exact hlhs)
  unfold MinimalDistance.passRule
  rw [e1, Res.bind_ok]
  dsimp only
  unfold MinimalDistance.passBackward
  rw [Res.index_ok.2 hba, Res.bind_ok]
  cases hd : tbl m1.backwardDistances.after r.lhs with
  | none => exact ⟨m1, c1, rfl, k1, t1, q1, s1⟩
  | some distance =>
    obtain ⟨m', cur', ch, f1, f2, f3, f4, f5, f6, f8, -⟩ :=
      updateBackward_spec hg k1.inv k1.lens hr r.rhs (Nat.le_refl _) (fun _ h => h) distance
        (k1.inv.bwd.bound _ _ hd)
    refine ⟨m', c1 || ch, ?_, ⟨f2, ⟨by rw [f6]; exact k1.lens.1, by rw [f6]; exact k1.lens.2⟩,
      f3.trans k1.le⟩, ?_, f5.trans q1, fun dots hs => ?_⟩
    · simp only [f1, Res.bind_ok]
    · cases changed <;> cases ch <;> cases c1 <;> simp at f4 t1 ⊢ <;> omega
    · have := (s1 dots hs).bwd r.lhs
      rw [hd] at this; cases this

theorem pass_spec {g : Cfg} {K M : Nat} (hg : DistCtx g K M) {m : MinimalDistance}
    (hm : MInv g (K * M) m) (hl : LensOk g m) :
    ∃ m' changed, m.pass g = .ok (m', changed) ∧ Keeps g K M m m' ∧
      m'.total + (if changed then 1 else 0) ≤ m.total ∧
      m'.distances.map List.length = m.distances.map List.length ∧
      (∀ dots, FSound g dots m → FSound g dots m') := by
  obtain ⟨⟨m', ch⟩, h1, ⟨h2, h3, h4, h5, h6, h7⟩, -⟩ := foldlM_keeps
    (fun (st : MinimalDistance × Bool) (x : CfgRule × Nat) => st.1.passRule x.1 x.2 st.2)
    (fun st => MInv g (K * M) st.1 ∧ LensOk g st.1 ∧ MLe st.1 m ∧
      st.1.total + (if st.2 then 1 else 0) ≤ m.total ∧
      st.1.distances.map List.length = m.distances.map List.length ∧
      (∀ dots, FSound g dots m → FSound g dots st.1)) (fun _ _ => True) (fun _ _ => True)
    (fun _ => trivial) (fun _ _ _ _ _ => trivial) (fun _ _ _ _ _ => trivial) g.rules.zipIdx
    (by
      rintro ⟨r, i⟩ hx ⟨s, c⟩ ⟨k1, k2, k3, k4, k5, k6⟩
      rw [List.mk_mem_zipIdx_iff_getElem?] at hx
      obtain ⟨s', c', l1, l2, l3, l4, l5⟩ := passRule_spec hg k1 k2 hx c
      refine ⟨(s', c'), l1, ⟨l2.inv, l2.lens, l2.le.trans k3, ?_, l4.trans k5,
        fun dots h => l5 dots (k6 dots h)⟩, trivial, trivial⟩
      revert l3 k4
      cases c <;> cases c' <;> simp <;> omega) (m, false)
    ⟨hm, hl, .refl _, by simp, rfl, fun _ h => h⟩
  exact ⟨m', ch, h1, ⟨h2, h3, h4⟩, h5, h6, h7⟩

theorem transitive_spec {g : Cfg} {K M : Nat} (hg : DistCtx g K M) (fuel : Nat) {m : MinimalDistance}
    (hm : MInv g (K * M) m) (hl : LensOk g m) (hf : m.total < fuel) :
    ∃ m', MinimalDistance.transitive g fuel m = .ok m' ∧ Keeps g K M m m' ∧
      (∀ dots, FSound g dots m → FSound g dots m') := by
  induction fuel generalizing m with
  | zero => omega
  | succ fuel ih =>
    obtain ⟨m1, ch, h1, h2, h3, h4, h5⟩ := pass_spec hg hm hl
    unfold MinimalDistance.transitive
    rw [h1, Res.bind_ok]
    cases ch with
    | false => exact ⟨m1, rfl, h2, h5⟩
    | true =>
      obtain ⟨m', k1, k2, k3⟩ := ih h2.inv h2.lens (by simp at h3; omega)
      exact ⟨m', by simpa using k1, ⟨k2.inv, k2.lens, k2.le.trans h2.le⟩, fun ds h => k3 ds (h5 ds h)⟩

/-! ## Calls -/

theorem tbl_replicate (n : Nat) (s : Sym) : tbl (List.replicate n none) s = none := by
  unfold tbl
  rw [List.getElem?_replicate]
  split <;> rfl

theorem potential_replicate (n : Nat) : potential (List.replicate n none) = n * 2 ^ 32 := by
  unfold potential
  induction n with
  | zero => rfl
  | succ n ih =>
    rw [List.replicate_succ, List.map_cons, List.sum_cons, ih, Option.getD_none, Nat.succ_mul,
      Nat.add_comm]

/-- What holds of the state between calls. -/
structure Between (g : Cfg) (K M : Nat) (m : MinimalDistance) : Prop where
  inv : MInv g (K * M) m
  lens : LensSound g m.minLength
  small : ∀ s v, tbl m.minLength s = some v → v ≤ M

theorem between_new {g : Cfg} {K M : Nat} : Between g K M (MinimalDistance.new g) := by
  have hd : DInv g.numSyms (K * M) (Distances.new g.numSyms) :=
    ⟨by simp [Distances.new], by simp [Distances.new], fun s v h => by
      simp only [Distances.new, tbl_replicate] at h; cases h⟩
  refine ⟨⟨by simp [MinimalDistance.new], ?_, hd, hd, ?_⟩, ⟨by simp [MinimalDistance.new], ?_⟩, ?_⟩
  · intro i r row hr hrow
    simp only [MinimalDistance.new, List.getElem?_map, hr, Option.map_some, Option.some.injEq] at hrow
    rw [← hrow]; simp
  · unfold MinimalDistance.total MinimalDistance.new
    simp only [List.map_map]
    generalize g.rules = l
    have e1 : (potential ∘ fun rule : CfgRule => List.replicate (rule.rhs.length + 1) none) =
        fun rule => (rule.rhs.length + 1) * 2 ^ 32 := by
      funext r; simp only [Function.comp, potential_replicate]
    have e2 : (List.length ∘ fun rule : CfgRule =>
        List.replicate (rule.rhs.length + 1) (none : Option Nat)) = fun rule => rule.rhs.length + 1 := by
      funext r; simp only [Function.comp, List.length_replicate]
    rw [e1, e2]
    generalize 2 ^ 32 = N
    induction l with
    | nil => simp
    | cons a l ih =>
      simp only [List.map_cons, List.sum_cons]
      rw [Nat.add_mul (a.rhs.length + 1)]
      omega
  · intro s v h
    simp only [MinimalDistance.new, tbl_replicate] at h; cases h
  · intro s v h
    simp only [MinimalDistance.new, tbl_replicate] at h; cases h

theorem distanceCall_spec {g : Cfg} {K M : Nat} (hg : DistCtx g K M) {m : MinimalDistance}
    (hm : Between g K M m) (dots : List (Nat × Nat)) (dir : DistanceDirection)
    (hdots : ∀ x ∈ dots, ∀ r, g.rules[x.1]? = some r → x.2 ≤ r.rhs.length) :
    ∃ m', m.minimalDistances g dots dir = .ok m' ∧ Between g K M m' ∧ MLe m' m ∧ LensOk g m' ∧
      (dir ≠ .backward → ∀ x ∈ dots, Covered g x m') ∧
      (dir ≠ .forward → ∀ x ∈ dots, (∃ r, g.rules[x.1]? = some r) → CoveredBack g x m') ∧
      (dir = .forward → ∀ ds, (∀ x ∈ dots, x ∈ ds) → FSound g ds m → FSound g ds m') := by
  set ds' := dots.insertionSort fun a b => dotLe a b with hds'
  have hmem : ∀ x, x ∈ ds' ↔ x ∈ dots := fun x => (List.perm_insertionSort _ _).mem_iff
  have hsort : ds'.Pairwise fun a b => dotLe a b = true := by
    have : Std.Total (fun a b => dotLe a b = true) := ⟨fun a b => by
      rw [dotLe_iff, dotLe_iff]; omega⟩
    have : IsTrans (Nat × Nat) (fun a b => dotLe a b = true) := ⟨fun a b c => by
      rw [dotLe_iff, dotLe_iff, dotLe_iff]; omega⟩
    exact List.pairwise_insertionSort _ _
  rcases minimalSentenceLengths_spec hg.wf m.minLength hm.lens M K hg.oneM hm.small hg.oneK hg.len with
    ⟨-, h⟩ | ⟨ml, l1, l2, l3⟩
  · exact absurd hg.pow h
  have hl : LensOk g { m with minLength := ml } := ⟨l2, l3⟩
  have hi : MInv g (K * M) { m with minLength := ml } :=
    ⟨hm.inv.rowsLen, hm.inv.rows, hm.inv.fwd, hm.inv.bwd, hm.inv.pot⟩
  obtain ⟨m1, i1, i2, i3, i3', i4⟩ := immediate_spec hg hi hl ds' dir
    (fun x hx => hdots x ((hmem x).1 hx))
  obtain ⟨m', t1, t2, t3⟩ := transitive_spec hg m1.fuel i2.inv i2.lens (by
    have := i2.inv.pot
    unfold MinimalDistance.fuel
    omega)
  refine ⟨m', ?_, ⟨t2.inv, ⟨t2.lens.1, fun s v h => ?_⟩, fun s v h =>
    hg.all s v ((t2.lens.2 s v).1 h)⟩, ?_, t2.lens, ?_, ?_, ?_⟩
  · unfold MinimalDistance.minimalDistances
    simp only [l1, Res.bind_ok]
    rw [i1, Res.bind_ok, t1]
  · have h1 := (t2.lens.2 s v).1 h
    refine ⟨?_, h1.1⟩
    have h2 := hg.all s v h1
    have h3 : M ≤ M * K ^ (g.numSyms + 1) := Nat.le_mul_of_pos_right _ (Nat.pow_pos hg.oneK)
    have := hg.pow
    omega
  · exact t2.le.trans i2.le
  · intro hd x hx
    exact (i3 hd hsort x ((hmem x).2 hx)).mono t2.le
  · intro hd x hx hr
    exact (i3' hd hsort x ((hmem x).2 hx) hr).mono t2.le
  · intro e ds hds hs
    exact t3 ds (i4 e ds (fun x hx => hds x ((hmem x).1 hx)) ⟨hs.rows, hs.fwd, hs.bwd⟩)

end Verif
