import Verif.Spec.PrecTrees
import Verif.Proofs.Precedence
import Verif.Proofs.TreesCut

/-! # Parse trees of precedenced rules -/

namespace Verif

theorem IsForest.terminals {rules : List (Sym × List Sym)} {T : Sym → Prop} {α : List Sym}
    {f : Forest} {w : List Sym} (h : IsForest rules T α f w) : ∀ a ∈ w, T a := by
  induction h with
  | nil => simp
  | leaf ht _ ih => simpa using ⟨ht, ih⟩
  | node _ _ _ _ ihc ih =>
    intro a ha
    exact (List.mem_append.1 ha).elim (ihc a) (ih a)

theorem IsForest.change {rules : List (Sym × List Sym)} {T T' : Sym → Prop} {α : List Sym}
    {f : Forest} {w : List Sym} (h : IsForest rules T α f w) (hw : ∀ a ∈ w, T a → T' a)
    (hT : ∀ r ∈ rules, ¬ T r.1 → ¬ T' r.1) : IsForest rules T' α f w := by
  induction h with
  | nil => exact .nil
  | leaf ht _ ih => exact .leaf (hw _ (by simp) ht) (ih fun a ha => hw a (by simp [ha]))
  | node hi hn _ _ ihc ih =>
    exact .node hi (hT _ (List.mem_of_getElem? hi) hn) (ihc fun a ha => hw a (by simp [ha]))
      (ih fun a ha => hw a (by simp [ha]))

namespace PrecForest

variable {rules : List (Sym × List Sym)} {T : Sym → Prop} {lhs : Sym} {m : Nat} {st : Nat → Nat}
  {alts : List Alternative}

theorem append {l l' : List Occ} {f f' : Forest} {w w' : List Sym}
    (h : PrecForest rules T lhs m st alts l f w) (h' : PrecForest rules T lhs m st alts l' f' w') :
    PrecForest rules T lhs m st alts (l ++ l') (f.append f') (w ++ w') := by
  induction h with
  | nil => exact h'
  | leaf ht _ ih => exact .leaf ht ih
  | rule hi hc _ _ ih => rw [List.append_assoc]; exact .rule hi hc ih
  | alt hi hc _ _ ih => rw [List.append_assoc]; exact .alt hi hc ih
  | altBelow hi hl hc _ _ ih => rw [List.append_assoc]; exact .altBelow hi hl hc ih

theorem split {l l' : List Occ} {f : Forest} {w : List Sym}
    (h : PrecForest rules T lhs m st alts (l ++ l') f w) :
    ∃ f₁ f₂ u v, f = f₁.append f₂ ∧ w = u ++ v ∧ PrecForest rules T lhs m st alts l f₁ u ∧
      PrecForest rules T lhs m st alts l' f₂ v := by
  induction l generalizing f w with
  | nil => exact ⟨.nil, f, [], w, rfl, rfl, .nil, h⟩
  | cons o l ih =>
    rw [List.cons_append] at h
    cases h with
    | leaf ht h =>
      obtain ⟨f₁, f₂, u, v, rfl, rfl, h1, h2⟩ := ih h
      exact ⟨.leaf _ f₁, f₂, _ :: u, v, rfl, rfl, .leaf ht h1, h2⟩
    | rule hi hc h =>
      obtain ⟨f₁, f₂, u, v, rfl, rfl, h1, h2⟩ := ih h
      exact ⟨.node _ _ f₁, f₂, _ ++ u, v, rfl, (List.append_assoc ..).symm, .rule hi hc h1, h2⟩
    | alt hi hc h =>
      obtain ⟨f₁, f₂, u, v, rfl, rfl, h1, h2⟩ := ih h
      exact ⟨.node _ _ f₁, f₂, _ ++ u, v, rfl, (List.append_assoc ..).symm, .alt hi hc h1, h2⟩
    | altBelow hi hl hc h =>
      obtain ⟨f₁, f₂, u, v, rfl, rfl, h1, h2⟩ := ih h
      exact ⟨.node _ _ f₁, f₂, _ ++ u, v, rfl, (List.append_assoc ..).symm, .altBelow hi hl hc h1, h2⟩

theorem loosen {b b' : Nat} {f : Forest} {w : List Sym}
    (h : PrecForest rules T lhs m st alts [.below b] f w) (hb : b ≤ b') :
    PrecForest rules T lhs m st alts [.below b'] f w := by
  cases h with
  | altBelow hi hl hc h => exact .altBelow hi (by omega) hc h

theorem below_any {b : Nat} {f : Forest} {w : List Sym}
    (h : PrecForest rules T lhs m st alts [.below b] f w) :
    PrecForest rules T lhs m st alts [.any lhs] f w := by
  cases h with
  | altBelow hi hl hc h => exact .alt hi hc h

theorem belowNode {b : Nat} {f : Forest} {w : List Sym}
    (h : PrecForest rules T lhs m st alts [.below b] f w) :
    ∃ j a c, f = .node (rules.length + j) c .nil ∧ alts[j]? = some a ∧ a.level < b ∧
      PrecForest rules T lhs m st alts (a.marks lhs m st) c w := by
  cases h with
  | @altBelow j _ a c f u v _ hi hl hc h =>
    cases h
    exact ⟨j, a, c, rfl, hi, hl, by simpa using hc⟩

/-- A tree that respects the precedence is a tree of the ambiguous grammar. -/
theorem isForest {l : List Occ} {f : Forest} {w : List Sym}
    (h : PrecForest rules T lhs m st alts l f w) (hT : ∀ r ∈ rules, ¬ T r.1) (hl : ¬ T lhs) :
    IsForest (rules ++ alts.map fun a => (lhs, a.rhs)) T (l.map (occSym fun _ => lhs)) f w := by
  have halt : ∀ {j : Nat} {a : Alternative}, alts[j]? = some a →
      (rules ++ alts.map fun a => (lhs, a.rhs))[rules.length + j]? = some (lhs, a.rhs) := by
    intro j a h
    rw [List.getElem?_append_right (by omega)]
    simp [h]
  induction h with
  | nil => exact .nil
  | leaf ht _ ih => exact .leaf ht ih
  | @rule i A β c f u v l hi _ _ ihc ih =>
    have e : (β.map Occ.any).map (occSym fun _ => lhs) = β := by simp [Function.comp_def, occSym]
    rw [e] at ihc
    have hi' := (List.getElem?_eq_some_iff.1 hi).1
    exact .node (by rw [List.getElem?_append_left hi']; exact hi)
      (hT _ (List.mem_of_getElem? hi)) ihc ih
  | alt hi _ _ ihc ih =>
    rw [map_occSym_lhs] at ihc
    exact .node (halt hi) hl ihc ih
  | altBelow hi _ _ _ ihc ih =>
    rw [map_occSym_lhs] at ihc
    exact .node (halt hi) hl ihc ih

end PrecForest

/-! ## The rules made by the builder -/

/-- The number of the alternative. -/
def PTag.orig (n : Nat) : PTag → Option Nat
  | .alt j _ => some (n + j)
  | _ => none

/-- The rules after the first `n` are unit rules or alternatives. -/
def precOrig (n : Nat) (Q : List PTag) (i : Nat) : Option Nat :=
  if i < n then some i
  else match Q[i - n]? with
    | some (.alt j _) => some (n + j)
    | _ => none

/-- The facts about the rules made by the builder. -/
structure PrecRules (rules : List (Sym × List Sym)) (T : Sym → Prop) (N : Nat) (lhs : Sym) (m : Nat)
    (Ls : Nat → Sym) (alts : List Alternative) (Q : List PTag) : Prop where
  nodup : Q.Nodup
  hunit : ∀ k, .unit k ∈ Q ↔ k < m
  halt : ∀ j a, .alt j a ∈ Q ↔ alts[j]? = some a
  hfinal : .final ∈ Q
  hN : ∀ (i : Nat) A β, rules[i]? = some (A, β) → A < N ∧ (∀ x ∈ β, x < N) ∧ ¬ T A
  hlhs : lhs < N
  hTl : ¬ T lhs
  hT : ∀ a, T a → a < N
  hrhs : ∀ (j : Nat) a, alts[j]? = some a → a.level ≤ m ∧ ∀ x ∈ a.rhs, x < N
  hLs : ∀ i, i ≤ m → N ≤ Ls i
  inj : ∀ i j, i ≤ m → j ≤ m → Ls i = Ls j → i = j

namespace PrecRules

variable {rules : List (Sym × List Sym)} {T : Sym → Prop} {N : Nat} {lhs : Sym} {m : Nat}
  {Ls : Nat → Sym} {alts : List Alternative} {Q : List PTag}

/-- All the rules. -/
def all (rules : List (Sym × List Sym)) (lhs : Sym) (m : Nat) (Ls : Nat → Sym) (Q : List PTag) :
    List (Sym × List Sym) := rules ++ Q.map (PTag.pair lhs m Ls)

/-- What a rule can be. -/
theorem cases (i : Nat) {A : Sym} {β : List Sym} (h : (all rules lhs m Ls Q)[i]? = some (A, β)) :
    (i < rules.length ∧ rules[i]? = some (A, β) ∧ precOrig rules.length Q i = some i) ∨
    (rules.length ≤ i ∧ ∃ t, Q[i - rules.length]? = some t ∧ (A, β) = t.pair lhs m Ls) := by
  unfold all at h
  by_cases hi : i < rules.length
  · rw [List.getElem?_append_left hi] at h
    exact .inl ⟨hi, h, by simp [precOrig, hi]⟩
  · rw [List.getElem?_append_right (by omega), List.getElem?_map, Option.map_eq_some_iff] at h
    obtain ⟨t, h1, h2⟩ := h
    exact .inr ⟨by omega, t, h1, h2.symm⟩

theorem orig_of {i : Nat} (hi : rules.length ≤ i) {t : PTag} (ht : Q[i - rules.length]? = some t) :
    precOrig rules.length Q i = t.orig rules.length := by
  unfold precOrig
  rw [if_neg (by omega), ht]
  cases t <;> rfl

theorem get {t : PTag} (ht : t ∈ Q) : ∃ i, rules.length ≤ i ∧ Q[i - rules.length]? = some t ∧
    (all rules lhs m Ls Q)[i]? = some (t.pair lhs m Ls) := by
  obtain ⟨i, hi⟩ := List.mem_iff_getElem?.1 ht
  refine ⟨rules.length + i, by omega, by simpa using hi, ?_⟩
  unfold all
  rw [List.getElem?_append_right (by omega)]
  simp [hi]

/-- Occurrences that stand for symbols. -/
def Ok (N m : Nat) (l : List Occ) : Prop := ∀ o ∈ l, (∃ s, s < N ∧ o = .any s) ∨
  ∃ b, 1 ≤ b ∧ b ≤ m + 1 ∧ o = .below b

theorem Ok.tail {o : Occ} {l : List Occ} (h : Ok N m (o :: l)) : Ok N m l :=
  fun o ho => h o (by simp [ho])

theorem Ok.anys {β : List Sym} (h : ∀ x ∈ β, x < N) : Ok N m (β.map .any) := by
  intro o ho
  obtain ⟨s, hs, rfl⟩ := List.mem_map.1 ho
  exact .inl ⟨s, h s hs, rfl⟩

theorem Ok.below {b : Nat} (h1 : 1 ≤ b) (h2 : b ≤ m + 1) : Ok N m [.below b] := by
  intro o ho
  rw [List.mem_singleton] at ho
  exact .inr ⟨b, h1, h2, ho⟩

theorem ok_marks (h : PrecRules rules T N lhs m Ls alts Q) {j : Nat} {a : Alternative}
    (ha : alts[j]? = some a) : Ok N m (a.marks lhs m codeStrict) := by
  intro o ho
  rcases mem_marks ho with ⟨s, hs, -, rfl⟩ | ⟨-, b, rfl, -⟩
  · exact .inl ⟨s, (h.hrhs j a ha).2 s hs, rfl⟩
  · obtain ⟨h1, h2⟩ := marks_bounds (h.hrhs j a ha).1 ho
    exact .inr ⟨b, h1, h2, rfl⟩

theorem any_of (h : PrecRules rules T N lhs m Ls alts Q) {o : Occ} {l : List Occ}
    (hok : Ok N m (o :: l)) (hs : occSym Ls o < N) : o = .any (occSym Ls o) := by
  rcases hok o (by simp) with ⟨s, -, rfl⟩ | ⟨b, h1, h2, rfl⟩
  · rfl
  · have := h.hLs (b - 1) (by omega)
    simp only [occSym] at hs
    omega

theorem below_of (h : PrecRules rules T N lhs m Ls alts Q) {o : Occ} {l : List Occ}
    (hok : Ok N m (o :: l)) {i : Nat} (hi : i ≤ m) (hs : occSym Ls o = Ls i) :
    o = .below (i + 1) := by
  rcases hok o (by simp) with ⟨s, h1, rfl⟩ | ⟨b, h1, h2, rfl⟩
  · have := h.hLs i hi
    simp only [occSym] at hs
    omega
  · have := h.inj (b - 1) i (by omega) hi hs
    congr 1
    omega

theorem map_any (β : List Sym) : (β.map Occ.any).map (occSym Ls) = β := by
  simp [Function.comp_def, occSym]

theorem toPrec (h : PrecRules rules T N lhs m Ls alts Q) {α : List Sym} {f : Forest} {w : List Sym}
    (hf : IsForest (all rules lhs m Ls Q) T α f w) (l : List Occ) (hok : Ok N m l)
    (e : α = l.map (occSym Ls)) :
    PrecForest rules T lhs m codeStrict alts l (f.flat (precOrig rules.length Q)) w := by
  induction hf generalizing l with
  | nil =>
    cases l with
    | nil => exact .nil
    | cons => cases e
  | @leaf s α f w ht _ ih =>
    cases l with
    | nil => cases e
    | cons o l =>
      obtain ⟨e1, e2⟩ := List.cons.inj e
      have := h.any_of hok (by rw [← e1]; exact h.hT s ht)
      rw [← e1] at this
      subst this
      exact .leaf ht (ih l hok.tail e2)
  | @node i A c f β u v α hi hn _ _ ihc ih =>
    cases l with
    | nil => cases e
    | cons o l =>
      obtain ⟨e1, e2⟩ := List.cons.inj e
      have ih := ih l hok.tail e2
      rcases cases i hi with ⟨hlt, hr, ho⟩ | ⟨hle, t, ht, ep⟩
      · obtain ⟨hA, hβ, -⟩ := h.hN i A β hr
        have hoo := h.any_of hok (by rw [← e1]; exact hA)
        rw [← e1] at hoo
        subst hoo
        simp only [Forest.flat, ho]
        exact .rule hr (ihc _ (.anys hβ) (map_any β).symm) ih
      · have ho := orig_of hle ht
        have hm := List.mem_of_getElem? ht
        obtain ⟨ea, eb⟩ := Prod.mk.inj ep
        cases t with
        | unit k =>
          simp only [Forest.flat, ho, PTag.orig]
          have hk := (h.hunit k).1 hm
          have hoo := h.below_of hok (i := k + 1) (by omega) (e1.symm.trans ea)
          subst hoo
          have := ihc [.below (k + 1)] (.below (by omega) (by omega)) eb
          exact (this.loosen (by omega)).append ih
        | alt j a =>
          simp only [Forest.flat, ho, PTag.orig]
          have ha := (h.halt j a).1 hm
          have hoo := h.below_of hok (h.hrhs j a ha).1 (e1.symm.trans ea)
          subst hoo
          exact .altBelow ha (by omega) (ihc _ (h.ok_marks ha) eb) ih
        | final =>
          simp only [Forest.flat, ho, PTag.orig]
          have ea : A = lhs := ea
          have hoo := h.any_of hok (by rw [← e1, ea]; exact h.hlhs)
          rw [← e1, ea] at hoo
          subst hoo
          have := ihc [.below (m + 1)] (.below (by omega) (by omega)) eb
          exact this.below_any.append ih

/-- The rule at the root of a tree, from its symbol and the rule at the root after leaving out. -/
def Root (rules : List (Sym × List Sym)) (N : Nat) (lhs : Sym) (m : Nat) (Ls : Nat → Sym)
    (alts : List Alternative) (Q : List PTag) (i : Nat) (A : Sym) (r : Nat) : Prop :=
  (i < rules.length ∧ r = i ∧ A < N) ∨
  (rules.length ≤ i ∧ ∃ k, Q[i - rules.length]? = some (.unit k) ∧ k < m ∧ A = Ls (k + 1) ∧
    ∃ j a, r = rules.length + j ∧ alts[j]? = some a ∧ a.level ≤ k) ∨
  (rules.length ≤ i ∧ ∃ j a, Q[i - rules.length]? = some (.alt j a) ∧ A = Ls a.level ∧
    r = rules.length + j ∧ alts[j]? = some a) ∨
  (rules.length ≤ i ∧ Q[i - rules.length]? = some .final ∧ A = lhs ∧ rules.length ≤ r)

theorem tag_index (h : PrecRules rules T N lhs m Ls alts Q) {i i' : Nat} {t : PTag}
    (hi : rules.length ≤ i) (hi' : rules.length ≤ i') (e : Q[i - rules.length]? = some t)
    (e' : Q[i' - rules.length]? = some t) : i = i' := by
  obtain ⟨h1, e⟩ := List.getElem?_eq_some_iff.1 e
  obtain ⟨h1', e'⟩ := List.getElem?_eq_some_iff.1 e'
  have := (h.nodup.getElem_inj_iff (hi := h1) (hj := h1')).1 (e.trans e'.symm)
  omega

theorem Root.unique (h : PrecRules rules T N lhs m Ls alts Q) {i i' : Nat} {A : Sym} {r : Nat}
    (hr : Root rules N lhs m Ls alts Q i A r) (hr' : Root rules N lhs m Ls alts Q i' A r) : i = i' := by
  have hlhs := h.hlhs
  rcases hr with ⟨h1, h2, h3⟩ | ⟨h1, k, h2, h3, h4, j, a, h5, h6, h7⟩ |
      ⟨h1, j, a, h2, h3, h4, h5⟩ | ⟨h1, h2, h3, h4⟩ <;>
    rcases hr' with ⟨h1', h2', h3'⟩ | ⟨h1', k', h2', h3', h4', j', a', h5', h6', h7'⟩ |
      ⟨h1', j', a', h2', h3', h4', h5'⟩ | ⟨h1', h2', h3', h4'⟩
  · omega
  · have := h.hLs (k' + 1) (by omega); omega
  · have := h.hLs a'.level (h.hrhs _ _ h5').1; omega
  · omega
  · have := h.hLs (k + 1) (by omega); omega
  · have := h.inj (k + 1) (k' + 1) (by omega) (by omega) (h4.symm.trans h4')
    obtain rfl : k = k' := by omega
    exact h.tag_index h1 h1' h2 h2'
  · obtain rfl : j = j' := by omega
    cases h6.symm.trans h5'
    have := h.inj (k + 1) a.level (by omega) (h.hrhs _ _ h5').1 (h4.symm.trans h3')
    omega
  · have := h.hLs (k + 1) (by omega); omega
  · have := h.hLs a.level (h.hrhs _ _ h5).1; omega
  · obtain rfl : j = j' := by omega
    cases h5.symm.trans h6'
    have := h.inj (k' + 1) a.level (by omega) (h.hrhs _ _ h5).1 (h4'.symm.trans h3)
    omega
  · obtain rfl : j = j' := by omega
    cases h5.symm.trans h5'
    exact h.tag_index h1 h1' h2 h2'
  · have := h.hLs a.level (h.hrhs _ _ h5).1; omega
  · omega
  · have := h.hLs (k' + 1) (by omega); omega
  · have := h.hLs a'.level (h.hrhs _ _ h5').1; omega
  · exact h.tag_index h1 h1' h2 h2'

/-- The rule at the root. -/
theorem root (h : PrecRules rules T N lhs m Ls alts Q) {i : Nat} {A : Sym} {β u : List Sym}
    {c f : Forest} (hi : (all rules lhs m Ls Q)[i]? = some (A, β))
    (hc : IsForest (all rules lhs m Ls Q) T β c u) :
    ∃ r c' f', (Forest.node i c f).flat (precOrig rules.length Q) = .node r c' f' ∧
      Root rules N lhs m Ls alts Q i A r := by
  rcases cases i hi with ⟨hlt, hr, ho⟩ | ⟨hle, t, ht, ep⟩
  · exact ⟨_, _, _, by simp only [Forest.flat, ho]; rfl, .inl ⟨hlt, rfl, (h.hN i A β hr).1⟩⟩
  · have ho := orig_of hle ht
    have hm := List.mem_of_getElem? ht
    obtain ⟨ea, eb⟩ := Prod.mk.inj ep
    cases t with
    | unit k =>
      simp only [Forest.flat, ho, PTag.orig]
      have hk := (h.hunit k).1 hm
      obtain ⟨j, a, c', e, h1, h2, -⟩ :=
        (h.toPrec hc [.below (k + 1)] (.below (by omega) (by omega)) eb).belowNode
      rw [e]
      exact ⟨_, _, _, rfl, .inr (.inl ⟨hle, k, ht, hk, ea, j, a, rfl, h1, by omega⟩)⟩
    | alt j a =>
      have ha := (h.halt j a).1 hm
      exact ⟨_, _, _, by simp only [Forest.flat, ho, PTag.orig]; rfl, .inr (.inr (.inl ⟨hle, j, a, ht, ea, rfl, ha⟩))⟩
    | final =>
      simp only [Forest.flat, ho, PTag.orig]
      obtain ⟨j, a, c', e, h1, h2, -⟩ :=
        (h.toPrec hc [.below (m + 1)] (.below (by omega) (by omega)) eb).belowNode
      rw [e]
      exact ⟨_, _, _, rfl, .inr (.inr (.inr ⟨hle, ht, ea, by omega⟩))⟩

theorem injective (h : PrecRules rules T N lhs m Ls alts Q) {α : List Sym} {f f' : Forest}
    {w w' : List Sym} (hf : IsForest (all rules lhs m Ls Q) T α f w)
    (hf' : IsForest (all rules lhs m Ls Q) T α f' w')
    (e : f.flat (precOrig rules.length Q) = f'.flat (precOrig rules.length Q)) : f = f' := by
  induction hf generalizing f' w' with
  | nil => cases hf'; rfl
  | leaf ht _ ih =>
    cases hf' with
    | leaf _ hf' =>
      simp only [Forest.flat, Forest.leaf.injEq, true_and] at e
      rw [ih hf' e]
    | node hi hn => exact absurd ht hn
  | @node i A c f β u v α hi hn hc hf₀ ihc ih =>
    cases hf' with
    | leaf ht _ => exact absurd ht hn
    | @node i' _ c' f' β' u' v' _ hi' hn' hc' hf' =>
      obtain ⟨r, d, g, e1, hr⟩ := h.root (f := f) hi hc
      obtain ⟨r', d', g', e1', hr'⟩ := h.root (f := f') hi' hc'
      rw [e1, e1'] at e
      obtain ⟨rfl, -, -⟩ := Forest.node.inj e
      obtain rfl := hr.unique h hr'
      have e := e1.trans (e.trans e1'.symm)
      cases hi.symm.trans hi'
      simp only [Forest.flat] at e
      cases ho : precOrig rules.length Q i with
      | some j =>
        rw [ho] at e
        obtain ⟨-, e2, e3⟩ := Forest.node.inj e
        rw [ihc hc' e2, ih hf' e3]
      | none =>
        rw [ho] at e
        simp only at e
        have hsing : ∃ b, 1 ≤ b ∧ b ≤ m + 1 ∧ β = [Occ.below b].map (occSym Ls) := by
          rcases cases i hi with ⟨hlt, hr, ho'⟩ | ⟨hle, t, ht, ep⟩
          · cases ho.symm.trans ho'
          · have ho' := ho.symm.trans (orig_of hle ht)
            have hm := List.mem_of_getElem? ht
            obtain ⟨ea, eb⟩ := Prod.mk.inj ep
            cases t with
            | unit k =>
              have hk := (h.hunit k).1 hm
              exact ⟨k + 1, by omega, by omega, eb⟩
            | alt j a => cases ho'
            | final => exact ⟨m + 1, by omega, by omega, eb⟩
        obtain ⟨b, hb1, hb2, eb⟩ := hsing
        obtain ⟨j, a, d, e2, -⟩ := (h.toPrec hc [.below b] (.below hb1 hb2) eb).belowNode
        obtain ⟨j', a', d', e2', -⟩ := (h.toPrec hc' [.below b] (.below hb1 hb2) eb).belowNode
        have e3 := e
        rw [e2, e2'] at e3
        obtain ⟨e4, e5, e6⟩ := Forest.node.inj e3
        rw [ihc hc' (by rw [e2, e2', e4, e5]), ih hf' e6]

theorem chain (h : PrecRules rules T N lhs m Ls alts Q) {i j : Nat} (hij : i ≤ j) (hj : j ≤ m)
    {f : Forest} {w : List Sym} (hf : IsForest (all rules lhs m Ls Q) T [Ls i] f w) :
    ∃ f', IsForest (all rules lhs m Ls Q) T [Ls j] f' w ∧
      f'.flat (precOrig rules.length Q) = f.flat (precOrig rules.length Q) := by
  induction j with
  | zero =>
    obtain rfl : i = 0 := by omega
    exact ⟨f, hf, rfl⟩
  | succ j ih =>
    by_cases e : i = j + 1
    · subst e; exact ⟨f, hf, rfl⟩
    · obtain ⟨f', h1, h2⟩ := ih (by omega) (by omega)
      obtain ⟨r, hr, ht, hp⟩ := get (lhs := lhs) (m := m) (Ls := Ls) (rules := rules)
        ((h.hunit j).2 (by omega))
      refine ⟨.node r f' .nil, ?_, ?_⟩
      · have := IsForest.node hp (fun hT => by
          have := h.hT _ hT
          have := h.hLs (j + 1) hj
          simp only [PTag.pair] at *
          omega) h1 .nil
        simpa using this
      · simp only [Forest.flat, orig_of hr ht, PTag.orig, Forest.append_nil, h2]

theorem surjective (h : PrecRules rules T N lhs m Ls alts Q) {l : List Occ} {f : Forest}
    {w : List Sym} (hf : PrecForest rules T lhs m codeStrict alts l f w) (hok : Ok N m l) :
    ∃ f', IsForest (all rules lhs m Ls Q) T (l.map (occSym Ls)) f' w ∧
      f'.flat (precOrig rules.length Q) = f := by
  have hnot : ∀ i, i ≤ m → ¬ T (Ls i) := fun i hi hT => by
    have := h.hT _ hT
    have := h.hLs i hi
    omega
  have key : ∀ {j : Nat} {a : Alternative} {c : Forest} {u : List Sym}, alts[j]? = some a →
      IsForest (all rules lhs m Ls Q) T ((a.marks lhs m codeStrict).map (occSym Ls)) c u →
      ∃ f', IsForest (all rules lhs m Ls Q) T [Ls a.level] f' u ∧
        f'.flat (precOrig rules.length Q) =
          .node (rules.length + j) (c.flat (precOrig rules.length Q)) .nil := by
    intro j a c u ha hc
    obtain ⟨r, hr, ht, hp⟩ := get (lhs := lhs) (m := m) (Ls := Ls) (rules := rules)
      ((h.halt j a).2 ha)
    refine ⟨.node r c .nil, ?_, ?_⟩
    · have := IsForest.node hp (hnot _ (h.hrhs j a ha).1) hc .nil
      simpa using this
    · simp only [Forest.flat, orig_of hr ht, PTag.orig]
  induction hf with
  | nil => exact ⟨.nil, .nil, rfl⟩
  | leaf ht _ ih =>
    obtain ⟨f', h1, rfl⟩ := ih hok.tail
    exact ⟨.leaf _ f', .leaf ht h1, rfl⟩
  | @rule i A β c f u v l hi _ _ ihc ih =>
    obtain ⟨f', h1, rfl⟩ := ih hok.tail
    obtain ⟨hA, hβ, hT⟩ := h.hN i A β hi
    obtain ⟨c', h2, rfl⟩ := ihc (.anys hβ)
    have hl := (List.getElem?_eq_some_iff.1 hi).1
    rw [map_any] at h2
    refine ⟨.node i c' f', .node ?_ hT h2 h1, ?_⟩
    · unfold all
      rw [List.getElem?_append_left hl]
      exact hi
    · simp [Forest.flat, precOrig, hl]
  | @alt j a c f u v l ha _ _ ihc ih =>
    obtain ⟨f', h1, rfl⟩ := ih hok.tail
    obtain ⟨c', h2, rfl⟩ := ihc (h.ok_marks ha)
    obtain ⟨d, h3, h4⟩ := key ha h2
    obtain ⟨d', h5, h6⟩ := h.chain (h.hrhs j a ha).1 (Nat.le_refl _) h3
    obtain ⟨r, hr, ht, hp⟩ := get (lhs := lhs) (m := m) (Ls := Ls) (rules := rules) h.hfinal
    refine ⟨.node r d' f', .node hp h.hTl h5 h1, ?_⟩
    simp only [Forest.flat, orig_of hr ht, PTag.orig, h6, h4, Forest.append]
  | @altBelow j b a c f u v l ha hb _ _ ihc ih =>
    obtain ⟨f', h1, rfl⟩ := ih hok.tail
    obtain ⟨c', h2, rfl⟩ := ihc (h.ok_marks ha)
    obtain ⟨d, h3, h4⟩ := key ha h2
    have hb' : b ≤ m + 1 := by
      rcases hok (.below b) (by simp) with ⟨s, -, e⟩ | ⟨b', -, e, e'⟩
      · cases e
      · cases e'; exact e
    obtain ⟨d', h5, h6⟩ := h.chain (show a.level ≤ b - 1 by omega) (by omega) h3
    exact ⟨d'.append f', h5.append h1, by rw [Forest.flat_append, h6, h4]; rfl⟩

/-- Trees of the built rules correspond one to one to trees that respect the precedence. -/
theorem equiv (h : PrecRules rules T N lhs m Ls alts Q) {A : Sym} (hA : A < N) (w : List Sym) :
    SameNumber {f : Forest // IsForest (all rules lhs m Ls Q) T [A] f w}
      {f : Forest // PrecForest rules T lhs m codeStrict alts [.any A] f w} := by
  have hok : Ok N m [.any A] := .anys (β := [A]) (by simpa using hA)
  refine ⟨Equiv.ofBijective (fun f => ⟨f.1.flat (precOrig rules.length Q),
    h.toPrec f.2 [.any A] hok rfl⟩) ⟨?_, ?_⟩⟩
  · intro f f' e
    exact Subtype.ext (h.injective f.2 f'.2 (congrArg Subtype.val e))
  · rintro ⟨f, hf⟩
    obtain ⟨f', h1, h2⟩ := h.surjective hf hok
    exact ⟨⟨f', h1⟩, Subtype.ext h2⟩

end PrecRules

/-- Trees over the old terminals. -/
theorem precedencedRule_trees {g : Cfg} (hwf : g.WF) (hlim : g.LimitOk) {lhs : Sym}
    (hlhs : lhs < g.numSyms) (calls : List PrecCall)
    (hc : ∀ x ∈ alternatives 0 .left calls, ∀ s ∈ x.rhs, s < g.numSyms) :
    ∃ g', g.precedencedRule lhs calls = .ok g' ∧ ∀ A, A < g.numSyms → ∀ w,
      (∀ a ∈ w, g.Term a ∧ a ≠ lhs) →
      SameNumber (g'.Trees A w)
        {f : Forest // PrecForest g.pairs (fun a => g.Term a ∧ a ≠ lhs) lhs (loosestLevel calls)
          codeStrict (alternatives 0 .left calls) [.any A] f w} := by
  obtain ⟨g', Ls, h1, h2, h3, h4, -, -, -, -, -, -, Q, q1, q2, q3, q4, q5⟩ :=
    precedencedRule_split hwf hlim hlhs calls hc
  have hrules : PrecRules g.pairs (fun a => g.Term a ∧ a ≠ lhs) g.numSyms lhs (loosestLevel calls)
      Ls (alternatives 0 .left calls) Q := by
    refine ⟨q1, q2, q3, q4, ?_, hlhs, fun h => h.2 rfl, fun a h => h.1.1, ?_, h2, h3⟩
    · intro i A β h
      obtain ⟨r, hr, e⟩ := List.mem_map.1 (List.mem_of_getElem? h)
      cases e
      exact ⟨(hwf r hr).1, (hwf r hr).2, fun h => h.1.2 r hr rfl⟩
    · intro j a h
      have := List.mem_of_getElem? h
      exact ⟨h4 a this, hc a this⟩
  refine ⟨g', h1, fun A hA w hw => ?_⟩
  refine (q5.forests (α := [A]) (by simpa using .inl hA) w).trans ?_
  refine SameNumber.trans ?_ (hrules.equiv hA w)
  have hlow : ∀ i, i ≤ loosestLevel calls → ¬ Ls i < g.numSyms := fun i hi => by
    have := h2 i hi
    omega
  have hTT : ∀ a, (g.Term a ∧ a ≠ lhs) → (a < g.numSyms ∨ ∃ i, i ≤ loosestLevel calls ∧ a = Ls i) ∧
      ∀ r ∈ g.pairs ++ Q.map (PTag.pair lhs (loosestLevel calls) Ls), r.1 ≠ a := by
    rintro a ⟨⟨ha, hr⟩, hne⟩
    refine ⟨.inl ha, fun r hr' e => ?_⟩
    rcases List.mem_append.1 hr' with hr' | hr'
    · obtain ⟨r, hr'', rfl⟩ := List.mem_map.1 hr'
      exact hr r hr'' e
    · obtain ⟨t, ht, rfl⟩ := List.mem_map.1 hr'
      cases t with
      | unit k =>
        have hk := (q2 k).1 ht
        exact hlow (k + 1) (by omega) (by simp only [PTag.pair] at e; rw [e]; exact ha)
      | alt j x =>
        have hx := h4 x (List.mem_of_getElem? ((q3 j x).1 ht))
        exact hlow _ hx (by simp only [PTag.pair] at e; rw [e]; exact ha)
      | final => exact hne e.symm
  have key : ∀ f, IsForest (g.pairs ++ Q.map (PTag.pair lhs (loosestLevel calls) Ls)) (fun a =>
      (a < g.numSyms ∨ ∃ i, i ≤ loosestLevel calls ∧ a = Ls i) ∧
        ∀ r ∈ g.pairs ++ Q.map (PTag.pair lhs (loosestLevel calls) Ls), r.1 ≠ a) [A] f w ↔
      IsForest (PrecRules.all g.pairs lhs (loosestLevel calls) Ls Q) (fun a => g.Term a ∧ a ≠ lhs)
        [A] f w := by
    intro f
    constructor
    · intro h
      exact h.change (fun a ha _ => hw a ha) fun r hr hn hn' => hn (hTT _ hn')
    · intro h
      exact h.change (fun a ha ha' => hTT a ha') fun r hr hn hn' => hn'.2 r hr rfl
  exact ⟨Equiv.subtypeEquivRight key⟩

end Verif
