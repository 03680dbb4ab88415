import Verif.Spec.Trees
import Verif.Proofs.Derivation
import Verif.Proofs.Tactics

/-!
# Parse trees: general facts, and folding of auxiliary symbols
-/

namespace Verif

namespace Forest

/-- One list of trees after the other. -/
def append : Forest → Forest → Forest
  | nil, f => f
  | leaf s r, f => leaf s (append r f)
  | node i c r, f => node i c (append r f)

/-- Number of leaves and nodes. -/
def size : Forest → Nat
  | nil => 0
  | leaf _ r => r.size + 1
  | node _ c r => c.size + r.size + 1

theorem append_nil (f : Forest) : f.append .nil = f := by
  induction f with
  | nil => rfl
  | leaf s r ih => rw [append, ih]
  | node i c r _ ih => rw [append, ih]

theorem append_assoc (a b c : Forest) : (a.append b).append c = a.append (b.append c) := by
  induction a with
  | nil => rfl
  | leaf s r ih => simp only [append, ih]
  | node i d r _ ih => simp only [append, ih]

theorem size_append (a b : Forest) : (a.append b).size = a.size + b.size := by
  induction a with
  | nil => simp [append, size]
  | leaf s r ih => simp only [append, size, ih]; omega
  | node i d r _ ih => simp only [append, size, ih]; omega

end Forest

namespace IsForest

variable {rules : List (Sym × List Sym)} {T : Sym → Prop}

theorem append {α β : List Sym} {f g : Forest} {u v : List Sym} (h : IsForest rules T α f u)
    (h' : IsForest rules T β g v) : IsForest rules T (α ++ β) (f.append g) (u ++ v) := by
  induction h with
  | nil => exact h'
  | leaf ht _ ih => exact .leaf ht ih
  | node hi hn hc _ _ ih => rw [List.append_assoc]; exact .node hi hn hc ih

theorem split {α β : List Sym} {f : Forest} {w : List Sym} (h : IsForest rules T (α ++ β) f w) :
    ∃ f₁ f₂ u v, f = f₁.append f₂ ∧ w = u ++ v ∧ IsForest rules T α f₁ u ∧
      IsForest rules T β f₂ v := by
  induction α generalizing f w with
  | nil => exact ⟨.nil, f, [], w, rfl, rfl, .nil, h⟩
  | cons a α ih =>
    cases h with
    | leaf ht h =>
      obtain ⟨f₁, f₂, u, v, rfl, rfl, h1, h2⟩ := ih h
      exact ⟨.leaf a f₁, f₂, a :: u, v, rfl, rfl, .leaf ht h1, h2⟩
    | @node i _ c f _ u' v' _ hi hn hc h =>
      obtain ⟨f₁, f₂, u, v, rfl, rfl, h1, h2⟩ := ih h
      exact ⟨.node i c f₁, f₂, u' ++ u, v, rfl, (List.append_assoc ..).symm, .node hi hn hc h1, h2⟩

/-- A forest tells its roots and leaves. -/
theorem unique {α α' : List Sym} {f : Forest} {w w' : List Sym} (h : IsForest rules T α f w)
    (h' : IsForest rules T α' f w') : α = α' ∧ w = w' := by
  induction h generalizing α' w' with
  | nil => cases h'; exact ⟨rfl, rfl⟩
  | leaf _ _ ih =>
    cases h' with
    | leaf _ h' => obtain ⟨rfl, rfl⟩ := ih h'; exact ⟨rfl, rfl⟩
  | node hi _ _ _ ihc ih =>
    cases h' with
    | node hi' _ hc' h' =>
      cases hi.symm.trans hi'
      obtain ⟨-, rfl⟩ := ihc hc'
      obtain ⟨rfl, rfl⟩ := ih h'
      exact ⟨rfl, rfl⟩

theorem append_inj {α : List Sym} {f f' g g' : Forest} {u u' : List Sym}
    (h : IsForest rules T α f u) (h' : IsForest rules T α f' u') (e : f.append g = f'.append g') :
    f = f' ∧ g = g' := by
  induction h generalizing f' u' with
  | nil => cases h'; exact ⟨rfl, e⟩
  | leaf _ _ ih =>
    cases h' with
    | leaf _ h' =>
      simp only [Forest.append, Forest.leaf.injEq, true_and] at e
      obtain ⟨rfl, rfl⟩ := ih h' e
      exact ⟨rfl, rfl⟩
    | node => simp [Forest.append] at e
  | node hi hn hc h _ ih =>
    cases h' with
    | leaf => simp [Forest.append] at e
    | node hi' hn' hc' h' =>
      simp only [Forest.append, Forest.node.injEq] at e
      obtain ⟨rfl, rfl, e⟩ := e
      obtain ⟨rfl, rfl⟩ := ih h' e
      exact ⟨rfl, rfl⟩

/-- A sequence of trees is a derivation. -/
theorem der {α : List Sym} {f : Forest} {w : List Sym} (h : IsForest rules T α f w) :
    Der (fun A β => (A, β) ∈ rules) α w ∧ ∀ a ∈ w, T a := by
  induction h with
  | nil => exact ⟨.nil, by simp⟩
  | leaf ht _ ih => exact ⟨.keep _ ih.1, by simpa [ht] using ih.2⟩
  | node hi _ _ _ ihc ih =>
    refine ⟨.expand (List.mem_of_getElem? hi) ihc.1 ih.1, ?_⟩
    intro a ha
    rcases List.mem_append.1 ha with ha | ha
    exacts [ihc.2 a ha, ih.2 a ha]

theorem of_der (hT : ∀ r ∈ rules, ¬ T r.1) {α w : List Sym}
    (d : Der (fun A β => (A, β) ∈ rules) α w) (hw : ∀ a ∈ w, T a) :
    ∃ f, IsForest rules T α f w := by
  induction d with
  | nil => exact ⟨.nil, .nil⟩
  | keep a _ ih =>
    obtain ⟨f, hf⟩ := ih fun b hb => hw b (by simp [hb])
    exact ⟨_, .leaf (hw a (by simp)) hf⟩
  | expand hp _ _ ihc ih =>
    obtain ⟨c, hc⟩ := ihc fun b hb => hw b (by simp [hb])
    obtain ⟨f, hf⟩ := ih fun b hb => hw b (by simp [hb])
    obtain ⟨i, hi⟩ := List.mem_iff_getElem?.1 hp
    exact ⟨_, .node hi (hT _ hp) hc hf⟩

end IsForest

theorem Cfg.mem_pairs {g : Cfg} {A : Sym} {α : List Sym} : (A, α) ∈ g.pairs ↔ g.prod A α := by
  simp [pairs, prod]

theorem Cfg.pairs_prod (g : Cfg) : (fun A α => (A, α) ∈ g.pairs) = g.prod := by
  funext A α
  exact propext Cfg.mem_pairs

/-- Sentences are the strings with parse trees. -/
theorem Cfg.lang_iff_trees (g : Cfg) (A : Sym) (w : List Sym) :
    g.Lang A w ↔ Nonempty (g.Trees A w) := by
  unfold Cfg.Lang InLang
  rw [derives_iff_der, ← g.pairs_prod]
  constructor
  · rintro ⟨h1, h2⟩
    obtain ⟨f, hf⟩ := IsForest.of_der (rules := g.pairs) (T := g.Term) (fun r hr h => by
      obtain ⟨r', hr', rfl⟩ := List.mem_map.1 hr
      exact h.2 r' hr' rfl) h1 h2
    exact ⟨⟨f, hf⟩⟩
  · rintro ⟨f, hf⟩
    exact hf.der

/-! ## Folding -/

/-- The nodes without an original are left out, their children take their place. -/
def Forest.flat (orig : Nat → Option Nat) : Forest → Forest
  | .nil => .nil
  | .leaf s f => .leaf s (f.flat orig)
  | .node i c f =>
    match orig i with
    | some j => .node j (c.flat orig) (f.flat orig)
    | none => (c.flat orig).append (f.flat orig)

theorem Forest.flat_append (orig : Nat → Option Nat) (a b : Forest) :
    (a.append b).flat orig = (a.flat orig).append (b.flat orig) := by
  induction a with
  | nil => rfl
  | leaf s r ih => simp only [append, flat, ih]
  | node i c r _ ih =>
    simp only [append, flat]
    cases orig i with
    | none => simp only [ih, append_assoc]
    | some j => simp only [ih, append]

/-- Of the symbols below `M` those that are not in `O` stand for strings of symbols in `O`. -/
structure Fold (O : Sym → Prop) (M : Nat) (old new : List (Sym × List Sym)) (k : Sym → List Sym)
    (orig : Nat → Option Nat) : Prop where
  le : ∀ x, O x → x < M
  same : ∀ x, O x → k x = [x]
  lhs : ∀ (i : Nat) A α, new[i]? = some (A, α) → A < M
  bound : ∀ (i : Nat) A α, new[i]? = some (A, α) → ∀ x ∈ α, x < M
  top : ∀ (i j : Nat) A α, new[i]? = some (A, α) → orig i = some j →
    O A ∧ old[j]? = some (A, α.flatMap k)
  topUnique : ∀ (i i' j : Nat), i < new.length → i' < new.length → orig i = some j →
    orig i' = some j → i = i'
  topExists : ∀ j < old.length, ∃ i < new.length, orig i = some j
  piece : ∀ (i : Nat) A α, new[i]? = some (A, α) → orig i = none →
    ¬ O A ∧ k A = α.flatMap k ∧ ∀ x ∈ α, x < A
  pieceUnique : ∀ (i i' : Nat) A α β, new[i]? = some (A, α) → new[i']? = some (A, β) →
    orig i = none → i = i'
  pieceExists : ∀ x, ¬ O x → x < M → ∃ (i : Nat) (α : List Sym), new[i]? = some (x, α) ∧
    orig i = none

/-- With terminals, which are the same in both. -/
structure Folding (O : Sym → Prop) (M : Nat) (T T' : Sym → Prop) (old new : List (Sym × List Sym))
    (k : Sym → List Sym) (orig : Nat → Option Nat) : Prop extends Fold O M old new k orig where
  term : ∀ x, O x → (T x ↔ T' x)
  fresh : ∀ x, ¬ O x → ¬ T' x

namespace Folding

variable {O : Sym → Prop} {M : Nat} {T T' : Sym → Prop} {old new : List (Sym × List Sym)} {k : Sym → List Sym}
  {orig : Nat → Option Nat}

theorem isForest (h : Folding O M T T' old new k orig) {α : List Sym} {f : Forest} {w : List Sym}
    (hf : IsForest new T' α f w) : IsForest old T (α.flatMap k) (f.flat orig) w := by
  induction hf with
  | nil => exact .nil
  | @leaf s α f w ht _ ih =>
    have hs : O s := by by_contra hs; exact h.fresh s hs ht
    rw [List.flatMap_cons, h.same s hs]
    exact .leaf ((h.term s hs).2 ht) ih
  | @node i A c f β u v α hi hn _ _ ihc ih =>
    rw [List.flatMap_cons, Forest.flat]
    cases ho : orig i with
    | none =>
      rw [(h.piece i A β hi ho).2.1]
      exact ihc.append ih
    | some j =>
      obtain ⟨h1, h2⟩ := h.top i j A β hi ho
      rw [h.same _ h1]
      exact .node h2 (by rw [h.term _ h1]; exact hn) ihc ih

theorem inj (h : Folding O M T T' old new k orig) {α : List Sym} {f f' : Forest} {w w' : List Sym}
    (hf : IsForest new T' α f w) (hf' : IsForest new T' α f' w')
    (e : f.flat orig = f'.flat orig) : f = f' := by
  induction hf generalizing f' w' with
  | nil => cases hf'; rfl
  | @leaf s α f w ht _ ih =>
    cases hf' with
    | leaf _ hf' =>
      simp only [Forest.flat, Forest.leaf.injEq, true_and] at e
      rw [ih hf' e]
    | node hi hn => exact absurd ht hn
  | @node i A c f β u v α hi hn hc hf₀ ihc ih =>
    cases hf' with
    | leaf ht _ => exact absurd ht hn
    | @node i' _ c' f' β' u' v' _ hi' hn' hc' hf' =>
      have hl := (List.getElem?_eq_some_iff.1 hi).1
      have hl' := (List.getElem?_eq_some_iff.1 hi').1
      simp only [Forest.flat] at e
      cases ho : orig i with
      | none =>
        have hii := h.pieceUnique i i' A β β' hi hi' ho
        subst hii
        cases hi.symm.trans hi'
        rw [ho] at e
        obtain ⟨e1, e2⟩ := (h.isForest hc).append_inj (h.isForest hc') e
        rw [ihc hc' e1, ih hf' e2]
      | some j =>
        cases ho' : orig i' with
        | none =>
          have hii := h.pieceUnique i' i A β' β hi' hi ho'
          subst hii
          rw [ho] at ho'
          cases ho'
        | some j' =>
          rw [ho, ho'] at e
          simp only [Forest.node.injEq] at e
          obtain ⟨rfl, e1, e2⟩ := e
          have hii := h.topUnique i i' j hl hl' ho ho'
          subst hii
          cases hi.symm.trans hi'
          rw [ihc hc' e1, ih hf' e2]

theorem surj (h : Folding O M T T' old new k orig) (n : Nat) : ∀ (b : Nat), b ≤ M → ∀ (α : List Sym),
    (∀ x ∈ α, x < b) → ∀ f w, f.size ≤ n → IsForest old T (α.flatMap k) f w →
    ∃ f', IsForest new T' α f' w ∧ f'.flat orig = f := by
  induction n with
  | zero =>
    intro b hb
    induction b using Nat.strong_induction_on with
    | _ b ihb =>
      intro α
      induction α with
      | nil =>
        intro _ f w _ hf
        rw [List.flatMap_nil] at hf
        cases hf
        exact ⟨.nil, .nil, rfl⟩
      | cons x α iha =>
        intro hα f w hs hf
        rw [List.flatMap_cons] at hf
        by_cases hx : O x
        · rw [h.same x hx] at hf
          cases hf <;> simp [Forest.size] at hs
        · obtain ⟨i, β, h1, h2⟩ := h.pieceExists x hx (by have := hα x (by simp); omega)
          obtain ⟨-, h3, h4⟩ := h.piece i x β h1 h2
          obtain ⟨f₁, f₂, u, v, rfl, rfl, h5, h6⟩ := hf.split
          rw [Forest.size_append] at hs
          rw [h3] at h5
          have hb' := hα x (by simp)
          obtain ⟨c, h7, rfl⟩ := ihb x hb' (by omega) β h4 f₁ u (by omega) h5
          obtain ⟨f', h8, rfl⟩ := iha (fun y hy => hα y (by simp [hy])) f₂ v (by omega) h6
          exact ⟨.node i c f', .node h1 (h.fresh _ hx) h7 h8, by simp [Forest.flat, h2]⟩
  | succ n ihn =>
    intro b hb
    induction b using Nat.strong_induction_on with
    | _ b ihb =>
      intro α
      induction α with
      | nil =>
        intro _ f w _ hf
        rw [List.flatMap_nil] at hf
        cases hf
        exact ⟨.nil, .nil, rfl⟩
      | cons x α iha =>
        intro hα f w hs hf
        rw [List.flatMap_cons] at hf
        by_cases hx : O x
        · rw [h.same x hx] at hf
          cases hf with
          | leaf ht hf =>
            simp only [Forest.size] at hs
            obtain ⟨f', h8, rfl⟩ := ihn b hb α (fun y hy => hα y (by simp [hy])) _ _ (by omega) hf
            exact ⟨.leaf x f', .leaf ((h.term x hx).1 ht) h8, rfl⟩
          | @node j _ c f γ u v _ hj hn hc hf =>
            simp only [Forest.size] at hs
            obtain ⟨i, hi, h2⟩ := h.topExists j (List.getElem?_eq_some_iff.1 hj).1
            have h1 := List.getElem?_eq_getElem hi
            obtain ⟨h4, h3⟩ := h.top i j _ _ h1 h2
            obtain ⟨e1, e2⟩ := Prod.mk.inj (Option.some.inj (hj.symm.trans h3))
            obtain ⟨c', h7, rfl⟩ := ihn M (Nat.le_refl _) new[i].2 (h.bound i _ _ h1) _ _ (by omega)
              (e2 ▸ hc)
            obtain ⟨f', h8, rfl⟩ := ihn b hb α (fun y hy => hα y (by simp [hy])) _ _ (by omega) hf
            refine ⟨.node i c' f', ?_, by simp [Forest.flat, h2]⟩
            rw [e1] at hn ⊢
            exact .node h1 (by rwa [← h.term _ h4]) h7 h8
        · obtain ⟨i, β, h1, h2⟩ := h.pieceExists x hx (by have := hα x (by simp); omega)
          obtain ⟨-, h3, h4⟩ := h.piece i x β h1 h2
          obtain ⟨f₁, f₂, u, v, rfl, rfl, h5, h6⟩ := hf.split
          rw [Forest.size_append] at hs
          rw [h3] at h5
          have hb' := hα x (by simp)
          obtain ⟨c, h7, rfl⟩ := ihb x hb' (by omega) β h4 f₁ u (by omega) h5
          obtain ⟨f', h8, rfl⟩ := iha (fun y hy => hα y (by simp [hy])) f₂ v (by omega) h6
          exact ⟨.node i c f', .node h1 (h.fresh _ hx) h7 h8, by simp [Forest.flat, h2]⟩

/-- Forests and folded forests correspond one to one. -/
theorem equiv (h : Folding O M T T' old new k orig) {α : List Sym} (hα : ∀ x ∈ α, O x)
    (w : List Sym) :
    Nonempty ({f : Forest // IsForest new T' α f w} ≃ {f : Forest // IsForest old T α f w}) := by
  have e : α.flatMap k = α := by
    clear w
    induction α with
    | nil => rfl
    | cons x α ih =>
      rw [List.flatMap_cons, h.same x (hα x (by simp)), ih fun y hy => hα y (by simp [hy])]
      rfl
  refine ⟨Equiv.ofBijective (fun f => ⟨f.1.flat orig, by have := h.isForest f.2; rwa [e] at this⟩)
    ⟨?_, ?_⟩⟩
  · intro f f' he
    exact Subtype.ext (h.inj f.2 f'.2 (congrArg Subtype.val he))
  · rintro ⟨f, hf⟩
    obtain ⟨f', h1, h2⟩ := h.surj f.size M (Nat.le_refl _) α (fun x hx => h.le x (hα x hx)) f w (Nat.le_refl _) (by rwa [e])
    exact ⟨⟨f', h1⟩, Subtype.ext h2⟩

end Folding

end Verif
