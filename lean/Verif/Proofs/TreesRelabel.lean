import Verif.Proofs.Trees
import Mathlib.Logic.Equiv.Basic

/-!
# Parse trees: new numbers for rules and symbols, and mirrored trees
-/

namespace Verif

/-! ## Renumbering -/

/-- New numbers for the symbols and rules of a forest. -/
def Forest.relabel (φ : Sym → Sym) (ρ : Nat → Nat) : Forest → Forest
  | .nil => .nil
  | .leaf s f => .leaf (φ s) (f.relabel φ ρ)
  | .node i c f => .node (ρ i) (c.relabel φ ρ) (f.relabel φ ρ)

/-- The rules `new` are the rules `old` of the symbols in `O`, with new numbers. Rules that are part of
no tree may be missing. -/
structure Relabel (O T T' : Sym → Prop) (old new : List (Sym × List Sym)) (φ : Sym → Sym)
    (ρ : Nat ≃ Nat) : Prop where
  term : ∀ s, O s → (T' (φ s) ↔ T s)
  inj : ∀ a b, O a → O b → φ a = φ b → a = b
  fwd : ∀ i A β, old[i]? = some (A, β) → O A → (∃ c u, IsForest old T β c u) →
    (∀ s ∈ β, O s) ∧ new[ρ i]? = some (φ A, β.map φ)
  bwd : ∀ j A γ, new[j]? = some (φ A, γ) → O A →
    ∃ β, old[ρ.symm j]? = some (A, β) ∧ γ = β.map φ ∧ ∀ s ∈ β, O s

namespace Relabel

variable {O T T' : Sym → Prop} {old new : List (Sym × List Sym)} {φ : Sym → Sym} {ρ : Nat ≃ Nat}

theorem isForest (h : Relabel O T T' old new φ ρ) {α : List Sym} {f : Forest} {w : List Sym}
    (hf : IsForest old T α f w) (hα : ∀ a ∈ α, O a) :
    IsForest new T' (α.map φ) (f.relabel φ ρ) (w.map φ) ∧ ∀ a ∈ w, O a := by
  induction hf with
  | nil => exact ⟨.nil, by simp⟩
  | @leaf s α f w ht _ ih =>
    have hs := hα s (by simp)
    obtain ⟨h1, h2⟩ := ih fun a ha => hα a (by simp [ha])
    exact ⟨.leaf ((h.term s hs).2 ht) h1, by simpa [hs] using h2⟩
  | @node i A c f β u v α hi hn hc hf ihc ih =>
    have hA := hα A (by simp)
    obtain ⟨h1, h2⟩ := ih fun a ha => hα a (by simp [ha])
    obtain ⟨h3, h4⟩ := h.fwd i A β hi hA ⟨c, u, hc⟩
    obtain ⟨h5, h6⟩ := ihc h3
    refine ⟨?_, fun a ha => (List.mem_append.1 ha).elim (h6 a) (h2 a)⟩
    rw [List.map_append]
    exact .node h4 (fun ht => hn ((h.term A hA).1 ht)) h5 h1

theorem inj_forest (_ : Relabel O T T' old new φ ρ) {α : List Sym} {f f' : Forest} {w w' : List Sym}
    (hf : IsForest old T α f w) (hf' : IsForest old T α f' w')
    (e : f.relabel φ ρ = f'.relabel φ ρ) : f = f' := by
  induction hf generalizing f' w' with
  | nil => cases hf'; rfl
  | leaf _ _ ih =>
    cases hf' with
    | leaf _ hf' =>
      simp only [Forest.relabel, Forest.leaf.injEq] at e
      rw [ih hf' e.2]
    | node => simp [Forest.relabel] at e
  | node hi _ _ _ ihc ih =>
    cases hf' with
    | leaf => simp [Forest.relabel] at e
    | node hi' _ hc' hf' =>
      simp only [Forest.relabel, Forest.node.injEq] at e
      obtain ⟨e1, e2, e3⟩ := e
      obtain rfl := ρ.injective e1
      cases hi.symm.trans hi'
      rw [ihc hc' e2, ih hf' e3]

theorem surj (h : Relabel O T T' old new φ ρ) {γ : List Sym} {f' : Forest} {w' : List Sym}
    (hf : IsForest new T' γ f' w') : ∀ α : List Sym, γ = α.map φ → (∀ a ∈ α, O a) →
    ∃ f w, IsForest old T α f w ∧ f.relabel φ ρ = f' ∧ w' = w.map φ := by
  induction hf with
  | nil =>
    intro α hα hO
    obtain rfl := List.map_eq_nil_iff.1 hα.symm
    exact ⟨.nil, [], .nil, rfl, rfl⟩
  | leaf ht _ ih =>
    intro α hα hO
    obtain ⟨a, α', rfl, rfl, rfl⟩ := List.map_eq_cons_iff.1 hα.symm
    obtain ⟨f, w, h1, rfl, rfl⟩ := ih α' rfl fun x hx => hO x (by simp [hx])
    exact ⟨.leaf a f, a :: w, .leaf ((h.term a (hO a (by simp))).1 ht) h1, rfl, rfl⟩
  | node hi hn _ _ ihc ih =>
    intro α hα hO
    obtain ⟨a, α', rfl, rfl, rfl⟩ := List.map_eq_cons_iff.1 hα.symm
    have ha := hO a (by simp)
    obtain ⟨f, v, h1, rfl, rfl⟩ := ih α' rfl fun x hx => hO x (by simp [hx])
    obtain ⟨β, h2, h3, h4⟩ := h.bwd _ a _ hi ha
    obtain ⟨c, u, h5, rfl, rfl⟩ := ihc β h3 h4
    refine ⟨.node _ c f, u ++ v, .node h2 (fun ht => hn ((h.term a ha).2 ht)) h5 h1, ?_, ?_⟩
    · simp [Forest.relabel]
    · rw [List.map_append]

theorem equiv (h : Relabel O T T' old new φ ρ) {α w : List Sym} (hα : ∀ a ∈ α, O a)
    (hw : ∀ a ∈ w, O a) :
    SameNumber {f : Forest // IsForest old T α f w}
      {f : Forest // IsForest new T' (α.map φ) f (w.map φ)} := by
  refine ⟨Equiv.ofBijective (fun f => ⟨f.1.relabel φ ρ, (h.isForest f.2 hα).1⟩) ⟨?_, ?_⟩⟩
  · intro f f' he
    exact Subtype.ext (h.inj_forest f.2 f'.2 (congrArg Subtype.val he))
  · rintro ⟨f, hf⟩
    obtain ⟨f', w', h1, h2, h3⟩ := h.surj hf α rfl hα
    have h4 := (h.isForest h1 hα).2
    have e : w = w' := by
      clear hf h1 h2 hα
      induction w generalizing w' with
      | nil => exact (List.map_eq_nil_iff.1 h3.symm).symm
      | cons a w ih =>
        obtain ⟨a', w'', rfl, h5, h6⟩ := List.map_eq_cons_iff.1 h3.symm
        rw [h.inj a a' (hw a (by simp)) (h4 a' (by simp)) h5.symm,
          ih (fun x hx => hw x (by simp [hx])) w'' h6.symm fun x hx => h4 x (by simp [hx])]
    subst e
    exact ⟨⟨f', h1⟩, Subtype.ext h2⟩

/-- Without new numbers for symbols. -/
theorem equiv_same (h : Relabel O T T' old new id ρ) {α : List Sym} (hα : ∀ a ∈ α, O a)
    (w : List Sym) :
    SameNumber {f : Forest // IsForest old T α f w} {f : Forest // IsForest new T' α f w} := by
  have e : ∀ l : List Sym, l.map id = l := List.map_id
  refine ⟨Equiv.ofBijective (fun f => ⟨f.1.relabel id ρ, by
    have := (h.isForest f.2 hα).1
    rwa [e, e] at this⟩) ⟨?_, ?_⟩⟩
  · intro f f' he
    exact Subtype.ext (h.inj_forest f.2 f'.2 (congrArg Subtype.val he))
  · rintro ⟨f, hf⟩
    obtain ⟨f', w', h1, h2, h3⟩ := h.surj hf α (e α).symm hα
    rw [e] at h3
    subst h3
    exact ⟨⟨f', h1⟩, Subtype.ext h2⟩

end Relabel

/-- A rearranged list, with the new positions. -/
theorem perm_positions {α : Type} {l l' : List α} (h : l.Perm l') :
    ∃ ρ : Nat ≃ Nat, ∀ i, l'[ρ i]? = l[i]? := by
  induction h with
  | nil => exact ⟨Equiv.refl _, fun i => rfl⟩
  | @cons x l l' _ ih =>
    obtain ⟨ρ, hρ⟩ := ih
    refine ⟨⟨fun i => match i with | 0 => 0 | i + 1 => ρ i + 1,
      fun i => match i with | 0 => 0 | i + 1 => ρ.symm i + 1, ?_, ?_⟩, ?_⟩
    · rintro (_ | i) <;> simp
    · rintro (_ | i) <;> simp
    · rintro (_ | i)
      · rfl
      · simpa using hρ i
  | swap x y l =>
    refine ⟨Equiv.swap 0 1, ?_⟩
    rintro (_ | _ | i)
    · rw [Equiv.swap_apply_left]; rfl
    · rw [Equiv.swap_apply_right]; rfl
    · rw [Equiv.swap_apply_of_ne_of_ne (by omega) (by omega)]; rfl
  | trans _ _ ih ih' =>
    obtain ⟨ρ, hρ⟩ := ih
    obtain ⟨ρ', hρ'⟩ := ih'
    exact ⟨ρ.trans ρ', fun i => by rw [Equiv.trans_apply, hρ', hρ]⟩

/-! ## Mirrored trees -/

/-- The mirror image of a forest. -/
def Forest.mirror : Forest → Forest
  | .nil => .nil
  | .leaf s f => f.mirror.append (.leaf s .nil)
  | .node i c f => f.mirror.append (.node i c.mirror .nil)

theorem Forest.mirror_append (f g : Forest) : (f.append g).mirror = g.mirror.append f.mirror := by
  induction f with
  | nil => rw [Forest.append, Forest.mirror, Forest.append_nil]
  | leaf s f ih => rw [Forest.append, Forest.mirror, Forest.mirror, ih, Forest.append_assoc]
  | node i c f _ ih => rw [Forest.append, Forest.mirror, Forest.mirror, ih, Forest.append_assoc]

theorem Forest.mirror_mirror (f : Forest) : f.mirror.mirror = f := by
  induction f with
  | nil => rfl
  | leaf s f ih =>
    rw [Forest.mirror, Forest.mirror_append, ih]
    rfl
  | node i c f ihc ih =>
    rw [Forest.mirror, Forest.mirror_append, ih]
    simp only [Forest.mirror, Forest.append, ihc]

theorem IsForest.mirror {rules rules' : List (Sym × List Sym)} {T : Sym → Prop}
    (h : ∀ (i : Nat) A β, rules[i]? = some (A, β) → rules'[i]? = some (A, β.reverse))
    {α : List Sym} {f : Forest} {w : List Sym} (hf : IsForest rules T α f w) :
    IsForest rules' T α.reverse f.mirror w.reverse := by
  induction hf with
  | nil => exact .nil
  | leaf ht _ ih =>
    rw [List.reverse_cons, List.reverse_cons]
    exact ih.append (.leaf ht .nil)
  | @node i A c f β u v α hi hn _ _ ihc ih =>
    rw [List.reverse_cons, List.reverse_append]
    refine ih.append ?_
    have := IsForest.node (h i A β hi) hn ihc (.nil (rules := rules') (T := T))
    rwa [List.append_nil] at this

/-- Forests and mirrored forests correspond one to one. -/
theorem mirror_equiv {rules rules' : List (Sym × List Sym)} {T : Sym → Prop}
    (h : ∀ (i : Nat) A β, rules[i]? = some (A, β) → rules'[i]? = some (A, β.reverse))
    (h' : ∀ (i : Nat) A β, rules'[i]? = some (A, β) → rules[i]? = some (A, β.reverse))
    (α w : List Sym) :
    SameNumber {f : Forest // IsForest rules T α f w}
      {f : Forest // IsForest rules' T α.reverse f w.reverse} :=
  ⟨{ toFun f := ⟨f.1.mirror, f.2.mirror h⟩
     invFun f := ⟨f.1.mirror, by
       have := f.2.mirror h'
       rwa [List.reverse_reverse, List.reverse_reverse] at this⟩
     left_inv f := Subtype.ext f.1.mirror_mirror
     right_inv f := Subtype.ext f.1.mirror_mirror }⟩

end Verif
