import Verif.Proofs.Trees
import Mathlib.Logic.Equiv.Basic

/-!
# Parse trees: cutting them at certain symbols

The symbols in `Y` are the inner symbols of the upper part of a tree; it is cut where a symbol in `X`
occurs first.
-/

namespace Verif

/-- Upper part of a forest: a tree whose root is in `X` becomes a leaf. -/
noncomputable def Forest.upper (rules : List (Sym × List Sym)) (X : Sym → Prop) : Forest → Forest
  | .nil => .nil
  | .leaf s f => .leaf s (f.upper rules X)
  | .node i c f =>
    match rules[i]? with
    | none => .nil
    | some (A, _) => open Classical in
      if X A then .leaf A (f.upper rules X) else .node i (c.upper rules X) (f.upper rules X)

/-- Lower part of a forest: the trees whose roots are in `X`. -/
noncomputable def Forest.lower (rules : List (Sym × List Sym)) (X : Sym → Prop) : Forest → Forest
  | .nil => .nil
  | .leaf s f => .leaf s (f.lower rules X)
  | .node i c f =>
    match rules[i]? with
    | none => .nil
    | some (A, _) => open Classical in
      if X A then .node i c (f.lower rules X) else (c.lower rules X).append (f.lower rules X)

theorem Forest.upper_node {rules : List (Sym × List Sym)} {X : Sym → Prop} {i : Nat} {A : Sym}
    {β : List Sym} (h : rules[i]? = some (A, β)) (c f : Forest) :
    (Forest.node i c f).upper rules X = open Classical in
      if X A then .leaf A (f.upper rules X) else .node i (c.upper rules X) (f.upper rules X) := by
  simp only [Forest.upper, h]

theorem Forest.lower_node {rules : List (Sym × List Sym)} {X : Sym → Prop} {i : Nat} {A : Sym}
    {β : List Sym} (h : rules[i]? = some (A, β)) (c f : Forest) :
    (Forest.node i c f).lower rules X = open Classical in
      if X A then .node i c (f.lower rules X) else
        (c.lower rules X).append (f.lower rules X) := by
  simp only [Forest.lower, h]

/-- What is needed for cutting. -/
structure Cut (rules : List (Sym × List Sym)) (T X Y : Sym → Prop) : Prop where
  nonterm : ∀ y, Y y → ¬ T y
  closed : ∀ (i : Nat) A β, rules[i]? = some (A, β) → Y A → ∀ x ∈ β, X x ∨ Y x

namespace Cut

variable {rules : List (Sym × List Sym)} {T X Y : Sym → Prop}

theorem parts (h : Cut rules T X Y) {α : List Sym} {f : Forest} {w : List Sym}
    (hf : IsForest rules T α f w) (hα : ∀ a ∈ α, X a ∨ Y a) :
    ∃ β, IsForest rules X α (f.upper rules X) β ∧ IsForest rules T β (f.lower rules X) w := by
  induction hf with
  | nil => exact ⟨[], .nil, .nil⟩
  | @leaf s α f w ht _ ih =>
    obtain ⟨β, h1, h2⟩ := ih fun a ha => hα a (by simp [ha])
    refine ⟨s :: β, .leaf ?_ h1, .leaf ht h2⟩
    exact (hα s (by simp)).resolve_right fun hy => h.nonterm s hy ht
  | @node i A c f β u v α hi hn hc _ ihc ih =>
    obtain ⟨γ, h1, h2⟩ := ih fun a ha => hα a (by simp [ha])
    rw [Forest.upper_node hi, Forest.lower_node hi]
    by_cases hX : X A
    · rw [if_pos hX, if_pos hX]
      exact ⟨A :: γ, .leaf hX h1, .node hi hn hc h2⟩
    · rw [if_neg hX, if_neg hX]
      obtain ⟨δ, h3, h4⟩ := ihc (h.closed i A β hi ((hα A (by simp)).resolve_left hX))
      exact ⟨δ ++ γ, .node hi hX h3 h1, h4.append h2⟩

theorem inj (h : Cut rules T X Y) {α : List Sym} {f f' : Forest} {w w' : List Sym}
    (hf : IsForest rules T α f w) (hf' : IsForest rules T α f' w') (hα : ∀ a ∈ α, X a ∨ Y a)
    (e1 : f.upper rules X = f'.upper rules X) (e2 : f.lower rules X = f'.lower rules X) :
    f = f' := by
  induction hf generalizing f' w' with
  | nil => cases hf'; rfl
  | @leaf s α f w ht _ ih =>
    cases hf' with
    | leaf _ hf' =>
      simp only [Forest.upper, Forest.leaf.injEq, true_and] at e1
      simp only [Forest.lower, Forest.leaf.injEq, true_and] at e2
      rw [ih hf' (fun a ha => hα a (by simp [ha])) e1 e2]
    | node hi hn => exact absurd ht hn
  | @node i A c f β u v α hi hn hc _ ihc ih =>
    cases hf' with
    | leaf ht _ => exact absurd ht hn
    | @node i' _ c' f' β' u' v' _ hi' hn' hc' hf' =>
      rw [Forest.upper_node hi, Forest.upper_node hi'] at e1
      rw [Forest.lower_node hi, Forest.lower_node hi'] at e2
      by_cases hX : X A
      · rw [if_pos hX, if_pos hX, Forest.leaf.injEq] at e1
        rw [if_pos hX, if_pos hX, Forest.node.injEq] at e2
        obtain ⟨rfl, rfl, e2⟩ := e2
        rw [ih hf' (fun a ha => hα a (by simp [ha])) e1.2 e2]
      · rw [if_neg hX, if_neg hX, Forest.node.injEq] at e1
        rw [if_neg hX, if_neg hX] at e2
        obtain ⟨rfl, e1, e1'⟩ := e1
        cases hi.symm.trans hi'
        have hβ := h.closed i A β hi ((hα A (by simp)).resolve_left hX)
        obtain ⟨δ, h1, h2⟩ := h.parts hc hβ
        obtain ⟨δ', h1', h2'⟩ := h.parts hc' hβ
        rw [← e1] at h1'
        obtain ⟨-, rfl⟩ := h1.unique h1'
        obtain ⟨e3, e4⟩ := h2.append_inj h2' e2
        rw [ihc hc' hβ e1 e3, ih hf' (fun a ha => hα a (by simp [ha])) e1' e4]

theorem surj (h : Cut rules T X Y) {α β : List Sym} {u : Forest} (hu : IsForest rules X α u β)
    (hα : ∀ a ∈ α, X a ∨ Y a) {l : Forest} {w : List Sym} (hl : IsForest rules T β l w) :
    ∃ f, IsForest rules T α f w ∧ f.upper rules X = u ∧ f.lower rules X = l := by
  induction hu generalizing l w with
  | nil => cases hl; exact ⟨.nil, .nil, rfl, rfl⟩
  | @leaf s α u β hX _ ih =>
    cases hl with
    | leaf ht hl =>
      obtain ⟨f, h1, rfl, rfl⟩ := ih (fun a ha => hα a (by simp [ha])) hl
      exact ⟨.leaf s f, .leaf ht h1, rfl, rfl⟩
    | @node i _ c l γ u' v' _ hi hn hc hl =>
      obtain ⟨f, h1, rfl, rfl⟩ := ih (fun a ha => hα a (by simp [ha])) hl
      refine ⟨.node i c f, .node hi hn hc h1, ?_, ?_⟩
      · rw [Forest.upper_node hi, if_pos hX]
      · rw [Forest.lower_node hi, if_pos hX]
  | @node i A c u γ β₁ β₂ α hi hX _ _ ihc ih =>
    obtain ⟨l₁, l₂, w₁, w₂, rfl, rfl, h1, h2⟩ := hl.split
    have hY := (hα A (by simp)).resolve_left hX
    obtain ⟨c', h3, rfl, rfl⟩ := ihc (h.closed i A γ hi hY) h1
    obtain ⟨f, h4, rfl, rfl⟩ := ih (fun a ha => hα a (by simp [ha])) h2
    refine ⟨.node i c' f, .node hi (h.nonterm A hY) h3 h4, ?_, ?_⟩
    · rw [Forest.upper_node hi, if_neg hX]
    · rw [Forest.lower_node hi, if_neg hX]

/-- If the upper parts are determined by their leaves, then the trees are the ways to continue from
the leaves of upper parts. -/
theorem equiv (h : Cut rules T X Y) {α : List Sym} (hα : ∀ a ∈ α, X a ∨ Y a)
    {F : List Sym → Prop} (hF : ∀ β, F β ↔ ∃ u, IsForest rules X α u β)
    (huniq : ∀ β u u', IsForest rules X α u β → IsForest rules X α u' β → u = u') (w : List Sym) :
    Nonempty ({f : Forest // IsForest rules T α f w} ≃
      {p : List Sym × Forest // F p.1 ∧ IsForest rules T p.1 p.2 w}) := by
  have hp : ∀ f : {f : Forest // IsForest rules T α f w}, ∃ β,
      IsForest rules X α (f.1.upper rules X) β ∧ IsForest rules T β (f.1.lower rules X) w :=
    fun f => h.parts f.2 hα
  choose β hβ using hp
  refine ⟨Equiv.ofBijective (fun f => ⟨(β f, f.1.lower rules X), (hF _).2 ⟨_, (hβ f).1⟩, (hβ f).2⟩)
    ⟨?_, ?_⟩⟩
  · intro f f' e
    obtain ⟨e1, e2⟩ := Prod.mk.inj (congrArg Subtype.val e)
    refine Subtype.ext (h.inj f.2 f'.2 hα ?_ e2)
    have := (hβ f').1
    exact huniq _ _ _ (hβ f).1 ((show β f = β f' from e1) ▸ this)
  · rintro ⟨⟨γ, l⟩, h1, h2⟩
    obtain ⟨u, hu⟩ := (hF γ).1 h1
    obtain ⟨f, h3, rfl, rfl⟩ := h.surj hu hα h2
    refine ⟨⟨f, h3⟩, Subtype.ext (Prod.ext ?_ rfl)⟩
    exact ((hβ ⟨f, h3⟩).1.unique hu).2

end Cut

/-- Equivalent subtypes of pairs. -/
theorem SameNumber.pairs {F : List Sym → Prop} {P Q : List Sym → Forest → Prop}
    (h : ∀ β, F β → SameNumber {f // P β f} {f // Q β f}) :
    SameNumber {p : List Sym × Forest // F p.1 ∧ P p.1 p.2}
      {p : List Sym × Forest // F p.1 ∧ Q p.1 p.2} := by
  choose e he using fun β (hβ : F β) => (⟨(h β hβ).some, trivial⟩ : ∃ _ : {f // P β f} ≃ {f // Q β f}, True)
  exact ⟨{
    toFun := fun p => ⟨(p.1.1, (e p.1.1 p.2.1 ⟨p.1.2, p.2.2⟩).1), p.2.1,
      (e p.1.1 p.2.1 ⟨p.1.2, p.2.2⟩).2⟩
    invFun := fun p => ⟨(p.1.1, ((e p.1.1 p.2.1).symm ⟨p.1.2, p.2.2⟩).1), p.2.1,
      ((e p.1.1 p.2.1).symm ⟨p.1.2, p.2.2⟩).2⟩
    left_inv := fun p => by simp
    right_inv := fun p => by simp }⟩

theorem SameNumber.trans {X Y Z : Type} (h : SameNumber X Y) (h' : SameNumber Y Z) :
    SameNumber X Z := by
  obtain ⟨e⟩ := h
  obtain ⟨e'⟩ := h'
  exact ⟨e.trans e'⟩

theorem SameNumber.symm {X Y : Type} (h : SameNumber X Y) : SameNumber Y X := by
  obtain ⟨e⟩ := h
  exact ⟨e.symm⟩

end Verif
