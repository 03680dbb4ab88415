import Verif.Proofs.Nulling
import Verif.Proofs.TreesFinite
import Verif.Proofs.TreesOps
import Verif.Proofs.TreesSplit
import Mathlib.Data.List.Nodup

/-!
# Parse trees and the elimination of nulling rules
-/

namespace Verif

/-! ## Left-out trees -/

/-- `β` is what is left of `α` when the symbols without a mark are left out. -/
inductive Sel (N : Sym → Prop) : List Bool → List Sym → List Sym → Prop
  | nil : Sel N [] [] []
  | keep {m : List Bool} {s : Sym} {α β : List Sym} : Sel N m α β → Sel N (true :: m) (s :: α) (s :: β)
  | drop {m : List Bool} {s : Sym} {α β : List Sym} : N s → Sel N m α β → Sel N (false :: m) (s :: α) β

/-- Puts trees `e s` in the places that were left out. -/
def Forest.weave (e : Sym → Forest) : List Bool → List Sym → Forest → Forest
  | false :: m, s :: α, f => (e s).append (Forest.weave e m α f)
  | true :: m, _ :: α, .leaf s f => .leaf s (Forest.weave e m α f)
  | true :: m, _ :: α, .node i c f => .node i c (Forest.weave e m α f)
  | _, _, f => f

/-- Rule number `j` is rule number `i` of `old` without the symbols that have no mark, where
`ann[j]` is `i` with the marks. Puts in trees for the missing symbols. -/
def Forest.lift (e : Sym → Forest) (old : List (Sym × List Sym)) (ann : List (Nat × List Bool)) :
    Forest → Forest
  | .nil => .nil
  | .leaf s f => .leaf s (f.lift e old ann)
  | .node j c f =>
    match ann[j]? with
    | some (i, m) =>
      .node i (Forest.weave e m ((old[i]?.map (·.2)).getD []) (c.lift e old ann)) (f.lift e old ann)
    | none => .nil

/-- The rules `new` are the rules `old` with symbols in `N` left out. -/
structure Erasing (N T T' : Sym → Prop) (old new : List (Sym × List Sym))
    (ann : List (Nat × List Bool)) : Prop where
  term : ∀ s, T s → T' s
  oldTerm : ∀ p ∈ old, ¬ T p.1
  newTerm : ∀ p ∈ new, ¬ T' p.1
  src : ∀ (j : Nat) A β, new[j]? = some (A, β) → β ≠ [] ∧
    ∃ i m α, ann[j]? = some (i, m) ∧ old[i]? = some (A, α) ∧ Sel N m α β
  nodup : ann.Nodup
  all : ∀ (i : Nat) A α m β, old[i]? = some (A, α) → Sel N m α β → β ≠ [] →
    (∃ f w, IsForest new T' β f w ∧ ∀ a ∈ w, T a) → ∃ j : Nat, ann[j]? = some (i, m) ∧ new[j]? = some (A, β)

namespace Erasing

variable {N T T' : Sym → Prop} {old new : List (Sym × List Sym)} {ann : List (Nat × List Bool)}
  {e : Sym → Forest}

theorem weave_isForest (he : ∀ s, N s → IsForest old T [s] (e s) []) {m : List Bool}
    {α β : List Sym} (hs : Sel N m α β) {f : Forest} {w : List Sym} (hf : IsForest old T β f w) :
    IsForest old T α (Forest.weave e m α f) w := by
  induction hs generalizing f w with
  | nil => cases hf; exact .nil
  | keep _ ih =>
    cases hf with
    | leaf ht hf => exact .leaf ht (ih hf)
    | node hi hn hc hf => exact .node hi hn hc (ih hf)
  | @drop m s α β hN _ ih => exact (he s hN).append (ih hf)

theorem lift_node (h : Erasing N T T' old new ann) {j : Nat} {A : Sym} {β : List Sym}
    (hj : new[j]? = some (A, β)) (e : Sym → Forest) : β ≠ [] ∧ ∃ i m α, ann[j]? = some (i, m) ∧
      old[i]? = some (A, α) ∧ Sel N m α β ∧ ∀ c f, Forest.lift e old ann (.node j c f) =
        .node i (Forest.weave e m α (c.lift e old ann)) (f.lift e old ann) := by
  obtain ⟨hne, i, m, α, h1, h2, h3⟩ := h.src j A β hj
  exact ⟨hne, i, m, α, h1, h2, h3, fun c f => by simp [Forest.lift, h1, h2]⟩

theorem lift_isForest (h : Erasing N T T' old new ann)
    (he : ∀ s, N s → IsForest old T [s] (e s) []) {α : List Sym} {f : Forest} {w : List Sym}
    (hf : IsForest new T' α f w) (hw : ∀ a ∈ w, T a) :
    IsForest old T α (f.lift e old ann) w := by
  induction hf with
  | nil => exact .nil
  | leaf _ _ ih => exact .leaf (hw _ (by simp)) (ih fun a ha => hw a (by simp [ha]))
  | @node j A c f β u v α hj hn _ _ ihc ih =>
    obtain ⟨-, i, m, γ, -, h2, h3, h4⟩ := h.lift_node hj e
    rw [h4]
    exact .node h2 (h.oldTerm _ (List.mem_of_getElem? h2))
      (weave_isForest he h3 (ihc fun a ha => hw a (by simp [ha]))) (ih fun a ha => hw a (by simp [ha]))

theorem new_ne (h : Erasing N T T' old new ann) : ∀ p ∈ new, p.2 ≠ [] := by
  rintro ⟨A, β⟩ hp
  obtain ⟨j, hj⟩ := List.mem_iff_getElem?.1 hp
  exact (h.src j A β hj).1

/-- A tree of the empty string is an application of a rule. -/
theorem empty_tree {s : Sym} {f : Forest} (hf : IsForest old T [s] f []) :
    ∃ i c, f = .node i c .nil := by
  suffices h : ∀ w, IsForest old T [s] f w → w = [] → ∃ i c, f = .node i c .nil from h [] hf rfl
  clear hf
  intro w hf hw
  cases hf with
  | leaf => cases hw
  | @node i _ c f _ u v _ _ _ _ hf =>
    clear hw
    cases hf
    exact ⟨i, c, rfl⟩

/-- What is put in differs from what was there. -/
theorem weave_ne (h : Erasing N T T' old new ann)
    (he : ∀ s, N s → IsForest old T [s] (e s) []) {s : Sym} {β : List Sym} {c : Forest} {w : List Sym}
    (hc : IsForest new T' (s :: β) c w) (hw : ∀ a ∈ w, T a) (hN : N s) {m : List Bool} {α : List Sym}
    {x : Forest} : Forest.weave e (true :: m) (s :: α) (c.lift e old ann) ≠ (e s).append x := by
  obtain ⟨i, d, hi⟩ := empty_tree (he s hN)
  have hes := he s hN
  rw [hi] at hes ⊢
  intro heq
  cases hc with
  | leaf => simp [Forest.lift, Forest.weave, Forest.append] at heq
  | @node j _ c f γ u v _ hj hn hc hf =>
    have hf1 : IsForest new T' [s] (.node j c .nil) u := by
      have := IsForest.node hj hn hc (.nil (rules := new) (T := T'))
      rwa [List.append_nil] at this
    have h1 := h.lift_isForest he hf1 fun a ha => hw a (by simp [ha])
    obtain ⟨-, i', m', α', -, -, -, h4⟩ := h.lift_node hj e
    rw [h4] at heq h1
    simp only [Forest.weave, Forest.append, Forest.node.injEq] at heq
    obtain ⟨rfl, rfl, -⟩ := heq
    have e2 := (h1.unique hes).2
    have := hf1.length_le h.new_ne
    rw [e2] at this
    simp at this

theorem weave_inj (h : Erasing N T T' old new ann)
    (he : ∀ s, N s → IsForest old T [s] (e s) []) {α : List Sym} : ∀ {m m' : List Bool}
    {β β' : List Sym} {c c' : Forest} {w w' : List Sym}, Sel N m α β → Sel N m' α β' →
    IsForest new T' β c w → IsForest new T' β' c' w' → (∀ a ∈ w, T a) → (∀ a ∈ w', T a) →
    Forest.weave e m α (c.lift e old ann) = Forest.weave e m' α (c'.lift e old ann) →
    m = m' ∧ c.lift e old ann = c'.lift e old ann := by
  induction α with
  | nil =>
    intro m m' β β' c c' w w' hs hs' hc hc' _ _ _
    cases hs; cases hs'; cases hc; cases hc'
    exact ⟨rfl, rfl⟩
  | cons s α ih =>
    intro m m' β β' c c' w w' hs hs' hc hc' hw hw' heq
    cases hs with
    | keep hs =>
      cases hs' with
      | keep hs' =>
        cases hc with
        | leaf ht hc =>
          cases hc' with
          | leaf ht' hc' =>
            simp only [Forest.lift, Forest.weave, Forest.leaf.injEq, true_and] at heq
            obtain ⟨rfl, h2⟩ := ih hs hs' hc hc' (fun a ha => hw a (by simp [ha]))
              (fun a ha => hw' a (by simp [ha])) heq
            exact ⟨rfl, by simp only [Forest.lift, h2]⟩
          | node hj hn => exact absurd ht hn
        | node hj hn hc hf =>
          cases hc' with
          | leaf ht' hc' => exact absurd ht' hn
          | node hj' hn' hc' hf' =>
            obtain ⟨-, i, n, γ, -, -, -, h4⟩ := h.lift_node hj e
            obtain ⟨-, i', n', γ', -, -, -, h4'⟩ := h.lift_node hj' e
            rw [h4, h4'] at heq ⊢
            simp only [Forest.weave, Forest.node.injEq] at heq
            obtain ⟨rfl, h5, heq⟩ := heq
            obtain ⟨rfl, h2⟩ := ih hs hs' hf hf' (fun a ha => hw a (by simp [ha]))
              (fun a ha => hw' a (by simp [ha])) heq
            exact ⟨rfl, by rw [h5, h2]⟩
      | drop hN hs' => exact (h.weave_ne he hc hw hN heq).elim
    | drop hN hs =>
      cases hs' with
      | keep hs' => exact (h.weave_ne he hc' hw' hN heq.symm).elim
      | drop _ hs' =>
        obtain ⟨i, d, hi⟩ := empty_tree (he s hN)
        simp only [Forest.weave, hi, Forest.append, Forest.node.injEq, true_and] at heq
        obtain ⟨rfl, h2⟩ := ih hs hs' hc hc' hw hw' heq
        exact ⟨rfl, h2⟩

theorem lift_inj (h : Erasing N T T' old new ann)
    (he : ∀ s, N s → IsForest old T [s] (e s) []) {α : List Sym} {f f' : Forest} {w w' : List Sym}
    (hf : IsForest new T' α f w) (hf' : IsForest new T' α f' w') (hw : ∀ a ∈ w, T a)
    (hw' : ∀ a ∈ w', T a) (heq : f.lift e old ann = f'.lift e old ann) : f = f' := by
  induction hf generalizing f' w' with
  | nil => cases hf'; rfl
  | @leaf s α f w ht _ ih =>
    cases hf' with
    | leaf _ hf' =>
      simp only [Forest.lift, Forest.leaf.injEq, true_and] at heq
      rw [ih hf' (fun a ha => hw a (by simp [ha])) (fun a ha => hw' a (by simp [ha])) heq]
    | node hj hn => exact absurd ht hn
  | @node j A c f β u v α hj hn hc hf ihc ih =>
    cases hf' with
    | leaf ht _ => exact absurd ht hn
    | @node j' _ c' f' β' u' v' _ hj' hn' hc' hf' =>
      obtain ⟨-, i, m, γ, h1, h2, h3, h4⟩ := h.lift_node hj e
      obtain ⟨-, i', m', γ', h1', h2', h3', h4'⟩ := h.lift_node hj' e
      rw [h4, h4'] at heq
      simp only [Forest.node.injEq] at heq
      obtain ⟨rfl, e1, e2⟩ := heq
      cases h2.symm.trans h2'
      have hu : ∀ a ∈ u, T a := fun a ha => hw a (by simp [ha])
      have hu' : ∀ a ∈ u', T a := fun a ha => hw' a (by simp [ha])
      obtain ⟨rfl, e3⟩ := h.weave_inj he h3 h3' hc hc' hu hu' e1
      have hjj : j = j' := by
        obtain ⟨hl, e4⟩ := List.getElem?_eq_some_iff.1 h1
        obtain ⟨hl', e5⟩ := List.getElem?_eq_some_iff.1 h1'
        exact (h.nodup.getElem_inj_iff (hi := hl) (hj := hl')).1 (e4.trans e5.symm)
      subst hjj
      cases hj.symm.trans hj'
      rw [ihc hc' hu hu' e3, ih hf' (fun a ha => hw a (by simp [ha])) (fun a ha => hw' a (by simp [ha])) e2]

/-- When the empty string has at most one tree for each symbol, nothing else is put in. -/
theorem lift_surj (h : Erasing N T T' old new ann)
    (hu : ∀ s f, IsForest old T [s] f [] → N s ∧ f = e s) {α : List Sym} {f : Forest}
    {w : List Sym} (hf : IsForest old T α f w) : ∃ m β f', Sel N m α β ∧ IsForest new T' β f' w ∧
      Forest.weave e m α (f'.lift e old ann) = f := by
  induction hf with
  | nil => exact ⟨[], [], .nil, .nil, .nil, rfl⟩
  | @leaf s α f w ht _ ih =>
    obtain ⟨m, β, f', h1, h2, rfl⟩ := ih
    exact ⟨true :: m, s :: β, .leaf s f', .keep h1, .leaf (h.term s ht) h2, rfl⟩
  | @node i A c f β u v α hi hn hc hf ihc ih =>
    obtain ⟨m, β₂, f', h1, h2, rfl⟩ := ih
    obtain ⟨n, β₁, c', h3, h4, rfl⟩ := ihc
    by_cases hue : u = []
    · subst hue
      obtain ⟨hN, e1⟩ := hu A _ (.node hi hn hc .nil)
      refine ⟨false :: m, β₂, f', .drop hN h1, h2, ?_⟩
      rw [Forest.weave, ← e1]
      rfl
    · have hne : β₁ ≠ [] := by
        rintro rfl
        cases h4
        exact hue rfl
      obtain ⟨j, h5, h6⟩ := h.all i A β n β₁ hi h3 hne ⟨c', u, h4, hc.der.2⟩
      refine ⟨true :: m, A :: β₂, .node j c' f', .keep h1,
        .node h6 (h.newTerm _ (List.mem_of_getElem? h6)) h4 h2, ?_⟩
      simp [Forest.lift, h5, hi, Forest.weave]

theorem embeds (h : Erasing N T T' old new ann) (he : ∀ s, N s → ∃ f, IsForest old T [s] f [])
    {A : Sym} {w : List Sym} (hw : ∀ a ∈ w, T a) :
    NoMore {f : Forest // IsForest new T' [A] f w} {f : Forest // IsForest old T [A] f w} := by
  classical
  have he' : ∀ s, N s → IsForest old T [s] ((fun s => if h : N s then (he s h).choose else .nil) s) [] := by
    intro s hs
    simp only [hs, dif_pos]
    exact (he s hs).choose_spec
  exact ⟨fun f => ⟨f.1.lift _ old ann, h.lift_isForest he' f.2 hw⟩, fun f f' heq =>
    Subtype.ext (h.lift_inj he' f.2 f'.2 hw hw (congrArg Subtype.val heq))⟩

theorem equiv (h : Erasing N T T' old new ann) (he : ∀ s, N s ↔ ∃ f, IsForest old T [s] f [])
    (hu : ∀ s f f', IsForest old T [s] f [] → IsForest old T [s] f' [] → f = f')
    {A : Sym} {w : List Sym} (hw : ∀ a ∈ w, T a) (hne : w ≠ []) :
    SameNumber {f : Forest // IsForest new T' [A] f w} {f : Forest // IsForest old T [A] f w} := by
  classical
  obtain ⟨e, he'⟩ : ∃ e : Sym → Forest, ∀ s, N s → IsForest old T [s] (e s) [] :=
    ⟨fun s => if h : N s then ((he s).1 h).choose else .nil, fun s hs => by
      simp only [hs, dif_pos]
      exact ((he s).1 hs).choose_spec⟩
  refine ⟨Equiv.ofBijective (fun f => ⟨f.1.lift e old ann, h.lift_isForest he' f.2 hw⟩) ⟨fun f f' heq =>
    Subtype.ext (h.lift_inj he' f.2 f'.2 hw hw (congrArg Subtype.val heq)), ?_⟩⟩
  rintro ⟨f, hf⟩
  obtain ⟨m, β, f', h1, h2, h3⟩ := h.lift_surj (e := e) (fun s f hf => by
    have hN := (he s).2 ⟨f, hf⟩
    exact ⟨hN, hu s f _ hf (he' s hN)⟩) hf
  cases h1 with
  | keep h1 =>
    cases h1
    refine ⟨⟨f', h2⟩, Subtype.ext ?_⟩
    show f'.lift e old ann = f
    rw [← h3]
    cases h2 with
    | leaf => rfl
    | node hj hn _ _ =>
      obtain ⟨-, i, n, γ, -, -, -, h4⟩ := h.lift_node hj e
      rw [h4]
      rfl
  | drop _ h1 =>
    cases h1
    cases h2
    exact (hne rfl).elim

end Erasing

/-! ## The shortened rules -/

/-- A rule with its number and all its symbols marked. -/
def annFull (x : (Sym × List Sym) × Nat) : (Sym × List Sym) × Nat × List Bool :=
  (x.1, x.2, List.replicate x.1.2.length true)

/-- The shortened rules with the number of the rule and its marks. -/
def annShort (n : Sym → Bool) (x : (Sym × List Sym) × Nat) :
    List ((Sym × List Sym) × Nat × List Bool) :=
  match x.1.2 with
  | [a, c] => (if n c then [((x.1.1, [a]), x.2, [true, false])] else []) ++
      if n a then [((x.1.1, [c]), x.2, [false, true])] else []
  | _ => []

/-- All rules with the shortened ones, with numbers and marks. -/
def annAll (n : Sym → Bool) (rules : List (Sym × List Sym)) :
    List ((Sym × List Sym) × Nat × List Bool) :=
  rules.zipIdx.map annFull ++ rules.zipIdx.flatMap (annShort n)

theorem annShort_fst (n : Sym → Bool) (x : (Sym × List Sym) × Nat) :
    (annShort n x).map (·.1) = shorts n x.1 := by
  obtain ⟨⟨A, α⟩, i⟩ := x
  match α with
  | [] => rfl
  | [_] => rfl
  | [a, c] => cases ha : n a <;> cases hc : n c <;> simp [annShort, shorts, ha, hc]
  | _ :: _ :: _ :: _ => rfl

theorem annAll_fst (n : Sym → Bool) (rules : List (Sym × List Sym)) :
    (annAll n rules).map (·.1) = rules ++ rules.flatMap (shorts n) := by
  unfold annAll
  rw [List.map_append, List.map_map, List.map_flatMap]
  simp only [annShort_fst]
  congr 1
  · have : (fun x => x.1) ∘ annFull = Prod.fst := rfl
    rw [this, List.zipIdx_map_fst]
  · conv_rhs => rw [← List.zipIdx_map_fst 0 rules, List.flatMap_map]

theorem Sel.full {N : Sym → Prop} (α : List Sym) : Sel N (List.replicate α.length true) α α := by
  induction α with
  | nil => exact .nil
  | cons a α ih => exact .keep ih

theorem annAll_sel {N : Sym → Prop} {n : Sym → Bool} (hn : ∀ s, n s = true → N s)
    {rules : List (Sym × List Sym)} {x : (Sym × List Sym) × Nat × List Bool}
    (hx : x ∈ annAll n rules) : ∃ α, rules[x.2.1]? = some (x.1.1, α) ∧ Sel N x.2.2 α x.1.2 := by
  unfold annAll at hx
  rcases List.mem_append.1 hx with hx | hx
  · obtain ⟨⟨p, i⟩, hy, rfl⟩ := List.mem_map.1 hx
    exact ⟨p.2, List.mem_zipIdx_iff_getElem?.1 hy, Sel.full _⟩
  · obtain ⟨⟨⟨A, α⟩, i⟩, hy, hx⟩ := List.mem_flatMap.1 hx
    have hy := List.mem_zipIdx_iff_getElem?.1 hy
    unfold annShort at hx
    split at hx
    · rename_i a c e
      simp only at e
      subst e
      rcases List.mem_append.1 hx with hx | hx
      · split at hx
        · rename_i h
          obtain rfl := List.mem_singleton.1 hx
          exact ⟨_, hy, .keep (.drop (hn _ h) .nil)⟩
        · cases hx
      · split at hx
        · rename_i h
          obtain rfl := List.mem_singleton.1 hx
          exact ⟨_, hy, .drop (hn _ h) (.keep .nil)⟩
        · cases hx
    · cases hx

theorem sel_annAll {N : Sym → Prop} {n : Sym → Bool} (hn : ∀ s, N s → n s = true)
    {rules : List (Sym × List Sym)} {i : Nat} {A : Sym} {α β : List Sym} {m : List Bool}
    (hi : rules[i]? = some (A, α)) (hl : α.length ≤ 2) (hs : Sel N m α β) (hne : β ≠ []) :
    ((A, β), i, m) ∈ annAll n rules := by
  have hy : ((A, α), i) ∈ rules.zipIdx := List.mem_zipIdx_iff_getElem?.2 hi
  have hfull : ((A, α), i, List.replicate α.length true) ∈ annAll n rules :=
    List.mem_append.2 (.inl (List.mem_map.2 ⟨_, hy, rfl⟩))
  have hshort : ∀ x ∈ annShort n ((A, α), i), x ∈ annAll n rules := fun x hx =>
    List.mem_append.2 (.inr (List.mem_flatMap.2 ⟨_, hy, hx⟩))
  cases hs with
  | nil => exact (hne rfl).elim
  | keep hs =>
    cases hs with
    | nil => exact hfull
    | keep hs =>
      cases hs with
      | nil => exact hfull
      | keep => simp at hl
      | drop => simp at hl
    | drop hN hs =>
      cases hs with
      | nil => exact hshort _ (by simp [annShort, hn _ hN])
      | keep => simp at hl
      | drop => simp at hl
  | drop hN hs =>
    cases hs with
    | nil => exact (hne rfl).elim
    | keep hs =>
      cases hs with
      | nil => exact hshort _ (by simp [annShort, hn _ hN])
      | keep => simp at hl
      | drop => simp at hl
    | drop _ hs =>
      cases hs with
      | nil => exact (hne rfl).elim
      | keep => simp at hl
      | drop => simp at hl

theorem annShort_nodup (n : Sym → Bool) (x : (Sym × List Sym) × Nat) :
    ((annShort n x).map (·.2)).Nodup := by
  unfold annShort
  split
  · split <;> split <;> simp
  · simp

theorem annShort_snd {n : Sym → Bool} {x : (Sym × List Sym) × Nat} {y : Nat × List Bool}
    (hy : y ∈ (annShort n x).map (·.2)) : y.1 = x.2 ∧ false ∈ y.2 := by
  obtain ⟨z, hz, rfl⟩ := List.mem_map.1 hy
  unfold annShort at hz
  split at hz
  · rcases List.mem_append.1 hz with hz | hz <;> split at hz
    · obtain rfl := List.mem_singleton.1 hz; simp
    · cases hz
    · obtain rfl := List.mem_singleton.1 hz; simp
    · cases hz
  · cases hz

theorem annAll_nodup (n : Sym → Bool) (rules : List (Sym × List Sym)) :
    ((annAll n rules).map (·.2)).Nodup := by
  unfold annAll
  have hz : (rules.zipIdx.map (·.2)).Nodup := by
    rw [List.zipIdx_map_snd]
    exact List.nodup_range'
  rw [List.map_append, List.nodup_append]
  refine ⟨?_, ?_, ?_⟩
  · refine List.Nodup.of_map Prod.fst ?_
    rw [List.map_map, List.map_map]
    exact hz
  · rw [List.map_flatMap, List.nodup_flatMap]
    refine ⟨fun x _ => annShort_nodup n x, ?_⟩
    rw [List.Nodup, List.pairwise_map] at hz
    refine hz.imp fun {a b} hab y hy hy' => hab ?_
    exact (annShort_snd hy).1.symm.trans (annShort_snd hy').1
  · rintro y hy y' hy' rfl
    rw [List.map_map] at hy
    obtain ⟨x, -, rfl⟩ := List.mem_map.1 hy
    rw [List.map_flatMap] at hy'
    obtain ⟨x', -, hx'⟩ := List.mem_flatMap.1 hy'
    have := (annShort_snd hx').2
    simp [annFull] at this

/-- Elimination of nulling rules leaves symbols out. -/
theorem ElimSpec.erasing {g g₁ g' res : Cfg} (hs : ElimSpec g g₁ g' res) :
    ∃ ann, Erasing (Nullable g₁.prod) g₁.Term g'.Term g₁.pairs g'.pairs ann := by
  obtain ⟨n, q, hn, hq, -, hl⟩ := hs.lists
  have hl : g'.pairs = (g₁.pairs ++ g₁.pairs.flatMap (shorts n)).filter
    fun p => !p.2.isEmpty && q p.1 := hl
  rw [← annAll_fst, List.filter_map] at hl
  have hlen : ∀ p ∈ g₁.pairs, p.2.length ≤ 2 := by
    intro p hp
    obtain ⟨r, hr, rfl⟩ := List.mem_map.1 hp
    exact hs.len r hr
  have hsrc : ∀ (j : Nat) A β, g'.pairs[j]? = some (A, β) → β ≠ [] ∧
      ∃ i m α, ((annAll n g₁.pairs).filter ((fun p => !p.2.isEmpty && q p.1) ∘ (·.1)))[j]? =
        some ((A, β), i, m) ∧ g₁.pairs[i]? = some (A, α) ∧ Sel (Nullable g₁.prod) m α β := by
    intro j A β hj
    rw [hl, List.getElem?_map] at hj
    obtain ⟨⟨p, i, m⟩, hx, rfl⟩ := Option.map_eq_some_iff.1 hj
    have hmem := List.mem_filter.1 (List.mem_of_getElem? hx)
    obtain ⟨α, h1, h2⟩ := annAll_sel (fun s => (hn s).1) hmem.1
    refine ⟨?_, i, m, α, hx, h1, h2⟩
    have := hmem.2
    simp only [Function.comp, Bool.and_eq_true, Bool.not_eq_true', List.isEmpty_eq_false_iff] at this
    exact this.1
  have helim : ∀ A β, (A, β) ∈ g'.pairs → elimProds g₁.prod A β := by
    intro A β h
    rw [Cfg.mem_pairs] at h
    rcases hs.prods with ⟨hno, rfl⟩ | ⟨-, hp⟩
    · refine ⟨.inl h, ?_⟩
      rintro rfl
      exact hno A (derives_iff_der.2 (.prod h))
    · exact ((hp A β).1 h).1
  refine ⟨((annAll n g₁.pairs).filter ((fun p => !p.2.isEmpty && q p.1) ∘ (·.1))).map (·.2), ?_, ?_, ?_,
    ?_, ?_, ?_⟩
  · intro s hsT
    refine ⟨by rw [hs.syms.1]; exact hsT.1, fun r hr e => ?_⟩
    obtain ⟨j, hj⟩ := List.mem_iff_getElem?.1 (List.mem_map_of_mem (f := fun r : CfgRule => (r.lhs, r.rhs)) hr)
    obtain ⟨-, i, m, α, -, h2, -⟩ := hsrc j _ _ hj
    obtain ⟨r', hr', e', -⟩ := Cfg.pairs_get.1 h2
    exact hsT.2 r' (List.mem_of_getElem? hr') (e'.trans e)
  · intro p hp hT
    obtain ⟨r, hr, rfl⟩ := List.mem_map.1 hp
    exact hT.2 r hr rfl
  · intro p hp hT
    obtain ⟨r, hr, rfl⟩ := List.mem_map.1 hp
    exact hT.2 r hr rfl
  · intro j A β hj
    obtain ⟨hne, i, m, α, h1, h2, h3⟩ := hsrc j A β hj
    exact ⟨hne, i, m, α, by rw [List.getElem?_map, h1]; rfl, h2, h3⟩
  · exact ((annAll_nodup n g₁.pairs).sublist (List.filter_sublist.map _))
  · rintro i A α m β hi hsel hne ⟨f, w, hf, hw⟩
    have hmem := sel_annAll (n := n) (fun s => (hn s).2) hi (hlen _ (List.mem_of_getElem? hi)) hsel hne
    have hqA : q A = true := by
      apply hq
      have hα : g₁.prod A α := Cfg.mem_pairs.1 (List.mem_of_getElem? hi)
      have hA : elimProds g₁.prod A β := by
        refine ⟨?_, hne⟩
        have hlen := hlen _ (List.mem_of_getElem? hi)
        cases hsel with
        | nil => exact (hne rfl).elim
        | keep hsel =>
          cases hsel with
          | nil => exact .inl hα
          | keep hsel =>
            cases hsel with
            | nil => exact .inl hα
            | keep => simp at hlen
            | drop => simp at hlen
          | drop hN hsel =>
            cases hsel with
            | nil => exact .inr ⟨_, hα, _, _, rfl, .inl ⟨rfl, hN⟩⟩
            | keep => simp at hlen
            | drop => simp at hlen
        | drop hN hsel =>
          cases hsel with
          | nil => exact (hne rfl).elim
          | keep hsel =>
            cases hsel with
            | nil => exact .inr ⟨_, hα, _, _, rfl, .inr ⟨rfl, hN⟩⟩
            | keep => simp at hlen
            | drop => simp at hlen
          | drop _ hsel =>
            cases hsel with
            | nil => exact (hne rfl).elim
            | keep => simp at hlen
            | drop => simp at hlen
      refine ⟨w, derives_iff_der.2 (Der.single_iff.2 (.inr ⟨β, hA, ?_⟩)), hw⟩
      exact hf.der.1.mono fun A β h => helim A β h
    have hmem' := List.mem_filter.2 ⟨hmem, show ((fun p : Sym × List Sym => !p.2.isEmpty && q p.1) ∘
      (·.1)) ((A, β), i, m) = true by simp [hqA, hne]⟩
    obtain ⟨j, hj⟩ := List.mem_iff_getElem?.1 hmem'
    exact ⟨j, by rw [List.getElem?_map, hj]; rfl, by rw [hl, List.getElem?_map, hj]; rfl⟩

/-! ## Trees of the empty string -/

theorem nullable_iff_tree (g : Cfg) (s : Sym) :
    Nullable g.prod s ↔ ∃ f, IsForest g.pairs g.Term [s] f [] := by
  have h := g.lang_iff_trees s []
  unfold Cfg.Lang at h
  rw [inLang_iff] at h
  simp only [List.not_mem_nil, false_implies, implies_true, and_true] at h
  rw [Nullable, derives_iff_der, h]
  exact ⟨fun ⟨f⟩ => ⟨f.1, f.2⟩, fun ⟨f, hf⟩ => ⟨⟨f, hf⟩⟩⟩

/-- If every symbol has at most one tree of the empty string, so has every sequence of symbols. -/
theorem empty_forest_unique {rules : List (Sym × List Sym)} {T : Sym → Prop}
    (hu : ∀ s f f', IsForest rules T [s] f [] → IsForest rules T [s] f' [] → f = f')
    {α w w' : List Sym} {f f' : Forest} (hf : IsForest rules T α f w) (hf' : IsForest rules T α f' w')
    (hw : w = []) (hw' : w' = []) : f = f' := by
  induction hf generalizing f' w' with
  | nil => cases hf'; rfl
  | leaf => cases hw
  | node hi hn hc _ _ ih =>
    cases hf' with
    | leaf => cases hw'
    | node hi' hn' hc' hf' =>
      obtain ⟨rfl, rfl⟩ := List.append_eq_nil_iff.1 hw
      obtain ⟨rfl, rfl⟩ := List.append_eq_nil_iff.1 hw'
      have e := hu _ _ _ (.node hi hn hc .nil) (.node hi' hn' hc' .nil)
      simp only [Forest.node.injEq, and_true] at e
      rw [e.1, e.2, ih hf' rfl rfl]

/-- Splitting rules adds no trees of the empty string, new symbols included. -/
theorem split_empty_unique {g g₁ : Cfg} (hwf : g.WF) (h : g.limitRhsLen (some 2) = .ok g₁)
    (hu : ∀ s, s < g.numSyms → Subsingleton (g.Trees s [])) :
    ∀ s f f', IsForest g₁.pairs g₁.Term [s] f [] → IsForest g₁.pairs g₁.Term [s] f' [] → f = f' := by
  obtain ⟨g₁', h1, h2⟩ := Cfg.Folded.addRules (O := (· < g.numSyms)) (old := [])
    (g := { g with rhsLenInvariant := some 2, rules := [] }) g.rules (Cfg.Folded.nil _)
    (fun n hn => by cases hn; omega) hwf
  have : g₁' = g₁ := Res.ok.inj (h1.symm.trans h)
  subst this
  obtain ⟨k, orig, h3⟩ := Cfg.Folded.folding h2
  have e : (fun a => a < g.numSyms ∧ ∀ r ∈ g.pairs, r.1 ≠ a) = g.Term := by
    funext a
    simp [Cfg.Term, Cfg.pairs]
  have h3 : Folding (· < g.numSyms) g₁'.numSyms g.Term g₁'.Term g.pairs g₁'.pairs k orig := by
    rw [← e]
    exact h3
  intro s f f' hf hf'
  refine h3.inj hf hf' (empty_forest_unique (fun s f f' hf hf' => ?_) (h3.isForest hf)
    (h3.isForest hf') rfl rfl)
  have hs : s < g.numSyms := by
    obtain ⟨i, c, rfl⟩ := Erasing.empty_tree hf
    suffices H : ∀ w, IsForest g.pairs g.Term [s] (.node i c .nil) w → s < g.numSyms from H _ hf
    intro w hf
    cases hf with
    | node hi =>
      obtain ⟨r, hr, rfl, -⟩ := Cfg.pairs_get.1 hi
      exact (hwf r (List.mem_of_getElem? hr)).1
  have := hu s hs
  exact congrArg Subtype.val (Subsingleton.elim (α := g.Trees s []) ⟨f, hf⟩ ⟨f', hf'⟩)

/-- Trees of the empty string have no terminals. -/
theorem empty_forest_term {rules : List (Sym × List Sym)} {T T' : Sym → Prop}
    (hT : ∀ p ∈ rules, ¬ T' p.1) {α w : List Sym} {f : Forest} (hf : IsForest rules T α f w)
    (hw : w = []) : IsForest rules T' α f w := by
  induction hf with
  | nil => exact .nil
  | leaf => cases hw
  | node hi hn _ _ ihc ih =>
    obtain ⟨rfl, rfl⟩ := List.append_eq_nil_iff.1 hw
    exact .node hi (hT _ (List.mem_of_getElem? hi)) (ihc rfl) (ih rfl)

/-- The returned grammar has the trees of the empty string. -/
theorem ElimSpec.nulling_trees {g g₁ g' res : Cfg} (hs : ElimSpec g g₁ g' res) (s : Sym) :
    SameNumber (res.Trees s []) (g₁.Trees s []) := by
  obtain ⟨n, q, hn, -, hl, -⟩ := hs.lists
  have hl : res.pairs = g₁.pairs.filter fun p => p.2.all n := hl
  have hterm : ∀ (g : Cfg) f, IsForest g.pairs g.Term [s] f [] ↔ IsForest g.pairs (fun _ => False) [s] f [] := by
    intro g f
    refine ⟨fun h => empty_forest_term (by simp) h rfl, fun h => empty_forest_term ?_ h rfl⟩
    intro p hp hT
    obtain ⟨r, hr, rfl⟩ := List.mem_map.1 hp
    exact hT.2 r hr rfl
  have hemp : ∀ {α f w}, IsForest g₁.pairs (fun _ => False) α f w → ∀ a ∈ α, n a = true := by
    intro α f w hf
    induction hf with
    | nil => simp
    | leaf h => exact h.elim
    | @node i A c f β u v α hi _ hc hf ihc ih =>
      intro a ha
      rcases List.mem_cons.1 ha with rfl | ha
      · rw [hn]
        exact derives_iff_der.2 (Der.single_iff.2 (.inr ⟨β, Cfg.mem_pairs.1 (List.mem_of_getElem? hi),
          der_nil_of_nullable fun b hb => (hn b).1 (ihc b hb)⟩))
      · exact ih a ha
  obtain ⟨ρ, hρ⟩ := perm_positions (List.filter_append_perm (fun p : Sym × List Sym => p.2.all n) g₁.pairs).symm
  have hR : Relabel (fun _ => True) (fun _ => False) (fun _ => False) g₁.pairs res.pairs id ρ := by
    refine ⟨fun _ _ => Iff.rfl, fun _ _ _ _ e => e, ?_, ?_⟩
    · rintro i A β hi - ⟨c, u, hc⟩
      refine ⟨fun _ _ => trivial, ?_⟩
      have hall : β.all n = true := List.all_eq_true.2 (hemp hc)
      rw [hl, List.map_id]
      have e := hρ i
      rw [hi] at e
      rcases Nat.lt_or_ge (ρ i) (g₁.pairs.filter fun p => p.2.all n).length with hlt | hge
      · rwa [List.getElem?_append_left hlt] at e
      · rw [List.getElem?_append_right hge] at e
        have := List.mem_of_getElem? e
        rw [List.mem_filter] at this
        simp [hall] at this
    · intro j A γ hj _
      rw [hl] at hj
      have e := hρ (ρ.symm j)
      rw [Equiv.apply_symm_apply, List.getElem?_append_left (List.getElem?_eq_some_iff.1 hj).1, hj] at e
      exact ⟨γ, e.symm, (List.map_id _).symm, fun _ _ => trivial⟩
  have h := (hR.equiv_same (α := [s]) (by simp) []).symm
  have e : ∀ g : Cfg, g.Trees s [] = {f : Forest // IsForest g.pairs (fun _ => False) [s] f []} := by
    intro g
    unfold Cfg.Trees
    congr 1
    funext f
    exact propext (hterm g f)
  rw [e, e]
  exact h

end Verif
