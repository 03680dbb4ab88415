import Verif.Proofs.Operators

/-! # Levels with operators of both kinds -/

namespace Verif

theorem PrecForest.terminals {rules : List (Sym × List Sym)} {T : Sym → Prop} {lhs : Sym} {m : Nat}
    {st : Nat → Nat} {alts : List Alternative} {l : List Occ} {f : Forest} {w : List Sym}
    (h : PrecForest rules T lhs m st alts l f w) : ∀ a ∈ w, T a := by
  induction h with
  | nil => simp
  | leaf ht _ ih => simpa using ⟨ht, ih⟩
  | rule _ _ _ ihc ih => exact fun a ha => (List.mem_append.1 ha).elim (ihc a) (ih a)
  | alt _ _ _ ihc ih => exact fun a ha => (List.mem_append.1 ha).elim (ihc a) (ih a)
  | altBelow _ _ _ _ ihc ih => exact fun a ha => (List.mem_append.1 ha).elim (ihc a) (ih a)

section
variable {rules : List (Sym × List Sym)} {T : Sym → Prop} {lhs : Sym} {m : Nat}
  {alts : List Alternative} {role : Sym → Role}

local notation "𝓕" => PrecForest rules T lhs m codeStrict alts

/-- An atom fits everywhere. -/
theorem atom_tree {k : Nat} {as : Assoc} {t : Sym} (hk : alts[k]? = some ⟨0, as, [t]⟩) (ht : t ≠ lhs)
    (hT : T t) {b : Nat} (hb : 0 < b) :
    𝓕 [.below b] (.node (rules.length + k) (.leaf t .nil) .nil) [t] :=
  .altBelow (u := [t]) (v := []) hk hb
    (by simpa [Alternative.marks, ht] using PrecForest.leaf hT .nil) .nil

/-- A leftward operator behind an operand of its level. -/
theorem leftward_tree {a : Alternative} (hl : Leftward lhs a)
    (hf : ∃ t, OpForm lhs role a t) (hT : ∀ s ∈ a.rhs, s ≠ lhs → T s) {x : Forest} {w : List Sym}
    (hx : ∀ b, 0 < b → 𝓕 [.below b] x w) :
    ∃ (op : Sym) (z : Forest) (v : List Sym), ∀ f u, 𝓕 [.below (a.level + 1)] f u →
      𝓕 (a.marks lhs m codeStrict) (f.append (.leaf op z)) (u ++ op :: v) := by
  obtain ⟨t, hf⟩ := hf
  cases hl with
  | @infixLeft n op h =>
    have hn : 1 ≤ n := by cases hf; assumption
    refine ⟨op, x, w, fun f u hu => ?_⟩
    have e : (⟨n, .left, [lhs, op, lhs]⟩ : Alternative).marks lhs m codeStrict =
        [.below (n + 1)] ++ .any op :: [.below (codeStrict n)] := by
      simp [Alternative.marks, h]
    rw [e]
    exact hu.append (.leaf (hT op (by simp) h) (hx _ (by unfold codeStrict; omega)))
  | @postfixOp n as op h =>
    have has : as ≠ .group := by
      cases hf with
      | bracket h' => exact absurd rfl h'
      | postfixOp => assumption
      | prefixOp => assumption
    refine ⟨op, .nil, [], fun f u hu => ?_⟩
    have e : (⟨n, as, [lhs, op]⟩ : Alternative).marks lhs m codeStrict =
        [.below (n + 1)] ++ .any op :: [] := by
      cases as <;> simp [Alternative.marks, h, Ne.symm h] at has ⊢
    rw [e]
    exact hu.append (.leaf (hT op (by simp) h) .nil)

/-- A rightward operator in front of an operand of its level. -/
theorem rightward_tree {a : Alternative} (hl : Rightward lhs a)
    (hf : ∃ t, OpForm lhs role a t) (hT : ∀ s ∈ a.rhs, s ≠ lhs → T s) {x : Forest} {w : List Sym}
    (hx : ∀ b, 0 < b → 𝓕 [.below b] x w) :
    ∃ (z : Forest) (v : List Sym), ∀ f u, 𝓕 [.below (a.level + 1)] f u →
      𝓕 (a.marks lhs m codeStrict) (z.append f) (v ++ u) := by
  obtain ⟨t, hf⟩ := hf
  cases hl with
  | @infixRight n op h =>
    have hn : 1 ≤ n := by cases hf; assumption
    refine ⟨x.append (.leaf op .nil), w ++ [op], fun f u hu => ?_⟩
    have e : (⟨n, .right, [lhs, op, lhs]⟩ : Alternative).marks lhs m codeStrict =
        [.below (codeStrict n)] ++ [.any op] ++ [.below (n + 1)] := by
      simp [Alternative.marks, h]
    rw [e]
    exact ((hx _ (by unfold codeStrict; omega)).append (.leaf (hT op (by simp) h) .nil)).append hu
  | @prefixOp n as op h =>
    have has : as ≠ .group := by
      cases hf with
      | bracket _ _ h' =>
        cases h' with
        | closing h' => exact absurd rfl h'
        | inner h' => exact absurd rfl h'
        | expr _ h' => cases h'
      | postfixOp => assumption
      | prefixOp => assumption
    refine ⟨.leaf op .nil, [op], fun f u hu => ?_⟩
    have e : (⟨n, as, [op, lhs]⟩ : Alternative).marks lhs m codeStrict =
        [.any op] ++ [.below (n + 1)] := by
      cases as <;> simp [Alternative.marks, h, Ne.symm h] at has ⊢
    rw [e]
    exact (PrecForest.leaf (hT op (by simp) h) .nil).append hu

/-- A level with a leftward and a rightward operator makes a string with two trees. -/
theorem mixed_trees {k i j : Nat} {as : Assoc} {t : Sym} {a b : Alternative}
    (hk : alts[k]? = some ⟨0, as, [t]⟩) (ht : t ≠ lhs) (hi : alts[i]? = some a)
    (hj : alts[j]? = some b) (ha : Leftward lhs a) (hb : Rightward lhs b) (hlev : a.level = b.level)
    (hform : ∀ a ∈ alts, ∃ t, OpForm lhs role a t) (hT : ∀ a ∈ alts, ∀ s ∈ a.rhs, s ≠ lhs → T s) :
    ∃ w f f', f ≠ f' ∧ 𝓕 [.any lhs] f w ∧ 𝓕 [.any lhs] f' w := by
  have hne : i ≠ j := by
    rintro rfl
    obtain rfl := Option.some.inj (hi.symm.trans hj)
    cases ha with
    | infixLeft => cases hb
    | postfixOp h =>
      cases hb
      exact h rfl
  have hx : ∀ b, 0 < b → 𝓕 [.below b] (.node (rules.length + k) (.leaf t .nil) .nil) [t] := fun b hb =>
    atom_tree hk ht (hT _ (List.mem_of_getElem? hk) t (by simp) ht) hb
  have hma := List.mem_of_getElem? hi
  have hmb := List.mem_of_getElem? hj
  obtain ⟨op, z, v, hL⟩ := leftward_tree ha (hform a hma) (hT a hma) hx
  obtain ⟨z', v', hR⟩ := rightward_tree hb (hform b hmb) (hT b hmb) hx
  have h1 := hR _ _ (.altBelow hi (by omega) (hL _ _ (hx _ (Nat.succ_pos _))) .nil)
  have h2 := hL _ _ (.altBelow hj (by omega) (hR _ _ (hx _ (Nat.succ_pos _))) .nil)
  have h3 := PrecForest.alt hj h1 .nil
  have h4 := PrecForest.alt hi h2 .nil
  simp only [List.append_assoc, List.append_nil] at h3 h4
  refine ⟨_, _, _, fun e => ?_, h3, h4⟩
  have := (Forest.node.inj e).1
  omega

end

theorem OpForm.key {lhs : Sym} {role : Sym → Role} {a : Alternative} {t : Sym}
    (h : OpForm lhs role a t) : a.rhs.find? (· ≠ lhs) = some t := by
  cases h <;> simp_all

/-- Different first tokens make different alternatives. -/
theorem distinct_forms {lhs : Sym} {role : Sym → Role} {alts : List Alternative}
    (h : (alts.map fun a => a.rhs.find? (· ≠ lhs)).Nodup) :
    ∀ (i j : Nat) a b t, alts[i]? = some a → alts[j]? = some b → OpForm lhs role a t →
      OpForm lhs role b t → i = j := by
  intro i j a b t hi hj ha hb
  have h1 : i < alts.length := (List.getElem?_eq_some_iff.1 hi).1
  refine (List.getElem?_inj (by simpa using h1) h).1 ?_
  simp only [List.getElem?_map, hi, hj, Option.map_some, ha.key, hb.key]

/-- When no level has operators of both kinds, the forms make an operator table. -/
theorem OperatorTable.of_forms {lhs : Sym} {role : Sym → Role} {alts : List Alternative}
    (hform : ∀ a ∈ alts, ∃ t, OpForm lhs role a t)
    (hdist : ∀ (i j : Nat) a b t, alts[i]? = some a → alts[j]? = some b → OpForm lhs role a t →
      OpForm lhs role b t → i = j)
    (hlev : ∀ a ∈ alts, ∀ b ∈ alts, Leftward lhs a → Rightward lhs b → a.level ≠ b.level) :
    OperatorTable lhs role (fun n => ∃ b ∈ alts, Rightward lhs b ∧ b.level = n) alts := by
  have back : ∀ {right : Nat → Prop} {a : Alternative} {t : Sym}, OpAlt lhs role right a t →
      OpForm lhs role a t := by
    intro right a t h
    cases h with
    | atom h1 h2 => exact .atom h1 h2
    | bracket h1 h2 h3 => exact .bracket h1 h2 h3
    | infixLeft h1 h2 h3 => exact .infixOp h1 h2 h3 (by simp)
    | postfixOp h1 h2 h3 _ h4 => exact .postfixOp h1 h2 h3 h4
    | infixRight h1 h2 h3 => exact .infixOp h1 h2 h3 (by simp)
    | prefixOp h1 h2 h3 _ h4 => exact .prefixOp h1 h2 h3 h4
  refine ⟨fun a ha => ?_, fun i j a b t hi hj h1 h2 => hdist i j a b t hi hj (back h1) (back h2)⟩
  obtain ⟨t, h⟩ := hform a ha
  refine ⟨t, ?_⟩
  cases h with
  | atom h1 h2 => exact .atom h1 h2
  | bracket h1 h2 h3 => exact .bracket h1 h2 h3
  | @infixOp n as op h1 h2 h3 h4 =>
    cases as with
    | left =>
      refine .infixLeft h1 h2 h3 ?_
      rintro ⟨b, hb, hr, e⟩
      exact hlev _ ha b hb (.infixLeft h2) hr e.symm
    | right => exact .infixRight h1 h2 h3 ⟨_, ha, .infixRight h2, rfl⟩
    | group => exact absurd rfl h4
  | @postfixOp n as op h1 h2 h3 h4 =>
    refine .postfixOp h1 h2 h3 ?_ h4
    rintro ⟨b, hb, hr, e⟩
    exact hlev _ ha b hb (.postfixOp h2) hr e.symm
  | @prefixOp n as op h1 h2 h3 h4 => exact .prefixOp h1 h2 h3 ⟨_, ha, .prefixOp h2, rfl⟩ h4

end Verif
