import Verif.Spec.Precedence
import Verif.Proofs.Tactics

/-! # Precedenced rules: occurrences of the left side -/

namespace Verif

/-! ## Replacing occurrences -/

theorem getElem?_replaceLeft (lhs c t : Sym) (α : List Sym) (j : Nat) :
    (replaceLeft lhs c t α)[j]? =
      α[j]?.map fun a => if a = lhs then if lhs ∈ α.take j then t else c else a := by
  induction α generalizing j with
  | nil => simp [replaceLeft]
  | cons a α ih =>
    unfold replaceLeft
    split
    · rename_i h
      subst h
      cases j with
      | zero => simp
      | succ j => simp
    · rename_i h
      cases j with
      | zero => simp [h]
      | succ j =>
        rw [List.getElem?_cons_succ, ih, List.getElem?_cons_succ, List.take_succ_cons]
        have : lhs ∈ a :: α.take j ↔ lhs ∈ α.take j := by
          simp [show lhs ≠ a from fun e => h e.symm]
        simp only [this]

theorem length_replaceLeft (lhs c t : Sym) (α : List Sym) :
    (replaceLeft lhs c t α).length = α.length := by
  induction α with
  | nil => rfl
  | cons a α ih => unfold replaceLeft; split <;> simp [ih]

theorem getElem?_replaceRight (lhs c t : Sym) (α : List Sym) (j : Nat) :
    (replaceRight lhs c t α)[j]? =
      α[j]?.map fun a => if a = lhs then if lhs ∈ α.drop (j + 1) then t else c else a := by
  unfold replaceRight
  by_cases hj : j < α.length
  · rw [List.getElem?_reverse (by rwa [length_replaceLeft, List.length_reverse]),
      getElem?_replaceLeft, length_replaceLeft, List.length_reverse,
      List.getElem?_reverse (by omega), List.take_reverse]
    have e1 : α.length - 1 - (α.length - 1 - j) = j := by omega
    have e2 : α.length - (α.length - 1 - j) = j + 1 := by omega
    rw [e1, e2]
    simp only [List.mem_reverse]
  · rw [List.getElem?_eq_none (by simp [length_replaceLeft]; omega),
      List.getElem?_eq_none (by omega)]
    rfl

/-- The symbol standing for an occurrence, given the symbols of the levels. -/
def occSym (Ls : Nat → Sym) : Occ → Sym
  | .any a => a
  | .below b => Ls (b - 1)

/-- The bound used by the code for the other occurrences: at the tightest level it does not
exclude that level. -/
def codeStrict (n : Nat) : Nat := max 1 n

theorem marks_left (Ls : Nat → Sym) (lhs : Sym) (m n : Nat) (α : List Sym) :
    ((⟨n, .left, α⟩ : Alternative).marks lhs m codeStrict).map (occSym Ls) =
      replaceLeft lhs (Ls n) (Ls (n - 1)) α := by
  apply List.ext_getElem?
  intro j
  rw [getElem?_replaceLeft]
  unfold Alternative.marks
  simp only [List.getElem?_map, List.getElem?_mapIdx, Option.map_map]
  congr 1
  funext a
  simp only [Function.comp, codeStrict]
  by_cases h : a = lhs
  · simp only [if_pos h]
    split <;> simp [occSym]
    congr 1
    omega
  · simp [if_neg h, occSym]

theorem marks_right (Ls : Nat → Sym) (lhs : Sym) (m n : Nat) (α : List Sym) :
    ((⟨n, .right, α⟩ : Alternative).marks lhs m codeStrict).map (occSym Ls) =
      replaceRight lhs (Ls n) (Ls (n - 1)) α := by
  apply List.ext_getElem?
  intro j
  rw [getElem?_replaceRight]
  unfold Alternative.marks
  simp only [List.getElem?_map, List.getElem?_mapIdx, Option.map_map]
  congr 1
  funext a
  simp only [Function.comp, codeStrict]
  by_cases h : a = lhs
  · simp only [if_pos h]
    split <;> simp [occSym]
    congr 1
    omega
  · simp [if_neg h, occSym]

theorem marks_group (Ls : Nat → Sym) (lhs : Sym) (m n : Nat) (α : List Sym) (st : Nat → Nat) :
    ((⟨n, .group, α⟩ : Alternative).marks lhs m st).map (occSym Ls) =
      α.map fun s => if s = lhs then Ls m else s := by
  apply List.ext_getElem?
  intro j
  unfold Alternative.marks
  simp only [List.getElem?_map, List.getElem?_mapIdx, Option.map_map]
  congr 1
  funext a
  simp only [Function.comp]
  by_cases h : a = lhs <;> simp [h, occSym]

/-- What occurs in the marks. -/
theorem mem_marks {a : Alternative} {lhs : Sym} {m : Nat} {st : Nat → Nat} {o : Occ}
    (h : o ∈ a.marks lhs m st) :
    (∃ s ∈ a.rhs, s ≠ lhs ∧ o = .any s) ∨ (lhs ∈ a.rhs ∧ ∃ b, o = .below b ∧
      (b = a.level + 1 ∨ b = st a.level ∨ b = m + 1)) := by
  unfold Alternative.marks at h
  rw [List.mem_mapIdx] at h
  obtain ⟨j, hj, rfl⟩ := h
  by_cases e : a.rhs[j] = lhs
  · right
    refine ⟨e ▸ List.getElem_mem hj, ?_⟩
    simp only [if_pos e]
    cases a.assoc <;> simp only [Occ.below.injEq, exists_eq_left']
    · split <;> simp
    · split <;> simp
    · simp
  · exact .inl ⟨_, List.getElem_mem hj, e, by simp [if_neg e]⟩

theorem marks_congr {a : Alternative} (h : a.assoc ≠ .group) (lhs : Sym) (m m' : Nat)
    (st : Nat → Nat) : a.marks lhs m st = a.marks lhs m' st := by
  obtain ⟨n, as, α⟩ := a
  unfold Alternative.marks
  cases as
  · rfl
  · rfl
  · exact absurd rfl h

end Verif
