import Verif.Spec.Grammar
import Verif.Model.BitSet
import Verif.Proofs.Tactics

/-! # Helper lemmas on bit sets -/

namespace Verif

namespace BitSet

theorem set_ok {b : BitSet} {s : Sym} (h : s < b.length) (v : Bool) :
    set b s v = .ok (List.set b s v) := by
  simp [set, h]

theorem setMany_spec (v : Bool) (syms : List Sym) (b : BitSet)
    (h : ∀ s ∈ syms, s < b.length) :
    ∃ b', setMany b syms v = .ok b' ∧ b'.length = b.length ∧
      ∀ s, b'[s]? = if s ∈ syms then some v else b[s]? := by
  induction syms generalizing b with
  | nil => exact ⟨b, rfl, rfl, by simp⟩
  | cons a syms ih =>
    have ha : a < b.length := h a (by simp)
    obtain ⟨b', hb', hl, hs⟩ := ih (List.set b a v) (by
      intro s hs; rw [List.length_set]; exact h s (by simp [hs]))
    refine ⟨b', ?_, by rw [hl, List.length_set], ?_⟩
    · simpa [setMany, List.foldlM_cons, set_ok ha] using hb'
    · intro s
      rw [hs s]
      by_cases e : s ∈ syms
      · simp [e]
      · by_cases e' : s = a
        · subst e'; simp [e, ha]
        · have : ¬ a = s := fun h => e' h.symm
          simp [e, e', this]

theorem setMany_fold (v : Bool) (f : CfgRule → List Sym) (rules : List CfgRule) (b : BitSet)
    (h : ∀ r ∈ rules, ∀ s ∈ f r, s < b.length) :
    ∃ b', rules.foldlM (fun b r => setMany b (f r) v) b = .ok b' ∧ b'.length = b.length ∧
      ∀ s, b'[s]? = if ∃ r ∈ rules, s ∈ f r then some v else b[s]? := by
  induction rules generalizing b with
  | nil => exact ⟨b, rfl, rfl, by simp⟩
  | cons r rules ih =>
    obtain ⟨b₁, hb₁, hl₁, hs₁⟩ := setMany_spec v (f r) b (h r (by simp))
    obtain ⟨b', hb', hl, hs⟩ := ih b₁ (by
      intro r' hr' s hs; rw [hl₁]; exact h r' (by simp [hr']) s hs)
    refine ⟨b', ?_, by rw [hl, hl₁], ?_⟩
    · rw [List.foldlM_cons, hb₁]; exact hb'
    · intro s
      rw [hs s, hs₁ s]
      by_cases e : ∃ r ∈ rules, s ∈ f r
      · have : ∃ r' ∈ r :: rules, s ∈ f r' := by
          obtain ⟨r', h1, h2⟩ := e; exact ⟨r', by simp [h1], h2⟩
        rw [if_pos e, if_pos this]
      · rw [if_neg e]
        by_cases e' : s ∈ f r
        · rw [if_pos e', if_pos ⟨r, by simp, e'⟩]
        · rw [if_neg e', if_neg]
          rintro ⟨r', h1, h2⟩
          rcases List.mem_cons.1 h1 with rfl | h1
          · exact e' h2
          · exact e ⟨r', h1, h2⟩

theorem set_eq_setMany (b : BitSet) (s : Sym) (v : Bool) : set b s v = setMany b [s] v := by
  unfold setMany
  rw [List.foldlM_cons]
  cases set b s v <;> rfl

theorem getElem?_reset (src : SymbolSource) (s : Sym) :
    (reset src)[s]? = if s < src.numSyms then some false else none := by
  simp [reset, List.getElem?_replicate]

theorem getElem?_setAll (src : SymbolSource) (s : Sym) :
    (setAll src)[s]? = if s < src.numSyms then some true else none := by
  simp [setAll, List.getElem?_replicate]

theorem length_reset (src : SymbolSource) : (reset src).length = src.numSyms := by simp [reset]
theorem length_setAll (src : SymbolSource) : (setAll src).length = src.numSyms := by
  simp [setAll]

theorem fold_lhs_spec (v : Bool) (rules : List CfgRule) (b : BitSet)
    (h : ∀ r ∈ rules, r.lhs < b.length) :
    ∃ b', rules.foldlM (fun b r => set b r.lhs v) b = .ok b' ∧ b'.length = b.length ∧
      ∀ s, b'[s]? = if ∃ r ∈ rules, r.lhs = s then some v else b[s]? := by
  obtain ⟨b', h1, h2, h3⟩ := setMany_fold v (fun r => [r.lhs]) rules b (by simpa using h)
  refine ⟨b', ?_, h2, ?_⟩
  · simpa only [← set_eq_setMany] using h1
  · intro s
    rw [h3 s]
    simp only [List.mem_singleton, eq_comm]

theorem terminal_spec {g : Cfg} (h : g.WF) :
    ∃ b, terminal g = .ok b ∧ b.length = g.numSyms ∧ ∀ s, Has b s ↔ g.Term s := by
  obtain ⟨b, h1, h2, h3⟩ := fold_lhs_spec false g.rules (setAll g.src) (by
    intro r hr; rw [length_setAll]; exact (h r hr).1)
  refine ⟨b, h1, by rw [h2, length_setAll]; rfl, fun s => ?_⟩
  rw [Has, h3 s, getElem?_setAll]
  unfold Cfg.Term Cfg.numSyms
  by_cases e : ∃ r ∈ g.rules, r.lhs = s
  · rw [if_pos e]
    obtain ⟨r, hr, rfl⟩ := e
    constructor
    · intro h; simp at h
    · rintro ⟨-, h⟩; exact absurd rfl (h r hr)
  · rw [if_neg e]
    push Not at e
    by_cases h : s < g.src.numSyms <;> simp [h]
    exact e

theorem nulling_spec {g : Cfg} (h : g.WF) (b₀ : BitSet) (hb₀ : b₀.length = g.numSyms) :
    ∃ b, nulling b₀ g = .ok b ∧ b.length = g.numSyms ∧
      ∀ s, Has b s ↔ Has b₀ s ∨ g.prod s [] := by
  have e0 : (if b₀.length = 0 then reset g.src else b₀) = b₀ := by
    by_cases e : b₀.length = 0
    · rw [if_pos e]
      have e' : g.src.numSyms = 0 := by rw [hb₀] at e; exact e
      rw [List.length_eq_zero_iff.1 e]
      simp [reset, e']
    · rw [if_neg e]
  obtain ⟨b, h1, h2, h3⟩ := setMany_fold true (fun r => if r.rhs.isEmpty then [r.lhs] else [])
    g.rules b₀ (by
      intro r hr s hs
      by_cases e : r.rhs.isEmpty
      · rw [if_pos e, List.mem_singleton] at hs
        rw [hb₀, hs]; exact (h r hr).1
      · rw [if_neg e] at hs; simp at hs)
  refine ⟨b, ?_, by rw [h2, hb₀], fun s => ?_⟩
  · unfold nulling
    rw [e0, ← h1]
    congr 1
    funext b r
    by_cases e : r.rhs.isEmpty
    · simp only [e, if_true, set_eq_setMany]
    · simp only [e, Bool.false_eq_true, if_false]; rfl
  · rw [Has, h3 s]
    have : (∃ r ∈ g.rules, s ∈ if r.rhs.isEmpty then [r.lhs] else []) ↔ g.prod s [] := by
      constructor
      · rintro ⟨r, hr, hs⟩
        by_cases e : r.rhs.isEmpty
        · rw [if_pos e, List.mem_singleton] at hs
          exact ⟨r, hr, hs.symm, List.isEmpty_iff.1 e⟩
        · rw [if_neg e] at hs; simp at hs
      · rintro ⟨r, hr, rfl, e⟩
        exact ⟨r, hr, by rw [if_pos (List.isEmpty_iff.2 e)]; simp⟩
    by_cases e : ∃ r ∈ g.rules, s ∈ if r.rhs.isEmpty then [r.lhs] else []
    · rw [if_pos e]; simp [this.1 e]
    · rw [if_neg e]
      rw [this] at e
      simp [e, Has]

theorem used_spec {g : Cfg} (h : g.WF) :
    ∃ b, used g = .ok b ∧ b.length = g.numSyms ∧ ∀ s, Has b s ↔ g.Used s := by
  obtain ⟨b, h1, h2, h3⟩ := setMany_fold true (fun r => r.lhs :: r.rhs) g.rules (reset g.src) (by
    intro r hr s hs; rw [length_reset]
    rcases List.mem_cons.1 hs with rfl | hs
    · exact (h r hr).1
    · exact (h r hr).2 s hs)
  refine ⟨b, h1, by rw [h2, length_reset]; rfl, fun s => ?_⟩
  rw [Has, h3 s, getElem?_reset]
  unfold Cfg.Used
  simp only [List.mem_cons, eq_comm (a := s)]
  by_cases e : ∃ r ∈ g.rules, r.lhs = s ∨ s ∈ r.rhs
  · simp [e]
  · rw [if_neg e]
    split <;> simp_all

theorem unused_spec {g : Cfg} (h : g.WF) :
    ∃ b, unused g = .ok b ∧ b.length = g.numSyms ∧
      ∀ s, Has b s ↔ s < g.numSyms ∧ ¬ g.Used s := by
  obtain ⟨b, h1, h2, h3⟩ := setMany_fold false (fun r => r.lhs :: r.rhs) g.rules (setAll g.src) (by
    intro r hr s hs; rw [length_setAll]
    rcases List.mem_cons.1 hs with rfl | hs
    · exact (h r hr).1
    · exact (h r hr).2 s hs)
  refine ⟨b, h1, by rw [h2, length_setAll]; rfl, fun s => ?_⟩
  rw [Has, h3 s, getElem?_setAll]
  unfold Cfg.Used Cfg.numSyms
  simp only [List.mem_cons, eq_comm (a := s)]
  by_cases e : ∃ r ∈ g.rules, r.lhs = s ∨ s ∈ r.rhs
  · simp [e]
  · rw [if_neg e]
    by_cases h : s < g.src.numSyms <;> simp [h]
    simpa using e

theorem subtractProductive_spec {b₀ : BitSet} {g : Cfg}
    (h : ∀ r ∈ g.rules, r.lhs < b₀.length) (hb : b₀.length = 0 → g.numSyms = 0) :
    ∃ b, subtractProductive b₀ g = .ok b ∧ b.length = b₀.length ∧
      ∀ s, Has b s ↔ Has b₀ s ∧ ∀ r ∈ g.rules, r.lhs ≠ s := by
  have e0 : (if b₀.length = 0 then setAll g.src else b₀) = b₀ := by
    by_cases e : b₀.length = 0
    · rw [if_pos e]
      have := hb e
      unfold Cfg.numSyms at this
      simp [setAll, this]
      rw [List.length_eq_zero_iff.1 e]
    · rw [if_neg e]
  obtain ⟨b, h1, h2, h3⟩ := fold_lhs_spec false g.rules b₀ h
  refine ⟨b, by unfold subtractProductive; rw [e0]; exact h1, h2, fun s => ?_⟩
  rw [Has, h3 s]
  by_cases e : ∃ r ∈ g.rules, r.lhs = s
  · rw [if_pos e]
    obtain ⟨r, hr, rfl⟩ := e
    constructor
    · intro h; simp at h
    · rintro ⟨-, h⟩; exact absurd rfl (h r hr)
  · rw [if_neg e]
    push Not at e
    simp [Has]
    intro _; exact e

theorem mem_iter {b : BitSet} {s : Sym} : s ∈ iter b ↔ Has b s := by
  unfold iter Has
  simp only [List.mem_filterMap, Prod.exists]
  constructor
  · rintro ⟨x, i, h, e⟩
    rw [List.mk_mem_zipIdx_iff_getElem?] at h
    cases x <;> simp at e
    subst e; exact h
  · intro h
    exact ⟨true, s, by rw [List.mk_mem_zipIdx_iff_getElem?]; exact h, by simp⟩

theorem iter_aux (b : BitSet) (k : Nat) :
    ((b.zipIdx k).filterMap fun (p : Bool × Nat) => if p.1 then some p.2 else none).Pairwise
      (· < ·) ∧ ∀ s ∈ ((b.zipIdx k).filterMap fun (p : Bool × Nat) =>
        if p.1 then some p.2 else none), k ≤ s := by
  induction b generalizing k with
  | nil => simp
  | cons x b ih =>
    obtain ⟨h1, h2⟩ := ih (k + 1)
    rw [List.zipIdx_cons]
    cases x
    · simp only [List.filterMap_cons, Bool.false_eq_true, if_false]
      exact ⟨h1, fun s hs => by have := h2 s hs; omega⟩
    · simp only [List.filterMap_cons, if_true]
      refine ⟨List.pairwise_cons.2 ⟨fun s hs => ?_, h1⟩, fun s hs => ?_⟩
      · have := h2 s hs; omega
      · rcases List.mem_cons.1 hs with rfl | hs
        · exact Nat.le_refl _
        · have := h2 s hs; omega

theorem iter_sorted (b : BitSet) : (iter b).Pairwise (· < ·) := (iter_aux b 0).1

theorem has_lt {b : BitSet} {s : Sym} (h : Has b s) : s < b.length := by
  unfold Has at h
  by_contra hh
  rw [List.getElem?_eq_none (by omega)] at h
  simp at h

theorem has_negate {b : BitSet} {s : Sym} : Has (negate b) s ↔ s < b.length ∧ ¬ Has b s := by
  unfold negate Has
  rw [List.getElem?_map]
  by_cases h : s < b.length
  · rw [List.getElem?_eq_getElem h]
    cases e : b[s] <;> simp [h]
  · rw [List.getElem?_eq_none (by omega)]; simp [h]

theorem union_spec {a b : BitSet} (h : a.length = b.length) :
    ∃ c, union a b = .ok c ∧ c.length = a.length ∧ ∀ s, Has c s ↔ Has a s ∨ Has b s := by
  refine ⟨List.zipWith (· || ·) a b, by simp [union, h], by simp [h], fun s => ?_⟩
  unfold Has
  rw [List.getElem?_zipWith]
  by_cases hs : s < a.length
  · rw [List.getElem?_eq_getElem hs, List.getElem?_eq_getElem (h ▸ hs)]
    simp
  · rw [List.getElem?_eq_none (by omega), List.getElem?_eq_none (by omega)]; simp

end BitSet

end Verif
