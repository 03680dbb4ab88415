import Verif.Proofs.Trees
import Verif.Proofs.Binarize

/-!
# Parse trees of grammars with split rules
-/

namespace Verif.Cfg

theorem Chain.fold {n : Nat} {lhs : Sym} {f : Nat} {rhs : List Sym} {rs : List CfgRule}
    (h : Chain n lhs f rhs rs) (h₀ : Sym → List Sym) (hr : ∀ x ∈ rhs, x < f) :
    ∃ k : Sym → List Sym, (∀ x, x < f → k x = h₀ x) ∧
      ∀ (i : Nat) r, rs[i]? = some r →
        (i + 1 = rs.length ∧ r.lhs = lhs ∧ r.rhs.flatMap k = rhs.flatMap h₀ ∧
          ∀ x ∈ r.rhs, x < f + i) ∨
        (i + 1 < rs.length ∧ r.lhs = f + i ∧ k r.lhs = r.rhs.flatMap k ∧ ∀ x ∈ r.rhs, x < r.lhs) := by
  induction h generalizing h₀ with
  | @last f rhs r _ e1 e2 =>
    refine ⟨h₀, fun _ _ => rfl, fun i r' hi => .inl ?_⟩
    match i with
    | 0 =>
      cases hi
      exact ⟨rfl, e1, by rw [e2], by rw [e2]; exact hr⟩
    | i + 1 => cases hi
  | @more f rhs r rs hlt e1 e2 hc ih =>
    obtain ⟨k, hk1, hk2⟩ := ih (fun x => if x = f then (rhs.take n).flatMap h₀ else h₀ x) (by
      intro x hx
      rcases List.mem_cons.1 hx with rfl | hx
      · omega
      · have := hr x (List.mem_of_mem_drop hx); omega)
    have hlen := hc.ne_nil
    have hb : ∀ x, x < f → k x = h₀ x := fun x hx => by
      rw [hk1 x (by omega), if_neg (by omega)]
    refine ⟨k, hb, fun i r' hi => ?_⟩
    match i with
    | 0 =>
      cases hi
      refine .inr ⟨by simp only [List.length_cons]; omega, e1, ?_, ?_⟩
      · rw [e1, hk1 f (by omega), if_pos rfl, e2]
        exact (flatMap_congr_mem fun x hx => hb x (hr x (List.mem_of_mem_take hx))).symm
      · rw [e1, e2]
        exact fun x hx => hr x (List.mem_of_mem_take hx)
    | i + 1 =>
      rw [List.getElem?_cons_succ] at hi
      rcases hk2 i r' hi with ⟨h1, h2, h3, h4⟩ | ⟨h1, h2, h3, h4⟩
      · refine .inl ⟨by simp [h1], h2, ?_, fun x hx => by have := h4 x hx; omega⟩
        rw [h3, List.flatMap_cons, if_pos rfl]
        have e : (rhs.drop n).flatMap (fun x => if x = f then (rhs.take n).flatMap h₀ else h₀ x)
            = (rhs.drop n).flatMap h₀ := flatMap_congr_mem fun x hx => by
          rw [if_neg]
          have := hr x (List.mem_of_mem_drop hx)
          omega
        rw [e, ← List.flatMap_append, List.take_append_drop]
      · exact .inr ⟨by simp [h1], by omega, h3, h4⟩

/-- Left and right side of a rule. -/
def _root_.Verif.CfgRule.pair (r : CfgRule) : Sym × List Sym := (r.lhs, r.rhs)

/-- The rules `new` are those in `old`, with some of them split. -/
def Folded (O : Sym → Prop) (M : Nat) (old : List (Sym × List Sym)) (new : List CfgRule) : Prop :=
  ∃ k orig, Fold O M old (new.map CfgRule.pair) k orig

theorem Folded.nil (N : Nat) : Folded (· < N) N [] [] :=
  ⟨fun x => [x], fun _ => none, fun _ h => h, fun _ _ => rfl, by simp, by simp, by simp, by simp,
    by simp, by simp, by simp, fun x h1 h2 => absurd h2 h1⟩

theorem Folded.congr {O O' : Sym → Prop} {M : Nat} {old : List (Sym × List Sym)} {new : List CfgRule}
    (h : Folded O M old new) (e : ∀ x, O x ↔ O' x) : Folded O' M old new := by
  have : O = O' := by funext x; exact propext (e x)
  exact this ▸ h

/-- All rules as they are. -/
theorem Folded.refl (g : Cfg) (hwf : g.WF) : Folded (· < g.numSyms) g.numSyms g.pairs g.rules := by
  have key : ∀ (i : Nat) A α, (g.rules.map CfgRule.pair)[i]? = some (A, α) →
      A < g.numSyms ∧ ∀ x ∈ α, x < g.numSyms := by
    intro i A α h
    obtain ⟨r, hr, e⟩ := List.mem_map.1 (List.mem_of_getElem? h)
    cases e
    exact hwf r hr
  refine ⟨fun x => [x], some, fun _ h => h, fun _ _ => rfl, fun i A α h => (key i A α h).1,
    fun i A α h => (key i A α h).2, fun i j A α h e => ?_, fun i i' j _ _ e e' => ?_,
    fun j hj => ⟨j, by simpa [pairs] using hj, rfl⟩, fun i A α _ e => (nomatch e),
    fun i i' A α β _ _ e => (nomatch e), fun x h1 h2 => absurd h2 h1⟩
  · cases e
    exact ⟨(key i A α h).1, by simpa [pairs, CfgRule.pair] using h⟩
  · cases e; cases e'; rfl

/-- A new symbol. -/
theorem Folded.fresh {O : Sym → Prop} {M : Nat} {old : List (Sym × List Sym)} {new : List CfgRule}
    (h : Folded O M old new) : Folded (fun y => O y ∨ y = M) (M + 1) old new := by
  obtain ⟨k, orig, h⟩ := h
  have hkl : ∀ l : List Sym, (∀ x ∈ l, x < M) →
      l.flatMap (fun x => if x = M then [M] else k x) = l.flatMap k := fun l hl =>
    flatMap_congr_mem fun x hx => if_neg (by have := hl x hx; omega)
  refine ⟨fun x => if x = M then [M] else k x, orig, ?_, ?_, ?_, ?_, ?_, h.topUnique, h.topExists,
    ?_, h.pieceUnique, ?_⟩
  · rintro x (hx | rfl)
    · have := h.le x hx; omega
    · omega
  · rintro x (hx | rfl)
    · have := h.le x hx
      simp only [if_neg (show x ≠ M by omega)]
      exact h.same x hx
    · simp
  · intro i A α hi
    have := h.lhs i A α hi; omega
  · intro i A α hi x hx
    have := h.bound i A α hi x hx; omega
  · intro i j A α hi ho
    obtain ⟨h1, h2⟩ := h.top i j A α hi ho
    exact ⟨.inl h1, by rw [hkl α (h.bound i A α hi)]; exact h2⟩
  · intro i A α hi ho
    obtain ⟨h1, h2, h3⟩ := h.piece i A α hi ho
    have := h.lhs i A α hi
    refine ⟨fun hA => hA.elim h1 (by omega), ?_, h3⟩
    rw [hkl α (h.bound i A α hi), if_neg (by omega), h2]
  · intro x hx hx'
    exact h.pieceExists x (fun h' => hx (.inl h')) (by
      rcases Nat.lt_or_ge x M with h' | h'
      · exact h'
      · exact absurd (.inr (by omega)) hx)

theorem Folded.append {O : Sym → Prop} {M : Nat} {old : List (Sym × List Sym)} {new : List CfgRule}
    (h : Folded O M old new) {n : Nat} {rule : CfgRule} (hl : O rule.lhs)
    (hr : ∀ x ∈ rule.rhs, O x) {rs : List CfgRule} (hc : Chain n rule.lhs M rule.rhs rs) :
    Folded O (M + (rs.length - 1)) (old ++ [rule.pair]) (new ++ rs) := by
  obtain ⟨k, orig, h⟩ := h
  obtain ⟨k', hk, hi⟩ := hc.fold k (fun x hx => h.le x (hr x hx))
  have hne := hc.ne_nil
  have hkl : ∀ l : List Sym, (∀ x ∈ l, x < M) → l.flatMap k' = l.flatMap k := fun l hl =>
    flatMap_congr_mem fun x hx => hk x (hl x hx)
  have hkr : rule.rhs.flatMap k = rule.rhs := by
    rw [flatMap_congr_mem (h' := fun x => [x]) fun x hx => h.same x (hr x hx)]
    simp
  have hlhs := h.le _ hl
  have hlen : (new.map CfgRule.pair).length = new.length := by simp
  have hlen' : ((new ++ rs).map CfgRule.pair).length = new.length + rs.length := by simp
  -- the rules of the new list
  have cases₁ : ∀ (i : Nat) A α, ((new ++ rs).map CfgRule.pair)[i]? = some (A, α) →
      (i < new.length ∧ (new.map CfgRule.pair)[i]? = some (A, α)) ∨
      (new.length ≤ i ∧ i - new.length < rs.length ∧
        ((i + 1 = new.length + rs.length ∧ A = rule.lhs ∧ α.flatMap k' = rule.rhs ∧
          ∀ x ∈ α, x < M + (i - new.length)) ∨
        (i + 1 < new.length + rs.length ∧ A = M + (i - new.length) ∧ k' A = α.flatMap k' ∧
          ∀ x ∈ α, x < A))) := by
    intro i A α hir
    rw [List.map_append] at hir
    rcases Nat.lt_or_ge i new.length with hlt | hge
    · rw [List.getElem?_append_left (by simpa using hlt)] at hir
      exact .inl ⟨hlt, hir⟩
    · rw [List.getElem?_append_right (by simpa using hge), hlen, List.getElem?_map,
        Option.map_eq_some_iff] at hir
      obtain ⟨r, hr, e⟩ := hir
      cases e
      have hlt := (List.getElem?_eq_some_iff.1 hr).1
      refine .inr ⟨hge, hlt, ?_⟩
      rcases hi _ r hr with ⟨h1, h2, h3, h4⟩ | ⟨h1, h2⟩
      · exact .inl ⟨by omega, h2, by rw [h3, hkr], h4⟩
      · exact .inr ⟨by omega, h2⟩
  have orig_old : ∀ (i j : Nat), i < new.length → orig i = some j → j < old.length := by
    intro i j h1 h2
    have h1 : i < (new.map CfgRule.pair).length := by simpa using h1
    exact (List.getElem?_eq_some_iff.1 (h.top i j _ _ (List.getElem?_eq_getElem h1) h2).2).1
  have left : ∀ (i : Nat), i < new.length →
      ((new ++ rs).map CfgRule.pair)[i]? = (new.map CfgRule.pair)[i]? := by
    intro i hi
    rw [List.map_append, List.getElem?_append_left (by simpa using hi)]
  refine ⟨k', fun i => if i < new.length then orig i else
    if i + 1 = new.length + rs.length then some old.length else none,
    fun x hx => by have := h.le x hx; omega,
    fun x hx => by rw [hk x (h.le x hx), h.same x hx], ?_, ?_, ?_, ?_, ?_, ?_, ?_, ?_⟩
  · intro i A α hir
    rcases cases₁ i A α hir with ⟨_, h1⟩ | ⟨_, _, ⟨_, rfl, _⟩ | ⟨_, rfl, _⟩⟩
    · have := h.lhs i A α h1; omega
    · omega
    · omega
  · intro i A α hir x hx
    rcases cases₁ i A α hir with ⟨_, h1⟩ | ⟨_, _, ⟨_, rfl, _, h4⟩ | ⟨_, rfl, _, h4⟩⟩
    · have := h.bound i A α h1 x hx; omega
    · have := h4 x hx; omega
    · have := h4 x hx; omega
  · intro i j A α hir ho
    rcases cases₁ i A α hir with ⟨h0, h1⟩ | ⟨h0, h1, h2⟩
    · simp only [if_pos h0] at ho
      obtain ⟨h3, h4⟩ := h.top i j A α h1 ho
      refine ⟨h3, ?_⟩
      rw [List.getElem?_append_left (orig_old i j h0 ho), hkl _ (h.bound i A α h1), h4]
    · simp only [if_neg (Nat.not_lt.2 h0)] at ho
      split at ho
      · cases ho
        rcases h2 with ⟨_, rfl, h4, _⟩ | ⟨h3, _⟩
        · exact ⟨hl, by rw [h4]; simp [CfgRule.pair]⟩
        · omega
      · cases ho
  · intro i i' j hir hir' ho ho'
    rw [hlen'] at hir hir'
    rcases Nat.lt_or_ge i new.length with h0 | h0 <;>
      rcases Nat.lt_or_ge i' new.length with h0' | h0'
    · simp only [if_pos h0] at ho
      simp only [if_pos h0'] at ho'
      exact h.topUnique i i' j (by omega) (by omega) ho ho'
    · simp only [if_pos h0] at ho
      simp only [if_neg (Nat.not_lt.2 h0')] at ho'
      split at ho'
      · cases ho'
        have := orig_old i _ h0 ho; omega
      · cases ho'
    · simp only [if_pos h0'] at ho'
      simp only [if_neg (Nat.not_lt.2 h0)] at ho
      split at ho
      · cases ho
        have := orig_old i' _ h0' ho'; omega
      · cases ho
    · simp only [if_neg (Nat.not_lt.2 h0)] at ho
      simp only [if_neg (Nat.not_lt.2 h0')] at ho'
      split at ho
      · split at ho'
        · omega
        · cases ho'
      · cases ho
  · intro j hj
    rw [hlen']
    rcases Nat.lt_or_ge j old.length with hlt | hge
    · obtain ⟨i, h1, h2⟩ := h.topExists j hlt
      rw [hlen] at h1
      exact ⟨i, by omega, by simp only [if_pos h1, h2]⟩
    · simp only [List.length_append, List.length_cons, List.length_nil] at hj
      refine ⟨new.length + (rs.length - 1), by omega, ?_⟩
      simp only [if_neg (show ¬ new.length + (rs.length - 1) < new.length by omega)]
      rw [if_pos (by omega)]
      congr 1; omega
  · intro i A α hir ho
    rcases cases₁ i A α hir with ⟨h0, h1⟩ | ⟨h0, h1, h2⟩
    · simp only [if_pos h0] at ho
      obtain ⟨h3, h4, h5⟩ := h.piece i A α h1 ho
      exact ⟨h3, by rw [hk _ (h.lhs i A α h1), h4, hkl _ (h.bound i A α h1)], h5⟩
    · simp only [if_neg (Nat.not_lt.2 h0)] at ho
      split at ho
      · cases ho
      · rcases h2 with ⟨h3, _⟩ | ⟨_, rfl, h4, h5⟩
        · omega
        · exact ⟨fun hA => by have := h.le _ hA; omega, h4, h5⟩
  · intro i i' A α β hir hir' ho
    rcases cases₁ i A α hir with ⟨h0, h1⟩ | ⟨h0, h1, h2⟩ <;>
      rcases cases₁ i' A β hir' with ⟨h0', h1'⟩ | ⟨h0', h1', h2'⟩
    · simp only [if_pos h0] at ho
      exact h.pieceUnique i i' A α β h1 h1' ho
    · simp only [if_pos h0] at ho
      have := h.lhs i A α h1
      obtain ⟨h3, -⟩ := h.piece i A α h1 ho
      rcases h2' with ⟨_, rfl, _⟩ | ⟨_, rfl, _⟩
      · exact absurd hl h3
      · omega
    · have := h.lhs i' A β h1'
      simp only [if_neg (Nat.not_lt.2 h0)] at ho
      split at ho
      · cases ho
      · rcases h2 with ⟨h3, _⟩ | ⟨_, rfl, _⟩ <;> omega
    · simp only [if_neg (Nat.not_lt.2 h0)] at ho
      split at ho
      · cases ho
      · rcases h2 with ⟨h3, _⟩ | ⟨_, h4, _⟩
        · omega
        · rcases h2' with ⟨_, h4', _⟩ | ⟨_, h4', _⟩ <;> omega
  · intro x hx hx'
    rcases Nat.lt_or_ge x M with hlt | hge
    · obtain ⟨i, α, h1, h2⟩ := h.pieceExists x hx hlt
      have := (List.getElem?_eq_some_iff.1 h1).1
      rw [hlen] at this
      exact ⟨i, α, by rw [left i this, h1], by simp only [if_pos this, h2]⟩
    · have hlt : x - M < rs.length := by omega
      refine ⟨new.length + (x - M), rs[x - M].rhs, ?_, ?_⟩
      · rw [List.map_append, List.getElem?_append_right (by rw [hlen]; omega), hlen,
          Nat.add_sub_cancel_left, List.getElem?_map, List.getElem?_eq_getElem hlt]
        rcases hi (x - M) rs[x - M] (List.getElem?_eq_getElem hlt) with ⟨h3, _⟩ | ⟨_, h3, _⟩
        · omega
        · simp only [Option.map_some, CfgRule.pair, h3]
          congr 2; omega
      · simp only [if_neg (show ¬ new.length + (x - M) < new.length by omega)]
        rw [if_neg (by omega)]

theorem Folded.addRule {O : Sym → Prop} {old : List (Sym × List Sym)} {g : Cfg}
    (h : Folded O g.numSyms old g.rules) (hlim : g.LimitOk) (rule : CfgRule) (hl : O rule.lhs)
    (hr : ∀ x ∈ rule.rhs, O x) :
    ∃ g' k, g.addRule rule = .ok (g', k) ∧ Folded O g'.numSyms (old ++ [rule.pair]) g'.rules ∧
      g'.rhsLenInvariant = g.rhsLenInvariant := by
  cases e : g.rhsLenInvariant with
  | none =>
    refine ⟨_, _, addRule_none g rule e, ?_, e⟩
    exact h.append (n := rule.rhs.length) hl hr (rs := [rule]) (.last (Nat.le_refl _) rfl rfl)
  | some n =>
    obtain ⟨rs, h1, h2, -⟩ := addRule_spec g rule n (hlim n e) e
    exact ⟨_, _, h1, h.append hl hr h2, e⟩

theorem Folded.addRules {O : Sym → Prop} (rules : List CfgRule) {old : List (Sym × List Sym)}
    {g : Cfg} (h : Folded O g.numSyms old g.rules) (hlim : g.LimitOk)
    (hr : ∀ r ∈ rules, O r.lhs ∧ ∀ x ∈ r.rhs, O x) :
    ∃ g', g.addRules rules = .ok g' ∧
      Folded O g'.numSyms (old ++ rules.map CfgRule.pair) g'.rules := by
  induction rules generalizing old g with
  | nil => exact ⟨g, rfl, by simpa using h⟩
  | cons r rules ih =>
    obtain ⟨g₁, k, h1, h2, h3⟩ := h.addRule hlim r (hr r (by simp)).1 (hr r (by simp)).2
    obtain ⟨g', h4, h5⟩ := ih h2 (by unfold LimitOk; rw [h3]; exact hlim)
      (fun r' hr' => hr r' (by simp [hr']))
    refine ⟨g', ?_, by simpa using h5⟩
    unfold Cfg.addRules at h4 ⊢
    rw [List.foldlM_cons, h1]
    exact h4

theorem Folded.folding {O : Sym → Prop} {old : List (Sym × List Sym)} {g' : Cfg}
    (h : Folded O g'.numSyms old g'.rules) : ∃ k orig, Folding O g'.numSyms
      (fun a => O a ∧ ∀ r ∈ old, r.1 ≠ a) g'.Term old g'.pairs k orig := by
  obtain ⟨k, orig, h⟩ := h
  refine ⟨k, orig, h, fun x hx => ?_, fun x hx hT => ?_⟩
  · unfold Term
    constructor
    · rintro ⟨-, h2⟩
      refine ⟨h.le x hx, fun r' hr' e => ?_⟩
      obtain ⟨i, hi⟩ := List.mem_iff_getElem?.1 (List.mem_map_of_mem (f := CfgRule.pair) hr')
      cases ho : orig i with
      | none => exact (h.piece i _ _ hi ho).1 (e ▸ hx)
      | some j =>
        obtain ⟨-, h3⟩ := h.top i j _ _ hi ho
        exact h2 _ (List.mem_of_getElem? h3) e
    · rintro ⟨-, h2⟩
      refine ⟨hx, fun r hr e => ?_⟩
      obtain ⟨j, hj, rfl⟩ := List.mem_iff_getElem.1 hr
      obtain ⟨i, h3, h4⟩ := h.topExists j hj
      obtain ⟨-, h5⟩ := h.top i j _ _ (List.getElem?_eq_getElem h3) h4
      have h6 := (List.getElem?_eq_some_iff.1 h5).2
      rw [h6] at e
      simp only [List.length_map] at h3
      rw [List.get_eq_getElem, List.getElem_map] at e
      exact h2 _ (List.getElem_mem h3) e
  · obtain ⟨i, α, h1, -⟩ := h.pieceExists x hx hT.1
    obtain ⟨r, hr, e⟩ := List.mem_map.1 (List.mem_of_getElem? h1)
    exact hT.2 r hr (congrArg Prod.fst e)

/-- Splitting keeps the forests. -/
theorem Folded.forests {O : Sym → Prop} {old : List (Sym × List Sym)} {g' : Cfg}
    (h : Folded O g'.numSyms old g'.rules) {α : List Sym} (hα : ∀ x ∈ α, O x) (w : List Sym) :
    SameNumber {f : Forest // IsForest g'.pairs g'.Term α f w}
      {f : Forest // IsForest old (fun a => O a ∧ ∀ r ∈ old, r.1 ≠ a) α f w} := by
  obtain ⟨k, orig, h⟩ := h.folding
  exact h.equiv hα w

/-- Splitting keeps the parse trees. -/
theorem Folded.trees {g g' : Cfg} (h : Folded (· < g.numSyms) g'.numSyms g.pairs g'.rules) (A : Sym)
    (hA : A < g.numSyms) (w : List Sym) : SameNumber (g'.Trees A w) (g.Trees A w) := by
  have := h.forests (α := [A]) (by simpa using hA) w
  have e : g.Term = fun a => a < g.numSyms ∧ ∀ r ∈ g.pairs, r.1 ≠ a := by
    funext a
    simp [Term, pairs]
  rw [Trees, Trees, e]
  exact this

end Verif.Cfg
