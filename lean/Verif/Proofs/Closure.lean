import Verif.Model.Closure
import Verif.Spec.Closure
import Verif.Proofs.BitSet
import Mathlib.Data.List.Basic

/-! # Helper lemmas on property propagation -/

namespace Verif

/-! ## The occurrence map -/

theorem mem_dedupSyms {l : List Sym} {a : Sym} : a ∈ dedupSyms l ↔ a ∈ l := by
  fun_induction dedupSyms l with
  | case1 => simp
  | case2 => simp
  | case3 b l ih => rw [ih]; simp
  | case4 b c l h ih => rw [List.mem_cons, ih]; simp

theorem mem_sortDedup {l : List Sym} {a : Sym} : a ∈ sortDedup l ↔ a ∈ l := by
  rw [sortDedup, mem_dedupSyms, List.mem_insertionSort]

theorem mem_foldl_pushRhs {i j : Nat} {s : Sym} (syms : List Sym) (m : OccurenceMap) :
    j ∈ (syms.foldl (fun m sym => OccurenceMap.pushRhs m i sym) m s).rhs ↔
      j ∈ (m s).rhs ∨ (j = i ∧ s ∈ syms) := by
  induction syms generalizing m with
  | nil => simp
  | cons a syms ih =>
    rw [List.foldl_cons, ih]
    unfold OccurenceMap.pushRhs
    by_cases e : s = a
    · subst e; simp; tauto
    · simp [e]

theorem mem_occ_aux {j : Nat} {s : Sym} (rules : List CfgRule) (k : Nat) (m : OccurenceMap) :
    j ∈ (((rules.zipIdx k).foldl (fun m (rule, i) =>
      let m : OccurenceMap := fun s =>
        if s = rule.lhs then { m s with lhs := (m s).lhs ++ [i] } else m s
      (sortDedup rule.rhs).foldl (fun m sym => OccurenceMap.pushRhs m i sym) m) m) s).rhs ↔
    j ∈ (m s).rhs ∨ ∃ r, k ≤ j ∧ rules[j - k]? = some r ∧ s ∈ r.rhs := by
  induction rules generalizing k m with
  | nil => simp
  | cons r rules ih =>
    rw [List.zipIdx_cons, List.foldl_cons, ih, mem_foldl_pushRhs]
    have e1 : ∀ (m : OccurenceMap),
        (if s = r.lhs then { m s with lhs := (m s).lhs ++ [k] } else m s : Occurences).rhs
          = (m s).rhs := by
      intro m; split <;> rfl
    rw [e1, mem_sortDedup]
    constructor
    · rintro ((h | ⟨rfl, h⟩) | ⟨r', h1, h2, h3⟩)
      · exact .inl h
      · exact .inr ⟨r, by omega, by simp, h⟩
      · refine .inr ⟨r', by omega, ?_, h3⟩
        rw [show j - k = j - (k + 1) + 1 by omega, List.getElem?_cons_succ]; exact h2
    · rintro (h | ⟨r', h1, h2, h3⟩)
      · exact .inl (.inl h)
      · by_cases e : j = k
        · subst e
          simp at h2; subst h2
          exact .inl (.inr ⟨rfl, h3⟩)
        · refine .inr ⟨r', by omega, ?_, h3⟩
          rw [show j - k = j - (k + 1) + 1 by omega, List.getElem?_cons_succ] at h2; exact h2

/-- The occurrence map lists exactly the rules with the symbol on the right. -/
theorem mem_occ {rules : List CfgRule} {i : Nat} {s : Sym} :
    i ∈ (OccurenceMap.fromRules rules s).rhs ↔ ∃ r, rules[i]? = some r ∧ s ∈ r.rhs := by
  unfold OccurenceMap.fromRules
  rw [mem_occ_aux]
  simp

/-! ## The worklist -/

/-- The condition tested by `rhs_closure`. -/
def Sat (mode : RhsPropertyMode) (b : BitSet) (rhs : List Sym) : Prop :=
  match mode with
  | .all => ∀ s ∈ rhs, Has b s
  | .any => ∃ s ∈ rhs, Has b s

theorem get_has {b : BitSet} {s : Sym} (h : s < b.length) :
    BitSet.get b s = .ok (decide (Has b s)) := by
  rw [BitSet.get, Res.index_ok]
  by_cases e : Has b s
  · simp only [e, decide_true]; exact e
  · simp only [e, decide_false]
    unfold Has at e
    rw [List.getElem?_eq_getElem h] at e ⊢
    simpa using e

theorem rhsSatisfies_spec (mode : RhsPropertyMode) (b : BitSet) (rhs : List Sym)
    (h : ∀ s ∈ rhs, s < b.length) :
    ∃ v, rhsSatisfies mode b rhs = .ok v ∧ (v = true ↔ Sat mode b rhs) := by
  induction rhs with
  | nil => exact ⟨decide (mode = .all), rfl, by cases mode <;> simp [Sat]⟩
  | cons a rhs ih =>
    obtain ⟨v, hv, hs⟩ := ih fun s hs => h s (by simp [hs])
    unfold rhsSatisfies
    rw [get_has (h a (by simp))]
    by_cases e : Has b a
    · cases mode
      · refine ⟨v, by simp [e, hv], ?_⟩
        rw [hs]; simp [Sat, e]
      · exact ⟨true, by simp [e], by simp [Sat, e]⟩
    · cases mode
      · exact ⟨false, by simp [e], by simp [Sat, e]⟩
      · refine ⟨v, by simp [e, hv], ?_⟩
        rw [hs]; simp [Sat, e]

theorem has_set_true {b : BitSet} {s t : Sym} (h : t < b.length) :
    Has (List.set b t true) s ↔ s = t ∨ Has b s := by
  unfold Has
  by_cases e : t = s
  · subst e; simp [h]
  · have : ¬ s = t := fun h => e h.symm
    simp [e, this]

theorem sat_set {mode : RhsPropertyMode} {b : BitSet} {t : Sym} {rhs : List Sym}
    (h : t < b.length) (hs : Sat mode (List.set b t true) rhs) :
    Sat mode b rhs ∨ t ∈ rhs := by
  by_cases e : t ∈ rhs
  · exact .inr e
  · left
    cases mode
    · intro s hm
      rcases (has_set_true h).1 (hs s hm) with rfl | h
      · exact absurd hm e
      · exact h
    · obtain ⟨s, hm, hs⟩ := hs
      rcases (has_set_true h).1 hs with rfl | h
      · exact absurd hm e
      · exact ⟨s, hm, h⟩

/-- Invariant of the inner loop: rules that are satisfied but not applied contain a symbol of
the stack, or are still to be visited. -/
structure CInv (mode : RhsPropertyMode) (rules : List CfgRule) (n : Nat) (S : Sym → Prop)
    (init : Sym → Prop) (todo : Nat → Prop) (b : BitSet) (stack : List Sym) : Prop where
  len : b.length = n
  ext : ∀ s, init s → Has b s
  sound : ∀ s, Has b s → S s
  work : ∀ (i : Nat) r, rules[i]? = some r → r.rhs ≠ [] → Sat mode b r.rhs → Has b r.lhs ∨
    (∃ s ∈ r.rhs, s ∈ stack) ∨ todo i
  stack : ∀ s ∈ stack, Has b s

/-- Closedness of a set under the rules, in the given mode. -/
def Closed (mode : RhsPropertyMode) (rules : List CfgRule) (S : Sym → Prop) : Prop :=
  match mode with
  | .all => ∀ r ∈ rules, r.rhs ≠ [] → (∀ s ∈ r.rhs, S s) → S r.lhs
  | .any => ∀ r ∈ rules, (∃ s ∈ r.rhs, S s) → S r.lhs

theorem closureBody_fold {mode : RhsPropertyMode} {rules : List CfgRule} {n : Nat}
    {S : Sym → Prop} {init : Sym → Prop}
    (hwf : ∀ r ∈ rules, r.lhs < n ∧ ∀ s ∈ r.rhs, s < n)
    (hS : Closed mode rules S) (ids : List Nat)
    (hids : ∀ i ∈ ids, ∃ r, rules[i]? = some r ∧ r.rhs ≠ []) (b : BitSet)
    (stack : List Sym) (hinv : CInv mode rules n S init (· ∈ ids) b stack) :
    ∃ b' stack', ids.foldlM (closureBody mode rules) (b, stack) = .ok (b', stack') ∧
      CInv mode rules n S init (fun _ => False) b' stack' ∧
      b'.count false + stack'.length = b.count false + stack.length := by
  induction ids generalizing b stack with
  | nil =>
    refine ⟨b, stack, rfl, ?_, rfl⟩
    exact ⟨hinv.len, hinv.ext, hinv.sound, fun i r h1 h2 h3 => by
      rcases hinv.work i r h1 h2 h3 with h | h | h
      · exact .inl h
      · exact .inr (.inl h)
      · simp at h, hinv.stack⟩
  | cons i ids ih =>
    obtain ⟨r, hr, hne⟩ := hids i (by simp)
    have hmem : r ∈ rules := List.mem_of_getElem? hr
    obtain ⟨hl, hrhs⟩ := hwf r hmem
    obtain ⟨v, hv, hsat⟩ := rhsSatisfies_spec mode b r.rhs (by rw [hinv.len]; exact hrhs)
    have hidx : Res.index rules i = .ok r := Res.index_ok.2 hr
    rw [List.foldlM_cons]
    by_cases hlhs : Has b r.lhs
    · -- nothing happens
      have e : closureBody mode rules (b, stack) i = .ok (b, stack) := by
        simp [closureBody, hidx, hv, get_has (hinv.len ▸ hl), hlhs]
      rw [e]
      refine ih (fun j hj => hids j (by simp [hj])) b stack ⟨hinv.len, hinv.ext, hinv.sound,
        fun j r' h1 h2 h3 => ?_, hinv.stack⟩
      rcases hinv.work j r' h1 h2 h3 with h | h | h
      · exact .inl h
      · exact .inr (.inl h)
      · rcases List.mem_cons.1 h with rfl | h
        · rw [hr] at h1; cases h1; exact .inl hlhs
        · exact .inr (.inr h)
    · by_cases hvs : v = true
      · have hb := hinv.len ▸ hl
        have e : closureBody mode rules (b, stack) i
            = .ok (List.set b r.lhs true, r.lhs :: stack) := by
          simp [closureBody, hidx, hv, get_has hb, hlhs, hvs, BitSet.set_ok hb]
        rw [e]
        have hsat' := hsat.1 hvs
        have hSl : S r.lhs := by
          cases mode
          · exact hS r hmem hne fun s hs => hinv.sound s (hsat' s hs)
          · obtain ⟨s, h1, h2⟩ := hsat'
            exact hS r hmem ⟨s, h1, hinv.sound s h2⟩
        obtain ⟨b', stack', h1, h2, h3⟩ := ih (fun j hj => hids j (by simp [hj]))
          (List.set b r.lhs true) (r.lhs :: stack) ⟨by rw [List.length_set]; exact hinv.len,
            fun s hs => (has_set_true hb).2 (.inr (hinv.ext s hs)),
            fun s hs => by
              rcases (has_set_true hb).1 hs with rfl | h
              · exact hSl
              · exact hinv.sound s h,
            fun j r' h1 h2 h3 => by
              rcases sat_set hb h3 with h | h
              · rcases hinv.work j r' h1 h2 h with h | ⟨s, hs, hs'⟩ | h
                · exact .inl ((has_set_true hb).2 (.inr h))
                · exact .inr (.inl ⟨s, hs, by simp [hs']⟩)
                · rcases List.mem_cons.1 h with rfl | h
                  · rw [hr] at h1; cases h1; exact .inl ((has_set_true hb).2 (.inl rfl))
                  · exact .inr (.inr h)
              · exact .inr (.inl ⟨r.lhs, h, by simp⟩),
            fun s hs => by
              rcases List.mem_cons.1 hs with rfl | hs
              · exact (has_set_true hb).2 (.inl rfl)
              · exact (has_set_true hb).2 (.inr (hinv.stack s hs))⟩
        refine ⟨b', stack', h1, h2, ?_⟩
        rw [h3]
        have hf : b[r.lhs] = false := by
          unfold Has at hlhs
          rw [List.getElem?_eq_getElem hb] at hlhs
          simpa using hlhs
        have hpos : 0 < List.count false b := by
          rw [List.count_pos_iff, ← hf]; exact List.getElem_mem hb
        rw [List.count_set hb]
        simp only [hf, beq_self_eq_true, if_true, List.length_cons]
        simp
        omega
      · have e : closureBody mode rules (b, stack) i = .ok (b, stack) := by
          simp [closureBody, hidx, hv, get_has (hinv.len ▸ hl), hvs]
        rw [e]
        refine ih (fun j hj => hids j (by simp [hj])) b stack ⟨hinv.len, hinv.ext, hinv.sound,
          fun j r' h1 h2 h3 => ?_, hinv.stack⟩
        rcases hinv.work j r' h1 h2 h3 with h | h | h
        · exact .inl h
        · exact .inr (.inl h)
        · rcases List.mem_cons.1 h with rfl | h
          · rw [hr] at h1; cases h1; exact absurd (hsat.2 h3) hvs
          · exact .inr (.inr h)

theorem closureLoop_spec {mode : RhsPropertyMode} {rules : List CfgRule} {n : Nat}
    {S : Sym → Prop} {init : Sym → Prop}
    (hwf : ∀ r ∈ rules, r.lhs < n ∧ ∀ s ∈ r.rhs, s < n)
    (hS : Closed mode rules S) (fuel : Nat) (b : BitSet) (stack : List Sym)
    (hinv : CInv mode rules n S init (fun _ => False) b stack)
    (hf : b.count false + stack.length ≤ fuel) :
    ∃ b', closureLoop mode rules (OccurenceMap.fromRules rules) fuel b stack = .ok b' ∧
      CInv mode rules n S init (fun _ => False) b' [] := by
  induction fuel generalizing b stack with
  | zero =>
    have : stack = [] := List.length_eq_zero_iff.1 (by omega)
    subst this
    exact ⟨b, rfl, hinv⟩
  | succ fuel ih =>
    cases stack with
    | nil => exact ⟨b, rfl, hinv⟩
    | cons a stack =>
      have hids : ∀ i ∈ (OccurenceMap.fromRules rules a).rhs, ∃ r, rules[i]? = some r ∧
          r.rhs ≠ [] := by
        intro i hi
        obtain ⟨r, h1, h2⟩ := mem_occ.1 hi
        exact ⟨r, h1, List.ne_nil_of_mem h2⟩
      obtain ⟨b', stack', h1, h2, h3⟩ := closureBody_fold hwf hS _ hids b stack
        ⟨hinv.len, hinv.ext, hinv.sound, fun i r h1 h2 h3 => by
          rcases hinv.work i r h1 h2 h3 with h | ⟨s, hs, hs'⟩ | h
          · exact .inl h
          · rcases List.mem_cons.1 hs' with rfl | hs'
            · exact .inr (.inr (mem_occ.2 ⟨r, h1, hs⟩))
            · exact .inr (.inl ⟨s, hs, hs'⟩)
          · exact h.elim, fun s hs => hinv.stack s (by simp [hs])⟩
      simp only [List.length_cons] at hf
      obtain ⟨b'', h4, h5⟩ := ih b' stack' h2 (by omega)
      refine ⟨b'', ?_, h5⟩
      simp only [closureLoop, h1, Res.bind_ok]
      exact h4

theorem rhsClosure_spec {mode : RhsPropertyMode} {g : Cfg} (hwf : g.WF) (b : BitSet)
    (hb : b.length = g.numSyms) :
    ∃ b', g.rhsClosure mode b = .ok b' ∧ b'.length = g.numSyms ∧
      (∀ s, Has b s → Has b' s) ∧ Closed mode g.rules (Has b') ∧
      ∀ S, (∀ s, Has b s → S s) → Closed mode g.rules S → ∀ s, Has b' s → S s := by
  have hfuel : b.count false + (BitSet.iter b).reverse.length ≤ 2 * b.length + 1 := by
    have h1 : b.count false ≤ b.length := List.count_le_length
    have h2 : (BitSet.iter b).length ≤ b.length := by
      unfold BitSet.iter
      have := List.length_filterMap_le (fun (x : Bool × Nat) =>
        if x.1 then some x.2 else none) b.zipIdx
      simpa using this
    rw [List.length_reverse]; omega
  have key : ∀ S, (∀ s, Has b s → S s) → Closed mode g.rules S →
      ∃ b', g.rhsClosure mode b = .ok b' ∧
        CInv mode g.rules g.numSyms S (Has b) (fun _ => False) b' [] := by
    intro S hS hcl
    refine closureLoop_spec hwf hcl _ b _ ⟨hb, fun s h => h, hS, ?_, ?_⟩ hfuel
    · intro i r _ hne hsat
      refine .inr (.inl ?_)
      cases mode
      · obtain ⟨s, hs⟩ := List.exists_mem_of_ne_nil _ hne
        exact ⟨s, hs, by rw [List.mem_reverse, BitSet.mem_iter]; exact hsat s hs⟩
      · obtain ⟨s, hs, h⟩ := hsat
        exact ⟨s, hs, by rw [List.mem_reverse, BitSet.mem_iter]; exact h⟩
    · intro s hs
      rw [List.mem_reverse, BitSet.mem_iter] at hs; exact hs
  obtain ⟨b', h1, h2⟩ := key (fun _ => True) (fun _ _ => trivial) (by
    cases mode <;> exact fun _ _ => by simp)
  refine ⟨b', h1, h2.len, h2.ext, ?_, ?_⟩
  · have : ∀ r ∈ g.rules, r.rhs ≠ [] → Sat mode b' r.rhs → Has b' r.lhs := by
      intro r hr hne hs
      obtain ⟨i, hi⟩ := List.getElem?_of_mem hr
      rcases h2.work i r hi hne hs with h | ⟨s, _, h⟩ | h
      · exact h
      · simp at h
      · exact h.elim
    cases mode
    · exact this
    · intro r hr hs
      exact this r hr (by obtain ⟨s, hs, _⟩ := hs; exact List.ne_nil_of_mem hs) hs
  · intro S hS hcl s hs
    obtain ⟨b'', h3, h4⟩ := key S hS hcl
    rw [h1] at h3; cases h3
    exact h4.sound s hs

theorem closed_all_iff {g : Cfg} {S : Sym → Prop} :
    Closed .all g.rules S ↔ ClosedAll g.prod S := by
  constructor
  · rintro h A α ⟨r, hr, rfl, rfl⟩; exact h r hr
  · intro h r hr; exact h r.lhs r.rhs ⟨r, hr, rfl, rfl⟩

theorem closed_any_iff {g : Cfg} {S : Sym → Prop} :
    Closed .any g.rules S ↔ ClosedAny g.prod S := by
  constructor
  · rintro h A α ⟨r, hr, rfl, rfl⟩; exact h r hr
  · intro h r hr; exact h r.lhs r.rhs ⟨r, hr, rfl, rfl⟩

theorem closureAll_spec {g : Cfg} (hwf : g.WF) (b : BitSet) (hb : b.length = g.numSyms) :
    ∃ b', g.rhsClosureForAll b = .ok b' ∧ b'.length = g.numSyms ∧
      IsLeast (ClosedAll g.prod) (Has b) (Has b') := by
  obtain ⟨b', h1, h2, h3, h4, h5⟩ := rhsClosure_spec (mode := .all) hwf b hb
  exact ⟨b', h1, h2, h3, closed_all_iff.1 h4, fun S hS hc => h5 S hS (closed_all_iff.2 hc)⟩

theorem closureAny_spec {g : Cfg} (hwf : g.WF) (b : BitSet) (hb : b.length = g.numSyms) :
    ∃ b', g.rhsClosureForAny b = .ok b' ∧ b'.length = g.numSyms ∧
      IsLeast (ClosedAny g.prod) (Has b) (Has b') := by
  obtain ⟨b', h1, h2, h3, h4, h5⟩ := rhsClosure_spec (mode := .any) hwf b hb
  exact ⟨b', h1, h2, h3, closed_any_iff.1 h4, fun S hS hc => h5 S hS (closed_any_iff.2 hc)⟩

/-- The closure of the nulling symbols is exactly the set of nullable symbols. -/
theorem least_nullable {P : Productions} {R I : Sym → Prop} (hI : ∀ s, I s ↔ P s [])
    (h : IsLeast (ClosedAll P) I R) (s : Sym) : R s ↔ Nullable P s := by
  obtain ⟨h1, h2, h3⟩ := h
  constructor
  · intro hs
    refine h3 (Nullable P) (fun s hs => ?_) ?_ s hs
    · exact Relation.ReflTransGen.single ⟨s, [], [], [], (hI s).1 hs, rfl, rfl⟩
    · intro A α hp _ hα
      refine Relation.ReflTransGen.head (b := α) ⟨A, α, [], [], hp, rfl, by simp⟩ ?_
      clear hp
      induction α with
      | nil => exact .refl
      | cons a α ih =>
        have h1 : Derives P [a] [] := hα a (by simp)
        have h2 : Derives P α [] := by
          by_cases e : α = []
          · subst e; exact .refl
          · exact ih e fun s hs => hα s (by simp [hs])
        have := Relation.ReflTransGen.lift (· ++ α) (p := Step P) ?_ _ _ h1
        · exact this.trans h2
        · rintro y z ⟨A, β, p, q, hp, rfl, rfl⟩
          exact ⟨A, β, p, q ++ α, hp, by simp, by simp⟩
  · intro hs
    have key : ∀ u, Derives P u [] → ∀ a ∈ u, R a := by
      intro u d
      induction d using Relation.ReflTransGen.head_induction_on with
      | refl => simp
      | @head u v hs _ ih =>
        obtain ⟨A, α, p, q, hp, rfl, rfl⟩ := hs
        intro a ha
        have hA : R A := by
          by_cases e : α = []
          · subst e; exact h1 A ((hI A).2 hp)
          · exact h2 A α hp e fun s hs => ih s (by simp [hs])
        simp only [List.mem_append, List.mem_cons] at ha
        rcases ha with ha | rfl | ha
        · exact ih a (by simp [ha])
        · exact hA
        · exact ih a (by simp [ha])
    exact key _ hs s (by simp)

end Verif
