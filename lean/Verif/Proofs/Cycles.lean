import Verif.Model.Classify
import Verif.Proofs.Matrix
import Verif.Proofs.Binarize
import Verif.Proofs.Closure

/-! # Helper lemmas on unit cycles -/

namespace Verif

open BitMatrix

/-! ## Chains -/

section
variable {P : Productions}

theorem UnitChain.trans {a b c : Sym} (h : UnitChain P a b) (h' : UnitChain P b c) :
    UnitChain P a c := Relation.TransGen.trans h h'

theorem UnitChain.mono {Q : Productions} (H : ∀ A α, P A α → Q A α) {a b : Sym}
    (h : UnitChain P a b) : UnitChain Q a b := by
  induction h with
  | single h => exact .single ⟨H _ _ h.1, h.2⟩
  | tail _ h ih => exact .tail ih ⟨H _ _ h.1, h.2⟩

theorem UnitChain.head {a b : Sym} (h : UnitChain P a b) :
    ∃ c, UnitStep P a c ∧ (c = b ∨ UnitChain P c b) := by
  obtain ⟨c, h1, h2⟩ := Relation.TransGen.head'_iff.1 h
  refine ⟨c, h1, ?_⟩
  rcases Relation.reflTransGen_iff_eq_or_transGen.1 h2 with h | h
  · exact .inl h.symm
  · exact .inr h

theorem UnitChain.der {a b : Sym} (h : UnitChain P a b) : Der P [a] [b] := by
  induction h with
  | single h => exact .prod h.1
  | tail _ h ih => exact ih.trans (.prod h.1)

/-- The left side of a rule on a cycle lies on a cycle. -/
theorem CycleRule.self {A : Sym} {α : List Sym} (hp : P A α) (h : CycleRule P A α) :
    UnitChain P A A := by
  obtain ⟨B, rfl, h⟩ := h
  by_cases e : A = B
  · subst e; exact h
  · exact Relation.TransGen.head (r := UnitStep P) ⟨hp, e⟩ h

/-- A symbol on a cycle is the left side of a rule on the cycle. -/
theorem UnitChain.rule {A : Sym} (h : UnitChain P A A) : ∃ α, P A α ∧ CycleRule P A α := by
  obtain ⟨c, h1, h2⟩ := h.head
  rcases h2 with rfl | h2
  · exact (h1.2 rfl).elim
  · exact ⟨[c], h1.1, c, rfl, h2⟩

end

/-! ## The analysis object -/

namespace Cycles

/-- The object as made by `new`, possibly with the cache filled. -/
structure Fresh (g : Cfg) (c : Cycles) : Prop where
  grammar : c.grammar = g
  square : Square g.numSyms c.unitDerivation
  bit : ∀ a b, Bit c.unitDerivation a b ↔ UnitChain g.prod a b
  cache : ∀ b, c.cycleFree = some b → (b = true ↔ CycleFree g.prod)

theorem new_spec {g : Cfg} (hwf : g.WF) : ∃ c, new g = .ok c ∧ Fresh g c := by
  obtain ⟨m, h1, h2, h3⟩ := Cfg.unitDerivation_spec hwf
  refine ⟨⟨g, m, none⟩, by rw [new, h1]; rfl, rfl, h2, h3, by simp⟩

theorem diagonalFree_spec {n : Nat} {m : BitMatrix} (h : Square n m) (l : List Sym)
    (hl : ∀ i ∈ l, i < n) :
    ∃ b, diagonalFree m l = .ok b ∧ (b = true ↔ ∀ i ∈ l, ¬ Bit m i i) := by
  induction l with
  | nil => exact ⟨true, rfl, by simp⟩
  | cons i l ih =>
    obtain ⟨b, h1, h2⟩ := ih fun i hi => hl i (by simp [hi])
    obtain ⟨x, h3, h4⟩ := get_spec h (hl i (by simp)) (hl i (by simp))
    unfold diagonalFree
    rw [h3]
    cases x
    · refine ⟨b, by simpa using h1, ?_⟩
      have : ¬ Bit m i i := by simpa using h4
      simp [h2, this]
    · exact ⟨false, by simp, by simp [h4.1 rfl]⟩

theorem Fresh.isCycleFree {g : Cfg} {c : Cycles} (h : Fresh g c) :
    ∃ b, c.isCycleFree = .ok (b, { c with cycleFree := some b }) ∧
      (b = true ↔ CycleFree g.prod) := by
  unfold Cycles.isCycleFree
  cases e : c.cycleFree with
  | some b => exact ⟨b, by simp [← e], h.cache b e⟩
  | none =>
    obtain ⟨b, h1, h2⟩ := diagonalFree_spec h.square (List.range c.grammar.numSyms) (by
      rw [h.grammar]; simp)
    refine ⟨b, by simp [h1], h2.trans ?_⟩
    rw [h.grammar]
    constructor
    · intro h' A hA
      have hb := (h.bit A A).2 hA
      exact h' A (List.mem_range.2 (hb.lt h.square).1) hb
    · intro h' i _ hb
      exact h' i ((h.bit i i).1 hb)

theorem Fresh.participates {g : Cfg} {c : Cycles} (h : Fresh g c) (hwf : g.WF) {r : CfgRule}
    (hr : r ∈ g.rules) :
    ∃ b, participates c.unitDerivation r = .ok b ∧ (b = true ↔ CycleRule g.prod r.lhs r.rhs) := by
  unfold Cycles.participates
  split
  · rename_i sym e
    obtain ⟨x, h1, h2⟩ := get_spec h.square ((hwf r hr).2 sym (by simp [e])) (hwf r hr).1
    refine ⟨x, h1, h2.trans ?_⟩
    rw [h.bit, e]
    simp [CycleRule]
  · rename_i hne
    refine ⟨false, rfl, ?_⟩
    simp only [Bool.false_eq_true, false_iff]
    rintro ⟨B, e, -⟩
    exact hne B e

open Classical in
theorem Fresh.participants {g : Cfg} {c : Cycles} (h : Fresh g c) (hwf : g.WF) :
    c.cycleParticipants true = .ok (g.rules.filter fun r => CycleRule g.prod r.lhs r.rhs) ∧
    c.cycleParticipants false = .ok (g.rules.filter fun r => ¬ CycleRule g.prod r.lhs r.rhs) := by
  have key : ∀ rules : List CfgRule, (∀ r ∈ rules, r ∈ g.rules) →
      (rules.mapM fun rule => do .ok (rule, ← Cycles.participates c.unitDerivation rule) :
        Res (List (CfgRule × Bool))) =
      .ok (rules.map fun r => (r, decide (CycleRule g.prod r.lhs r.rhs))) := by
    intro rules
    induction rules with
    | nil => intro _; rfl
    | cons r rules ih =>
      intro hr
      obtain ⟨b, h1, h2⟩ := h.participates hwf (hr r (by simp))
      have hb : b = decide (CycleRule g.prod r.lhs r.rhs) := by
        rw [Bool.eq_iff_iff, h2, decide_eq_true_iff]
      rw [List.mapM_cons, ih fun r h => hr r (by simp [h]), h1, hb]
      rfl
  have e := key g.rules fun _ h => h
  have e' : c.classify =
      .ok (g.rules.map fun r => (r, decide (CycleRule g.prod r.lhs r.rhs))) := by
    rw [Cycles.classify, h.grammar]; exact e
  have aux : ∀ (v : Bool) (rules : List CfgRule),
      ((rules.map fun r => (r, decide (CycleRule g.prod r.lhs r.rhs))).filterMap
        fun (rule, isCyclical) => if isCyclical ^^ !v then some rule else none) =
      rules.filter fun r => decide (CycleRule g.prod r.lhs r.rhs) == v := by
    intro v rules
    induction rules with
    | nil => rfl
    | cons r rules ih =>
      rw [List.map_cons, List.filterMap_cons, List.filter_cons, ih]
      cases v <;> by_cases hc : CycleRule g.prod r.lhs r.rhs <;> simp [hc]
  constructor
  · rw [cycleParticipants, e']
    show Res.ok _ = _
    rw [aux true]
    simp
  · rw [cycleParticipants, e']
    show Res.ok _ = _
    rw [aux false]
    simp

open Classical in
theorem Fresh.retainAcyclic {g : Cfg} {c : Cycles} (h : Fresh g c) (hwf : g.WF)
    (rules : List CfgRule) (hr : ∀ r ∈ rules, r ∈ g.rules) :
    retainAcyclic c.unitDerivation rules =
      .ok (rules.filter fun r => ¬ CycleRule g.prod r.lhs r.rhs) := by
  induction rules with
  | nil => rfl
  | cons r rules ih =>
    obtain ⟨b, h1, h2⟩ := h.participates hwf (hr r (by simp))
    have hb : b = decide (CycleRule g.prod r.lhs r.rhs) := by
      rw [Bool.eq_iff_iff, h2, decide_eq_true_iff]
    unfold Cycles.retainAcyclic
    rw [h1, ih fun r h => hr r (by simp [h]), hb, List.filter_cons]
    by_cases e : CycleRule g.prod r.lhs r.rhs <;> simp [e]

/-- Without rules on a cycle nothing can be on a cycle. -/
theorem cycleFree_of_no_rule {P Q : Productions} (H : ∀ A α, Q A α → P A α)
    (hQ : ∀ A α, Q A α → ¬ CycleRule P A α) : CycleFree Q := by
  intro A hA
  obtain ⟨α, h1, B, rfl, h2⟩ := hA.rule
  exact hQ A [B] h1 ⟨B, rfl, h2.mono H⟩

open Classical in
theorem Fresh.removeCycles {g : Cfg} {c : Cycles} (h : Fresh g c) (hwf : g.WF) :
    ∃ b, c.removeCycles = .ok { c with
        cycleFree := some b,
        grammar := { g with rules := g.rules.filter fun r =>
                              ¬ CycleRule g.prod r.lhs r.rhs } } ∧
      (b = true ↔ CycleFree g.prod) := by
  obtain ⟨b, h1, h2⟩ := h.isCycleFree
  refine ⟨b, ?_, h2⟩
  unfold Cycles.removeCycles
  rw [h1]
  have hg := h.grammar
  cases b
  · simp [hg, h.retainAcyclic hwf g.rules fun _ h => h]
  · have : (g.rules.filter fun r => decide ¬ CycleRule g.prod r.lhs r.rhs) = g.rules := by
      rw [List.filter_eq_self]
      intro r hr
      rw [decide_eq_true_iff]
      intro hc
      exact h2.1 rfl r.lhs (hc.self ⟨r, hr, rfl, rfl⟩)
    simp only [Res.bind_ok, if_true, this]
    rw [← hg]

/-! ## Rewriting -/

theorem Fresh.cycleMembers {g : Cfg} {c : Cycles} (h : Fresh g c) {lhs : Sym}
    (hl : lhs < g.numSyms) (row : List (Bool × Nat)) (hrow : ∀ p ∈ row, p.2 < g.numSyms) :
    ∃ l, cycleMembers c.unitDerivation lhs row = .ok l ∧
      ∀ s, s ∈ l ↔ (true, s) ∈ row ∧ UnitChain g.prod s lhs := by
  induction row with
  | nil => exact ⟨[], rfl, by simp⟩
  | cons p row ih =>
    obtain ⟨v, s⟩ := p
    obtain ⟨l, h1, h2⟩ := ih fun p hp => hrow p (by simp [hp])
    obtain ⟨x, h3, h4⟩ := get_spec h.square (hrow (v, s) (by simp)) hl
    rw [h.bit] at h4
    refine ⟨if v && x then s :: l else l, ?_, fun t => ?_⟩
    · unfold Cycles.cycleMembers
      cases v
      · simp [h1]
      · simp only [if_true]
        rw [h3, h1]; simp
    · cases v
      · simp [h2]
      · cases x
        · have : ¬ UnitChain g.prod s lhs := by simpa using h4
          simp only [Bool.and_false, Bool.false_eq_true, if_false, h2, List.mem_cons,
            Prod.mk.injEq, true_and]
          constructor
          · rintro ⟨h1, h2⟩; exact ⟨.inr h1, h2⟩
          · rintro ⟨rfl | h1, h2⟩
            · exact (this h2).elim
            · exact ⟨h1, h2⟩
        · have hs := h4.1 rfl
          simp only [Bool.and_self, if_true, List.mem_cons, h2, Prod.mk.injEq, true_and]
          constructor
          · rintro (rfl | ⟨h1, h2⟩)
            · exact ⟨.inl rfl, hs⟩
            · exact ⟨.inr h1, h2⟩
          · rintro ⟨rfl | h1, h2⟩
            · exact .inl rfl
            · exact .inr ⟨h1, h2⟩

theorem foldl_enter (lhs : Sym) (l : List Sym) (tr : Translation) (s : Sym) :
    (l.foldl (fun (tr : Translation) sym s => if s = sym then some (some lhs) else tr s) tr) s =
      if s ∈ l then some (some lhs) else tr s := by
  induction l generalizing tr with
  | nil => simp
  | cons a l ih =>
    rw [List.foldl_cons, ih]
    by_cases e : s ∈ l
    · simp [e]
    · by_cases e' : s = a <;> simp [e, e']

open Classical in
theorem Fresh.enterCycle {g : Cfg} {c : Cycles} (h : Fresh g c) {lhs : Sym}
    (hl : lhs < g.numSyms) (tr : Translation) :
    enterCycle c.unitDerivation tr lhs = .ok fun s =>
      if s = lhs then some none
      else if SameCycle g.prod lhs s then some (some lhs) else tr s := by
  obtain ⟨row, h1, h2⟩ := square_row h.square hl
  obtain ⟨l, h3, h4⟩ := h.cycleMembers hl row.zipIdx (by
    rintro ⟨b, s⟩ hp
    rw [List.mk_mem_zipIdx_iff_getElem?] at hp
    obtain ⟨hlt, -⟩ := List.getElem?_eq_some_iff.1 hp
    show s < _
    omega)
  unfold Cycles.enterCycle
  rw [Res.index_ok.2 h1]
  show (Cycles.cycleMembers _ lhs row.zipIdx >>= _) = _
  rw [h3]
  show Res.ok _ = _
  congr 1
  funext s
  by_cases e : s = lhs
  · simp only [e, if_true]
  · rw [if_neg e, if_neg e, foldl_enter]
    have : s ∈ l ↔ SameCycle g.prod lhs s := by
      rw [h4, List.mk_mem_zipIdx_iff_getElem?, SameCycle, ← h.bit lhs s]
      simp [Bit, h1]
    simp only [this]

open Classical in
/-- The first rule of the list that lies on a cycle through `s`. -/
noncomputable def firstOn (P : Productions) (rules : List CfgRule) (s : Sym) : Option CfgRule :=
  rules.find? fun r => decide (CycleRule P r.lhs r.rhs ∧ SameCycle P r.lhs s)

open Classical in
theorem firstOn_pos {P : Productions} {r : CfgRule} (rules : List CfgRule) {s : Sym}
    (h : CycleRule P r.lhs r.rhs) (h' : SameCycle P r.lhs s) :
    firstOn P (r :: rules) s = some r := by
  rw [firstOn, List.find?_cons_of_pos (by simp [h, h'])]

open Classical in
theorem firstOn_neg {P : Productions} {r : CfgRule} (rules : List CfgRule) {s : Sym}
    (h : ¬ (CycleRule P r.lhs r.rhs ∧ SameCycle P r.lhs s)) :
    firstOn P (r :: rules) s = firstOn P rules s := by
  rw [firstOn, firstOn, List.find?_cons_of_neg (by simpa using h)]

theorem SameCycle.symm {P : Productions} {a b : Sym} (h : SameCycle P a b) : SameCycle P b a :=
  ⟨h.2, h.1⟩

theorem SameCycle.trans {P : Productions} {a b c : Sym} (h : SameCycle P a b)
    (h' : SameCycle P b c) : SameCycle P a c :=
  ⟨h.1.trans h'.1, h'.2.trans h.2⟩

open Classical in
theorem Fresh.collect {g : Cfg} {c : Cycles} (h : Fresh g c) (hwf : g.WF) (rules : List CfgRule)
    (hr : ∀ r ∈ rules, r ∈ g.rules) (tr : Translation)
    (htr : ∀ s t, SameCycle g.prod s t → tr s ≠ none → tr t ≠ none) :
    ∃ tr', collect c.unitDerivation tr rules = .ok (tr', rules.filter fun r =>
        ¬ CycleRule g.prod r.lhs r.rhs) ∧
      ∀ s, tr' s = if tr s ≠ none then tr s else
        (firstOn g.prod rules s).map fun r => if s = r.lhs then none else some r.lhs := by
  induction rules generalizing tr with
  | nil => exact ⟨tr, rfl, fun s => by cases e : tr s <;> simp [firstOn]⟩
  | cons r rules ih =>
    obtain ⟨b, h1, h2⟩ := h.participates hwf (hr r (by simp))
    have ih := fun tr => ih (fun r h => hr r (by simp [h])) tr
    unfold Cycles.collect
    rw [h1]
    cases b
    · have hn : ¬ CycleRule g.prod r.lhs r.rhs := by simpa using h2
      obtain ⟨tr', h3, h4⟩ := ih tr htr
      refine ⟨tr', ?_, fun s => ?_⟩
      · simp only [Res.bind_ok, Bool.false_eq_true, if_false, h3]
        simp [hn]
      · rw [h4, firstOn_neg rules (by simp [hn])]
    · have hc := h2.1 rfl
      have hself : SameCycle g.prod r.lhs r.lhs :=
        have := hc.self (P := g.prod) ⟨r, hr r (by simp), rfl, rfl⟩
        ⟨this, this⟩
      simp only [Res.bind_ok, if_true, List.filter_cons, hc, not_true, decide_false,
        Bool.false_eq_true, if_false]
      cases e : tr r.lhs with
      | some x =>
        obtain ⟨tr', h3, h4⟩ := ih tr htr
        refine ⟨tr', by simpa using h3, fun s => ?_⟩
        rw [h4]
        split
        · rfl
        · rename_i hs
          have : ¬ SameCycle g.prod r.lhs s := fun hsc => hs (htr r.lhs s hsc (by simp [e]))
          rw [firstOn_neg rules (by simp [this])]
      | none =>
        rw [h.enterCycle (hwf r (hr r (by simp))).1 tr]
        obtain ⟨tr', h3, h4⟩ := ih (fun s => if s = r.lhs then some none
          else if SameCycle g.prod r.lhs s then some (some r.lhs) else tr s) (by
            intro s t hst hs
            show (if t = r.lhs then some none
              else if SameCycle g.prod r.lhs t then some (some r.lhs) else tr t) ≠ none
            by_cases e1 : t = r.lhs
            · simp [e1]
            · by_cases e2 : SameCycle g.prod r.lhs t
              · simp [e2, e1]
              · rw [if_neg e1, if_neg e2]
                by_cases e3 : s = r.lhs
                · exact (e2 (e3 ▸ hst)).elim
                · by_cases e4 : SameCycle g.prod r.lhs s
                  · exact (e2 (SameCycle.trans e4 hst)).elim
                  · rw [if_neg e3, if_neg e4] at hs
                    exact htr s t hst hs)
        refine ⟨tr', by simpa using h3, fun s => ?_⟩
        rw [h4]
        by_cases e1 : s = r.lhs
        · subst e1
          rw [firstOn_pos rules hc hself]
          simp [e]
        · by_cases e2 : SameCycle g.prod r.lhs s
          · have hs : tr s = none := by
              by_contra hs
              exact htr s r.lhs e2.symm hs e
            simp only [if_neg e1, e2, if_true]
            rw [firstOn_pos rules hc e2]
            simp [hs, e1]
          · simp only [if_neg e1, if_neg e2]
            rw [firstOn_neg rules (by simp [e2])]

/-- The representative of `s`: the left side of the first rule on a cycle through `s`, or `s`
itself if there is none. -/
noncomputable def rep (g : Cfg) (s : Sym) : Sym :=
  ((firstOn g.prod g.rules s).map (·.lhs)).getD s

theorem rep_cases (g : Cfg) (s : Sym) :
    (UnitChain g.prod s s ∧ SameCycle g.prod (rep g s) s) ∨
      (¬ UnitChain g.prod s s ∧ rep g s = s) := by
  classical
  unfold rep
  cases e : firstOn g.prod g.rules s with
  | none =>
    right
    refine ⟨fun hs => ?_, rfl⟩
    obtain ⟨α, ⟨r, hr, h1, rfl⟩, hc⟩ := hs.rule
    rw [firstOn, List.find?_eq_none] at e
    have := e r hr
    simp only [decide_eq_true_iff, not_and] at this
    rw [h1] at this
    exact this hc ⟨hs, hs⟩
  | some r =>
    left
    rw [firstOn] at e
    have := List.find?_some e
    rw [decide_eq_true_iff] at this
    exact ⟨this.2.2.trans this.2.1, this.2⟩

theorem rep_same {g : Cfg} {s t : Sym} (h : SameCycle g.prod s t) : rep g s = rep g t := by
  classical
  have hs := h.1.trans h.2
  have ht := h.2.trans h.1
  have e : firstOn g.prod g.rules s = firstOn g.prod g.rules t := by
    unfold firstOn
    congr 1
    funext r
    rw [decide_eq_decide]
    exact and_congr_right fun _ => ⟨fun h' => SameCycle.trans h' h,
      fun h' => SameCycle.trans h' (SameCycle.symm h)⟩
  unfold rep
  rw [← e]
  cases e' : firstOn g.prod g.rules s with
  | some r => rfl
  | none =>
    rcases rep_cases g s with ⟨-, h1⟩ | ⟨h1, -⟩
    · obtain ⟨α, ⟨r, hr, h1, rfl⟩, hc⟩ := hs.rule
      rw [firstOn, List.find?_eq_none] at e'
      have := e' r hr
      simp only [decide_eq_true_iff, not_and] at this
      rw [h1] at this
      exact (this hc ⟨hs, hs⟩).elim
    · exact (h1 hs).elim

theorem Fresh.apply {g : Cfg} {tr : Translation}
    (h : ∀ s, tr s = (firstOn g.prod g.rules s).map fun r =>
      if s = r.lhs then none else some r.lhs) (s : Sym) :
    tr.apply s = rep g s ∧ ((tr s).join.isSome = true ↔ rep g s ≠ s) := by
  unfold Translation.apply rep
  rw [h]
  cases e : firstOn g.prod g.rules s with
  | none => simp
  | some r =>
    by_cases e' : s = r.lhs
    · simp [e']
    · have : ¬ r.lhs = s := fun h => e' h.symm
      simp [e', this]

/-- The productions after rewriting. -/
def collapsed (g : Cfg) : Productions :=
  fun X β => ∃ A α, g.prod A α ∧ ¬ CycleRule g.prod A α ∧ X = rep g A ∧ β = α.map (rep g)

theorem rep_lt {g : Cfg} (hwf : g.WF) {s : Sym} (h : s < g.numSyms) : rep g s < g.numSyms := by
  rcases rep_cases g s with ⟨-, h1⟩ | ⟨-, h1⟩
  · obtain ⟨α, ⟨r, hr, h2, -⟩, -⟩ := (h1.1.trans h1.2).rule
    rw [← h2]; exact (hwf r hr).1
  · rw [h1]; exact h

theorem _root_.Verif.Cfg.Chain.single {n : Nat} {lhs : Sym} {f : Nat} {rhs : List Sym} {rs : List CfgRule}
    (h : Cfg.Chain n lhs f rhs rs) (hn : 2 ≤ n) {r : CfgRule} (hr : r ∈ rs)
    (e : r.rhs.length ≤ 1) : r.lhs = lhs ∧ rhs = r.rhs := by
  induction h with
  | @last f rhs r' hle e1 e2 =>
    obtain rfl := List.mem_singleton.1 hr
    exact ⟨e1, e2.symm⟩
  | @more f rhs r' rs hlt e1 e2 hc ih =>
    rcases List.mem_cons.1 hr with rfl | hr
    · have := congrArg List.length e2
      rw [List.length_take] at this
      omega
    · obtain ⟨-, h2⟩ := ih hr
      have := congrArg List.length h2
      simp at this
      omega

/-- Rules of at most one symbol after `addRules` come from such rules. -/
theorem addRules_single (rules : List CfgRule) {g g' : Cfg} (hlim : g.LimitOk)
    (h : g.addRules rules = .ok g') {r : CfgRule} (hr : r ∈ g'.rules)
    (e : r.rhs.length ≤ 1) :
    r ∈ g.rules ∨ ∃ r' ∈ rules, r'.lhs = r.lhs ∧ r'.rhs = r.rhs := by
  induction rules generalizing g with
  | nil =>
    have : g = g' := by simpa [Cfg.addRules] using h
    subst this
    exact .inl hr
  | cons r₀ rules ih =>
    have key : ∃ rs k, g.addRule r₀ = .ok (g.appended rs k, rs.length) ∧
        ∀ r ∈ rs, r.rhs.length ≤ 1 → r.lhs = r₀.lhs ∧ r₀.rhs = r.rhs := by
      cases el : g.rhsLenInvariant with
      | none =>
        refine ⟨[r₀], 0, Cfg.addRule_none g r₀ el, fun r hr e => ?_⟩
        obtain rfl := List.mem_singleton.1 hr
        exact ⟨rfl, rfl⟩
      | some n =>
        obtain ⟨rs, h1, h2, -⟩ := Cfg.addRule_spec g r₀ n (hlim n el) el
        exact ⟨rs, _, h1, fun r hr e => h2.single (hlim n el) hr e⟩
    obtain ⟨rs, k, h1, h2⟩ := key
    have h' : (g.appended rs k).addRules rules = .ok g' := by
      unfold Cfg.addRules at h ⊢
      rw [List.foldlM_cons, h1] at h
      exact h
    rcases ih (g := g.appended rs k) hlim h' with h3 | ⟨r', hr', h3⟩
    · rcases List.mem_append.1 h3 with h3 | h3
      · exact .inl h3
      · obtain ⟨h4, h5⟩ := h2 r h3 e
        exact .inr ⟨r₀, by simp, h4.symm, h5⟩
    · exact .inr ⟨r', by simp [hr'], h3⟩

/-- The rule with every symbol replaced by its representative. -/
noncomputable def repRule (g : Cfg) (r : CfgRule) : CfgRule :=
  ⟨rep g r.lhs, r.rhs.map (rep g), r.history⟩

/-- Rewriting, on a grammar that has a cycle. -/
theorem Fresh.rewrite {g : Cfg} {c : Cycles} (h : Fresh g c) (hwf : g.WF) (hlim : g.LimitOk) :
    ∃ c', c.rewriteCycles = .ok c' ∧
      Cfg.SplitInv g.numSyms (collapsed g) c'.grammar ∧
      c'.grammar.roots = g.roots ∧
      c'.unitDerivation = c.unitDerivation ∧
      (∃ b, c'.cycleFree = some b ∧ (b = true ↔ CycleFree g.prod)) ∧
      ∀ r ∈ c'.grammar.rules, r.rhs.length ≤ 1 → collapsed g r.lhs r.rhs := by
  classical
  obtain ⟨b, h1, h2⟩ := h.isCycleFree
  unfold Cycles.rewriteCycles
  rw [h1]
  cases b
  · obtain ⟨tr, h3, h4⟩ := h.collect hwf g.rules (fun _ h => h) (fun _ => none) (by simp)
    have h4 : ∀ s, tr s = (firstOn g.prod g.rules s).map fun r =>
        if s = r.lhs then none else some r.lhs := fun s => by rw [h4]; simp
    have hap := Fresh.apply h4
    have hrule : ∀ r, tr.rule r = repRule g r := by
      intro r
      unfold Translation.rule repRule
      rw [(hap r.lhs).1]
      congr 1
      exact List.map_congr_left fun s _ => (hap s).1
    have hch : ∀ r, tr.changes r = false → repRule g r = r := by
      intro r hr
      unfold Translation.changes at hr
      rw [List.any_eq_false] at hr
      have hs : ∀ s ∈ r.lhs :: r.rhs, rep g s = s := by
        intro s hs
        by_contra hne
        exact hr s hs ((hap s).2.2 hne)
      unfold repRule
      rw [hs r.lhs (by simp)]
      have : r.rhs.map (rep g) = r.rhs := by
        rw [List.map_congr_left (g := id) fun s hs' => hs s (by simp [hs'])]; simp
      rw [this]
    have hg := h.grammar
    simp only [Res.bind_ok, Bool.false_eq_true, if_false, hg, h3]
    -- the rules that stay
    have hwf0 : Cfg.WF { g with
        rules := (g.rules.filter fun r => ¬ CycleRule g.prod r.lhs r.rhs).filter fun rule =>
                   !tr.changes rule } := by
      intro r hr
      exact hwf r (List.mem_of_mem_filter (List.mem_of_mem_filter hr))
    obtain ⟨g', e1, e2, e3, e4, -⟩ := Cfg.addRules_inv
      (((g.rules.filter fun r => ¬ CycleRule g.prod r.lhs r.rhs).filter fun rule =>
        tr.changes rule).map tr.rule) (Cfg.SplitInv.refl hwf0) (by exact hlim) (by
          intro r hr
          obtain ⟨r₀, hr₀, rfl⟩ := List.mem_map.1 hr
          have hr₀ := hwf r₀ (List.mem_of_mem_filter (List.mem_of_mem_filter hr₀))
          rw [hrule]
          refine ⟨rep_lt hwf hr₀.1, fun x hx => ?_⟩
          obtain ⟨y, hy, rfl⟩ := List.mem_map.1 hx
          exact rep_lt hwf (hr₀.2 y hy))
    have hprod : ∀ A α, (Cfg.prod { g with
        rules := (g.rules.filter fun r => ¬ CycleRule g.prod r.lhs r.rhs).filter fun rule =>
                   !tr.changes rule } A α ∨
        ∃ r ∈ ((g.rules.filter fun r => ¬ CycleRule g.prod r.lhs r.rhs).filter fun rule =>
          tr.changes rule).map tr.rule, r.lhs = A ∧ r.rhs = α) ↔ collapsed g A α := by
      intro A α
      constructor
      · rintro (⟨r, hr, rfl, rfl⟩ | ⟨r, hr, rfl, rfl⟩)
        · obtain ⟨hr1, hr2⟩ := List.mem_filter.1 hr
          obtain ⟨hr3, hr4⟩ := List.mem_filter.1 hr1
          have := hch r (by simpa using hr2)
          refine ⟨r.lhs, r.rhs, ⟨r, hr3, rfl, rfl⟩, by simpa using hr4, ?_, ?_⟩
          · exact (congrArg CfgRule.lhs this).symm
          · exact (congrArg CfgRule.rhs this).symm
        · obtain ⟨r₀, hr₀, rfl⟩ := List.mem_map.1 hr
          obtain ⟨hr1, hr2⟩ := List.mem_filter.1 hr₀
          obtain ⟨hr3, hr4⟩ := List.mem_filter.1 hr1
          rw [hrule]
          exact ⟨r₀.lhs, r₀.rhs, ⟨r₀, hr3, rfl, rfl⟩, by simpa using hr4, rfl, rfl⟩
      · rintro ⟨A, α, ⟨r, hr, rfl, rfl⟩, hc, rfl, rfl⟩
        have hr' : r ∈ g.rules.filter fun r => ¬ CycleRule g.prod r.lhs r.rhs :=
          List.mem_filter.2 ⟨hr, by simpa using hc⟩
        cases e : tr.changes r
        · left
          have := hch r e
          refine ⟨r, List.mem_filter.2 ⟨hr', by simp [e]⟩, ?_, ?_⟩
          · exact (congrArg CfgRule.lhs this).symm
          · exact (congrArg CfgRule.rhs this).symm
        · right
          refine ⟨tr.rule r, List.mem_map.2 ⟨r, List.mem_filter.2 ⟨hr', e⟩, rfl⟩, ?_, ?_⟩ <;>
            rw [hrule] <;> rfl
    refine ⟨{ c with cycleFree := some false, grammar := g' }, ?_, e2.congr hprod, e4, rfl,
      ⟨false, rfl, h2⟩, ?_⟩
    · rw [e1]; rfl
    · intro r hr e
      refine (hprod r.lhs r.rhs).1 ?_
      rcases addRules_single _ (by exact hlim) e1 hr e with h5 | ⟨r', hr', h5, h6⟩
      · exact .inl ⟨r, h5, rfl, rfl⟩
      · exact .inr ⟨r', hr', h5, h6⟩
  · have hg := h.grammar
    have hfree := h2.1 rfl
    have hno : ∀ A α, g.prod A α → ¬ CycleRule g.prod A α :=
      fun A α hp hc => hfree A (hc.self hp)
    have hrep : ∀ s, rep g s = s := by
      intro s
      rcases rep_cases g s with ⟨h, -⟩ | ⟨-, h⟩
      · exact (hfree s h).elim
      · exact h
    have hmap : ∀ α : List Sym, α.map (rep g) = α := by
      intro α
      rw [List.map_congr_left (g := id) fun s _ => hrep s]; simp
    have hprod : ∀ A α, g.prod A α ↔ collapsed g A α := by
      intro A α
      constructor
      · intro hp; exact ⟨A, α, hp, hno A α hp, (hrep A).symm, (hmap α).symm⟩
      · rintro ⟨A, α, hp, -, rfl, rfl⟩; rw [hrep, hmap]; exact hp
    refine ⟨{ c with cycleFree := some true }, by simp, ?_, by rw [← hg], rfl,
      ⟨true, rfl, h2⟩, ?_⟩
    · show Cfg.SplitInv _ _ c.grammar
      rw [hg]
      exact (Cfg.SplitInv.refl hwf).congr hprod
    · intro r hr _
      have hr : r ∈ g.rules := by rw [← hg]; exact hr
      exact (hprod _ _).1 ⟨r, hr, rfl, rfl⟩

/-- Rewriting keeps the derivations of strings of terminals, with the start symbol replaced by
its representative. -/
theorem der_collapsed {g : Cfg} (s : Sym) {w : List Sym} (hw : ∀ a ∈ w, ∀ α, ¬ g.prod a α) :
    Der (collapsed g) [rep g s] w ↔ Der g.prod [s] w := by
  have h1 : ∀ s, Der g.prod [s] [rep g s] ∧ Der g.prod [rep g s] [s] := by
    intro s
    rcases rep_cases g s with ⟨-, h⟩ | ⟨-, h⟩
    · exact ⟨h.2.der, h.1.der⟩
    · rw [h]; exact ⟨.refl _, .refl _⟩
  have hw' : w.map (rep g) = w := by
    have : ∀ a ∈ w, rep g a = a := by
      intro a ha
      rcases rep_cases g a with ⟨h, -⟩ | ⟨-, h⟩
      · obtain ⟨α, h, -⟩ := h.rule
        exact (hw a ha α h).elim
      · exact h
    rw [List.map_congr_left (g := id) this]; simp
  have h2 : ∀ α : List Sym, Der g.prod α (α.map (rep g)) := by
    intro α
    induction α with
    | nil => exact .nil
    | cons a α ih => exact Der.append (u₁ := [a]) (v₁ := [rep g a]) (h1 a).1 ih
  constructor
  · intro d
    refine (h1 s).1.trans (d.mono' ?_)
    rintro X β ⟨A, α, hp, -, rfl, rfl⟩
    exact (h1 A).2.trans ((Der.prod hp).trans (h2 α))
  · intro d
    have e : ∀ α : List Sym, α.flatMap (fun a => [rep g a]) = α.map (rep g) := by
      intro α
      induction α with
      | nil => rfl
      | cons a α ih => rw [List.flatMap_cons, ih]; rfl
    have := Der.map (Q := collapsed g) (fun a => [rep g a]) (by
      intro A α hp
      rw [e]
      by_cases hc : CycleRule g.prod A α
      · obtain ⟨B, rfl, hB⟩ := hc
        by_cases e : A = B
        · subst e; exact .refl _
        · have : rep g A = rep g B := rep_same ⟨.single ⟨hp, e⟩, hB⟩
          rw [List.map_singleton, this]; exact .refl _
      · exact .prod ⟨A, α, hp, hc, rfl, rfl⟩) d
    rw [e, e, hw'] at this
    exact this

/-- A one-symbol production between different symbols after rewriting stands for a chain of the
original grammar. -/
theorem collapsed_chain {g : Cfg} {X Y : Sym} (h : UnitStep (collapsed g) X Y) :
    UnitChain g.prod X Y := by
  obtain ⟨⟨A, α, hp, hc, rfl, e⟩, hne⟩ := h
  obtain ⟨B, rfl, rfl⟩ : ∃ B, α = [B] ∧ Y = rep g B := by
    cases α with
    | nil => simp at e
    | cons B α =>
      cases α with
      | nil => exact ⟨B, rfl, by simpa using e⟩
      | cons => simp at e
  have hAB : A ≠ B := fun h => hne (by rw [h])
  have h1 : UnitChain g.prod (rep g A) B := by
    rcases rep_cases g A with ⟨-, h⟩ | ⟨-, h⟩
    · exact h.1.tail ⟨hp, hAB⟩
    · rw [h]; exact .single ⟨hp, hAB⟩
  rcases rep_cases g B with ⟨-, h⟩ | ⟨-, h⟩
  · exact h1.trans h.2
  · rw [h]; exact h1

theorem collapsed_cycleFree (g : Cfg) : CycleFree (collapsed g) := by
  intro X hX
  have key : ∀ {a b}, UnitChain (collapsed g) a b → UnitChain g.prod a b := by
    intro a b h
    induction h with
    | single h => exact collapsed_chain h
    | tail _ h ih => exact ih.trans (collapsed_chain h)
  obtain ⟨Y, h1, h2⟩ := hX.head
  rcases h2 with rfl | h2
  · exact h1.2 rfl
  have hYX := key h2
  obtain ⟨⟨A, α, hp, hc, rfl, e⟩, hne⟩ := h1
  obtain ⟨B, rfl, rfl⟩ : ∃ B, α = [B] ∧ Y = rep g B := by
    cases α with
    | nil => simp at e
    | cons B α =>
      cases α with
      | nil => exact ⟨B, rfl, by simpa using e⟩
      | cons => simp at e
  refine hc ⟨B, rfl, ?_⟩
  have h1 : UnitChain g.prod B (rep g A) := by
    rcases rep_cases g B with ⟨-, h⟩ | ⟨-, h⟩
    · exact h.2.trans hYX
    · rw [h] at hYX; exact hYX
  rcases rep_cases g A with ⟨-, h⟩ | ⟨-, h⟩
  · exact h1.trans h.1
  · rw [h] at h1; exact h1

end Cycles

end Verif
