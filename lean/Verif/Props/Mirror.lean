import Verif.Props.SameRules

/-! # Property C127: analyses of a reversed grammar mirror those of the grammar -/

namespace Verif

open Cycles BitMatrix

namespace Cfg

theorem reverse_wf {g : Cfg} (hwf : g.WF) : g.reverse.WF := by
  intro r hr
  simp only [Cfg.reverse, List.mem_map] at hr
  obtain ⟨r, hr, rfl⟩ := hr
  exact ⟨(hwf r hr).1, fun s hs => (hwf r hr).2 s (by simpa using hs)⟩

theorem reverse_term (g : Cfg) : g.reverse.Term = g.Term := by
  funext a; exact propext (term_reverse g a)

theorem reverse_lhs (g : Cfg) (A : Sym) :
    (∃ r ∈ g.reverse.rules, r.lhs = A) ↔ ∃ r ∈ g.rules, r.lhs = A := by
  simp [Cfg.reverse]

theorem reverse_direct (g : Cfg) (a b : Sym) :
    (∃ α, g.reverse.prod a α ∧ b ∈ α) ↔ ∃ α, g.prod a α ∧ b ∈ α := by
  constructor
  · rintro ⟨α, h, hb⟩
    exact ⟨_, (prod_reverse g a α).1 h, by simpa using hb⟩
  · rintro ⟨α, h, hb⟩
    exact ⟨α.reverse, (prod_reverse g a _).2 (by simpa using h), by simpa using hb⟩

theorem reverse_reaches (g : Cfg) (a b : Sym) :
    (Reaches g.reverse.prod a b ↔ Reaches g.prod a b) ∧
    (ReachesPlus g.reverse.prod a b ↔ ReachesPlus g.prod a b) := by
  have e : (fun a b => ∃ α, g.reverse.prod a α ∧ b ∈ α) = fun a b => ∃ α, g.prod a α ∧ b ∈ α := by
    funext a b; exact propext (reverse_direct g a b)
  exact ⟨by rw [reaches_iff, reaches_iff, e], by rw [reachesPlus_iff, reachesPlus_iff, e]⟩

theorem reverse_used (g : Cfg) (a : Sym) : g.reverse.Used a ↔ g.Used a := by
  simp [Cfg.Used, Cfg.reverse]

theorem reverse_unit (g : Cfg) : UnitChain g.reverse.prod = UnitChain g.prod := by
  have : UnitStep g.reverse.prod = UnitStep g.prod := by
    funext a b
    unfold UnitStep
    rw [prod_reverse]
    rfl
  unfold UnitChain
  rw [this]

theorem reverse_closedAll (g : Cfg) (S : Sym → Prop) :
    ClosedAll g.reverse.prod S ↔ ClosedAll g.prod S := by
  constructor
  · intro h A α hp hne hall
    exact h A α.reverse ((prod_reverse g A _).2 (by simpa using hp)) (by simpa using hne)
      (by simpa using hall)
  · intro h A α hp hne hall
    exact h A α.reverse ((prod_reverse g A α).1 hp) (by simpa using hne) (by simpa using hall)

theorem reverse_closedAny (g : Cfg) (S : Sym → Prop) :
    ClosedAny g.reverse.prod S ↔ ClosedAny g.prod S := by
  constructor
  · intro h A α hp hall
    exact h A α.reverse ((prod_reverse g A _).2 (by simpa using hp)) (by simpa using hall)
  · intro h A α hp hall
    exact h A α.reverse ((prod_reverse g A α).1 hp) (by simpa using hall)

theorem reverse_lang (g : Cfg) (A : Sym) (w : List Sym) :
    g.reverse.Lang A w ↔ g.Lang A w.reverse := (C18_reverse g A w).2.1

theorem reverse_minLen (g : Cfg) (A : Sym) (m : Nat) : g.reverse.MinLen A m ↔ g.MinLen A m := by
  unfold MinLen
  constructor
  · rintro ⟨⟨w, h1, h2⟩, h3⟩
    exact ⟨⟨w.reverse, (reverse_lang g A w).1 h1, by simpa using h2⟩, fun w h => by
      simpa using h3 w.reverse ((reverse_lang g A _).2 (by simpa using h))⟩
  · rintro ⟨⟨w, h1, h2⟩, h3⟩
    exact ⟨⟨w.reverse, (reverse_lang g A _).2 (by simpa using h1), by simpa using h2⟩, fun w h => by
      simpa using h3 w.reverse ((reverse_lang g A w).1 h)⟩

end Cfg

/-- **C127.** The terminals, the left sides of empty rules, the unused symbols and the sets
propagated to left sides are those of the grammar. -/
theorem C127_sets {g : Cfg} (hwf : g.WF) :
    g.reverse.terminalSymbols = g.terminalSymbols ∧
    g.reverse.nullingSymbols = g.nullingSymbols ∧
    g.reverse.unusedSymbols = g.unusedSymbols ∧
    ∀ b : BitSet, b.length = g.numSyms →
      g.reverse.rhsClosureForAll b = g.rhsClosureForAll b ∧
      g.reverse.rhsClosureForAny b = g.rhsClosureForAny b := by
  have hwf' := Cfg.reverse_wf hwf
  refine ⟨?_, ?_, ?_, fun b hb => ⟨?_, ?_⟩⟩
  · obtain ⟨b, h1, h2, h3⟩ := BitSet.terminal_spec hwf
    obtain ⟨c, k1, k2, k3⟩ := BitSet.terminal_spec hwf'
    have : c = b := ext_has (k2.trans h2.symm) fun s => by rw [h3, k3, Cfg.reverse_term]
    unfold Cfg.terminalSymbols
    rw [h1, k1, this]
  · obtain ⟨b, h1, h2, h3⟩ := C07_nulling g hwf
    obtain ⟨c, k1, k2, k3⟩ := C07_nulling g.reverse hwf'
    have : c = b := ext_has (k2.trans h2.symm) fun s => by
      rw [h3, k3]; exact Cfg.prod_reverse g s []
    rw [h1, k1, this]
  · obtain ⟨b, h1, h2, h3⟩ := BitSet.unused_spec hwf
    obtain ⟨c, k1, k2, k3⟩ := BitSet.unused_spec hwf'
    have : c = b := ext_has (k2.trans h2.symm) fun s => by
      rw [h3, k3, Cfg.reverse_used]; rfl
    unfold Cfg.unusedSymbols
    rw [h1, k1, this]
  · obtain ⟨b₁, r₁, l₁, e₁, c₁, m₁⟩ := rhsClosure_spec (mode := .all) hwf b hb
    obtain ⟨b₂, r₂, l₂, e₂, c₂, m₂⟩ := rhsClosure_spec (mode := .all) hwf' b hb
    simp only [closed_all_iff, Cfg.reverse_closedAll] at c₁ m₁ c₂ m₂
    have : b₂ = b₁ := ext_has (l₂.trans l₁.symm) fun s => ⟨m₂ _ e₁ c₁ s, m₁ _ e₂ c₂ s⟩
    subst this
    exact r₂.trans r₁.symm
  · obtain ⟨b₁, r₁, l₁, e₁, c₁, m₁⟩ := rhsClosure_spec (mode := .any) hwf b hb
    obtain ⟨b₂, r₂, l₂, e₂, c₂, m₂⟩ := rhsClosure_spec (mode := .any) hwf' b hb
    simp only [closed_any_iff, Cfg.reverse_closedAny] at c₁ m₁ c₂ m₂
    have : b₂ = b₁ := ext_has (l₂.trans l₁.symm) fun s => ⟨m₂ _ e₁ c₁ s, m₁ _ e₂ c₂ s⟩
    subst this
    exact r₂.trans r₁.symm

/-- **C127.** The matrices, the usefulness analysis, the answer whether the grammar is cycle free
and the minimal sentence lengths are those of the grammar. -/
theorem C127_analyses {g : Cfg} (hwf : g.WF) :
    g.reverse.directDerivationMatrix = g.directDerivationMatrix ∧
    g.reverse.reachabilityMatrix = g.reachabilityMatrix ∧
    g.reverse.unitDerivationMatrix = g.unitDerivationMatrix ∧
    (∀ roots : List Sym, (∀ s ∈ roots, s < g.numSyms) →
      g.reverse.usefulnessWithRoots roots = g.usefulnessWithRoots roots) ∧
    (∃ b c c' d d', Cycles.new g = .ok c ∧ Cycles.new g.reverse = .ok d ∧
      c.isCycleFree = .ok (b, c') ∧ d.isCycleFree = .ok (b, d')) ∧
    ∀ K, 1 ≤ K → (∀ r ∈ g.rules, r.rhs.length ≤ K) → K ^ (g.numSyms + 1) < 2 ^ 32 →
      g.reverse.minimalSentenceLengths (MinimalDistance.new g.reverse).minLength =
        g.minimalSentenceLengths (MinimalDistance.new g).minLength := by
  have hwf' := Cfg.reverse_wf hwf
  refine ⟨?_, ?_, ?_, fun roots hr => ?_, ?_, fun K hK1 hK hb => ?_⟩
  · obtain ⟨m, h1, h2, h3⟩ := Cfg.directDerivation_spec hwf
    obtain ⟨k, k1, k2, k3⟩ := Cfg.directDerivation_spec hwf'
    rw [h1, k1, square_ext h2 k2 fun a b => by rw [h3, k3, Cfg.reverse_direct]]
  · obtain ⟨m, h1, h2, h3⟩ := Cfg.reachability_spec hwf
    obtain ⟨k, k1, k2, k3⟩ := Cfg.reachability_spec hwf'
    rw [h1, k1, square_ext h2 k2 fun a b => by rw [h3, k3, (Cfg.reverse_reaches g a b).2]]
  · obtain ⟨m, h1, h2, h3⟩ := Cfg.unitDerivation_spec hwf
    obtain ⟨k, k1, k2, k3⟩ := Cfg.unitDerivation_spec hwf'
    rw [h1, k1, square_ext h2 k2 fun a b => by rw [h3, k3, Cfg.reverse_unit]]
  · obtain ⟨u, h1, h2⟩ := usefulness_spec hwf roots hr
    obtain ⟨v, k1, k2⟩ := usefulness_spec hwf' roots hr
    have e1 : v.reachability = u.reachability := square_ext k2.square h2.square
      fun a b => by rw [h2.reach, k2.reach, (Cfg.reverse_reaches g a b).1]; rfl
    have e2 : v.reachableSyms = u.reachableSyms := ext_has (k2.lenR.trans h2.lenR.symm)
      fun s => by
        rw [h2.reachable, k2.reachable, Cfg.reverse_used]
        unfold ReachableFrom
        simp only [(Cfg.reverse_reaches g _ _).1]
        rfl
    have e3 : v.productivity = u.productivity := ext_has (k2.lenP.trans h2.lenP.symm)
      fun s => by
        rw [h2.prod, k2.prod]
        constructor
        · rintro ⟨w, h⟩; exact ⟨w.reverse, (Cfg.reverse_lang g s w).1 h⟩
        · rintro ⟨w, h⟩
          exact ⟨w.reverse, (Cfg.reverse_lang g s _).2 (by rw [List.reverse_reverse]; exact h)⟩
    rw [h1, k1]
    obtain ⟨a, b, c⟩ := u
    obtain ⟨a', b', c'⟩ := v
    simp only at e1 e2 e3
    rw [e1, e2, e3]
  · obtain ⟨c, b, c', h1, h2, h3, -⟩ := C34_cycle_free hwf
    obtain ⟨d, b', d', k1, k2, k3, -⟩ := C34_cycle_free hwf'
    have : b = b' := by
      unfold CycleFree at h3 k3
      rw [Cfg.reverse_unit] at k3
      have := h3.trans k3.symm
      cases b <;> cases b' <;> simp_all
    subst this
    exact ⟨b, c, c', d, d', h1, k1, h2, k2⟩
  · obtain ⟨t, h1, h2, h3, -⟩ := C86_sentence_lengths hwf K hK1 hK hb
    obtain ⟨u, k1, k2, k3, -⟩ := C86_sentence_lengths hwf' K hK1 (fun r hr => by
      simp only [Cfg.reverse, List.mem_map] at hr
      obtain ⟨r, hr, rfl⟩ := hr
      simpa using hK r hr) hb
    have : u = t := by
      apply List.ext_getElem (k2.trans h2.symm)
      intro i i1 i2
      have key : ∀ v, u[i]?.join = some v ↔ t[i]?.join = some v := fun v => by
        rw [h3, k3, Cfg.reverse_minLen]
      rw [List.getElem?_eq_getElem i1, List.getElem?_eq_getElem i2] at key
      exact Option.ext key
    rw [h1, k1, this]

/-- **C127.** The FIRST sets of the reversed grammar are the LAST sets of the grammar and the LAST
sets of the reversed grammar its FIRST sets. -/
theorem C127_predict {g : Cfg} (hwf : g.WF) :
    ∃ fs fs' m m', g.firstSets = .ok fs ∧ g.reverse.firstSets = .ok fs' ∧
      g.lastSets = .ok m ∧ g.reverse.lastSets = .ok m' ∧ fs'.map = m ∧ m' = fs.map := by
  have hwf' := Cfg.reverse_wf hwf
  have key : ∀ g : Cfg, g.WF → g.reverse.WF → ∃ fs' m, g.reverse.firstSets = .ok fs' ∧
      g.lastSets = .ok m ∧ fs'.map = m := by
    intro g hwf hwf'
    obtain ⟨fs', h1, h2, h3⟩ := C41_first hwf'
    obtain ⟨m, k1, k2, k3⟩ := C45_last hwf
    refine ⟨fs', m, h1, k1, setMap_ext (fun A => ?_) fun A v w hv hw => ?_⟩
    · rw [h2, k2, Cfg.reverse_lhs]
    · obtain ⟨v1, v2, v3⟩ := h3 A v hv
      obtain ⟨w1, w2, w3⟩ := k3 A w hw
      refine setVal_ext v1 w1 (fun a => ?_) ?_
      · rw [v2, w2, firstOf_reverse]
      · rw [v3, w3]; exact (C18_reverse g A []).1
  obtain ⟨fs', m, h1, h2, h3⟩ := key g hwf hwf'
  obtain ⟨fs, m', k1, k2, k3⟩ := key g.reverse hwf' (Cfg.reverse_wf hwf')
  rw [Cfg.reverse_reverse] at k1
  exact ⟨fs, fs', m, m', k1, h1, h2, k2, h3, k3.symm⟩

open Classical in
/-- **C127.** The recursive rules of the reversed grammar are those of the grammar, reversed and
in the same order; left and right recursion change places. -/
theorem C127_recursion {g : Cfg} (hwf : g.WF) :
    ∃ l, g.recursiveRules = .ok l ∧
      g.reverse.recursiveRules = .ok (l.map fun p =>
        ({ p.1 with rhs := p.1.rhs.reverse },
          ⟨p.2.right, p.2.middle, p.2.left⟩)) := by
  obtain ⟨l, h1, h2⟩ := C39_recursive hwf
  obtain ⟨l', h3, h4⟩ := C39_kinds hwf
  cases h1.symm.trans h3
  obtain ⟨k, k1, k2⟩ := C39_recursive (Cfg.reverse_wf hwf)
  obtain ⟨k', k3, k4⟩ := C39_kinds (Cfg.reverse_wf hwf)
  cases k1.symm.trans k3
  refine ⟨l, h1, ?_⟩
  rw [k1]
  have hm : k.map (·.1) = l.map fun p => { p.1 with rhs := p.1.rhs.reverse } := by
    have : (l.map fun p => { p.1 with rhs := p.1.rhs.reverse }) =
        (l.map (·.1)).map fun r => { r with rhs := r.rhs.reverse } := by simp
    rw [this, h2, k2]
    show List.filter _ (g.rules.map _) = _
    rw [List.filter_map]
    congr 1
    apply List.filter_congr
    intro r _
    simp only [Function.comp, List.mem_reverse, (Cfg.reverse_reaches g _ _).1]
  have hlen : k.length = l.length := by simpa using congrArg List.length hm
  have f : ∀ {x y : Bool}, (x = true ↔ y = true) → x = y := by
    intro x y h; cases x <;> cases y <;> simp_all
  refine congrArg Res.ok (List.ext_getElem (by simpa using hlen) fun i i1 i2 => ?_)
  rw [List.getElem_map]
  have il : i < l.length := by simpa using i2
  have hi : k[i].1 = { l[i].1 with rhs := l[i].1.rhs.reverse } := by
    have := congrArg (fun x : List CfgRule => x[i]?) hm
    simpa [List.getElem?_eq_getElem i1, List.getElem?_eq_getElem il] using this
  obtain ⟨-, p1, p2, p3⟩ := h4 l[i] (List.getElem_mem il)
  obtain ⟨-, q1, q2, q3⟩ := k4 k[i] (List.getElem_mem i1)
  generalize k[i] = q at *
  generalize l[i] = p at *
  obtain ⟨pr, a, c, b⟩ := p
  obtain ⟨qr, a', c', b'⟩ := q
  simp only at hi p1 p2 p3 q1 q2 q3 ⊢
  subst hi
  simp only [(Cfg.reverse_reaches g _ _).1] at q1 q2 q3
  have e1 : a' = b := f (by
    rw [q1, p2]
    constructor
    · rintro ⟨s, α, e, h⟩
      exact ⟨s, α.reverse, by rw [← List.reverse_reverse pr.rhs, e]; simp, h⟩
    · rintro ⟨s, α, e, h⟩
      exact ⟨s, α.reverse, by rw [e]; simp, h⟩)
  have e2 : b' = a := f (by
    rw [q2, p1]
    constructor
    · rintro ⟨s, α, e, h⟩
      exact ⟨s, α.reverse, by rw [← List.reverse_reverse pr.rhs, e]; simp, h⟩
    · rintro ⟨s, α, e, h⟩
      exact ⟨s, α.reverse, by rw [e]; simp, h⟩)
  have e3 : c' = c := f (by
    rw [q3, p3]
    constructor
    · rintro ⟨x, α, s, β, y, e, h⟩
      exact ⟨y, β.reverse, s, α.reverse, x, by rw [← List.reverse_reverse pr.rhs, e]; simp, h⟩
    · rintro ⟨x, α, s, β, y, e, h⟩
      exact ⟨y, β.reverse, s, α.reverse, x, by rw [e]; simp, h⟩)
  rw [e1, e2, e3]

example : exRec.WF ∧ exRec.reverse.rules.map (·.rhs) ≠ exRec.rules.map (·.rhs) ∧
    (∀ r ∈ exRec.rules, r.rhs.length ≤ 3) ∧ 3 ^ (exRec.numSyms + 1) < 2 ^ 32 := by decide +kernel

example :
    (fun l => l.map fun p => (p.1.lhs, p.1.rhs, p.2.left, p.2.right)) <$> exRec.recursiveRules =
      .ok [(0, [1, 4, 0], false, true), (1, [3, 2], false, true), (2, [1, 6], true, false)] ∧
    (fun l => l.map fun p => (p.1.lhs, p.1.rhs, p.2.left, p.2.right)) <$>
      exRec.reverse.recursiveRules =
      .ok [(0, [0, 4, 1], true, false), (1, [2, 3], true, false), (2, [6, 1], false, true)] := by
  decide +kernel

end Verif
