import Verif.Props.Sets
import Verif.Props.Useful
import Verif.Props.Cycles
import Verif.Props.Recursion
import Verif.Props.Predict
import Verif.Props.Distance
import Verif.Props.Basic

/-! # Property C121: analyses depend on the set of rules only -/

namespace Verif

open Cycles BitMatrix

/-- The grammars have as many symbols and the same rules, in any order, with any repetitions,
histories and names. -/
structure Cfg.SameRules (g h : Cfg) : Prop where
  syms : g.numSyms = h.numSyms
  prods : ∀ A α, g.prod A α ↔ h.prod A α

namespace Cfg.SameRules

variable {g h : Cfg}

theorem prod_eq (e : g.SameRules h) : g.prod = h.prod := by
  funext A α; exact propext (e.prods A α)

theorem lhs (e : g.SameRules h) (A : Sym) : (∃ r ∈ g.rules, r.lhs = A) ↔ ∃ r ∈ h.rules, r.lhs = A := by
  constructor
  · rintro ⟨r, hr, rfl⟩
    obtain ⟨s, hs, e1, -⟩ := (e.prods _ _).1 ⟨r, hr, rfl, rfl⟩
    exact ⟨s, hs, e1⟩
  · rintro ⟨r, hr, rfl⟩
    obtain ⟨s, hs, e1, -⟩ := (e.prods _ _).2 ⟨r, hr, rfl, rfl⟩
    exact ⟨s, hs, e1⟩

theorem term_eq (e : g.SameRules h) : g.Term = h.Term := by
  funext a
  apply propext
  unfold Cfg.Term
  have := e.lhs a
  rw [e.syms]
  refine and_congr_right fun _ => ⟨fun k r hr hl => ?_, fun k r hr hl => ?_⟩
  · obtain ⟨s, hs, e1⟩ := this.2 ⟨r, hr, hl⟩; exact k s hs e1
  · obtain ⟨s, hs, e1⟩ := this.1 ⟨r, hr, hl⟩; exact k s hs e1

theorem wf (e : g.SameRules h) (hwf : g.WF) : h.WF := by
  intro r hr
  obtain ⟨s, hs, e1, e2⟩ := (e.prods _ _).2 ⟨r, hr, rfl, rfl⟩
  rw [← e.syms, ← e1, ← e2]
  exact hwf s hs

theorem used (e : g.SameRules h) (a : Sym) : g.Used a ↔ h.Used a := by
  constructor
  · rintro ⟨r, hr, ha⟩
    obtain ⟨s, hs, e1, e2⟩ := (e.prods _ _).1 ⟨r, hr, rfl, rfl⟩
    exact ⟨s, hs, by rw [e1, e2]; exact ha⟩
  · rintro ⟨r, hr, ha⟩
    obtain ⟨s, hs, e1, e2⟩ := (e.prods _ _).2 ⟨r, hr, rfl, rfl⟩
    exact ⟨s, hs, by rw [e1, e2]; exact ha⟩

end Cfg.SameRules

theorem square_ext {n : Nat} {m k : BitMatrix} (hm : Square n m) (hk : Square n k)
    (h : ∀ a b, Bit m a b ↔ Bit k a b) : m = k := by
  apply List.ext_getElem (hm.1.trans hk.1.symm)
  intro i h1 h2
  refine ext_has ((hm.2 _ (List.getElem_mem h1)).trans (hk.2 _ (List.getElem_mem h2)).symm)
    fun s => ?_
  have := h i s
  unfold Bit at this
  rw [List.getElem?_eq_getElem h1, List.getElem?_eq_getElem h2] at this
  simpa [Has] using this

/-- **C121.** Symbol sets: the terminals, the left sides of empty rules, the unused symbols and, by
`C10_order_independent`, all sets propagated from them. -/
theorem C121_sets {g h : Cfg} (hwf : g.WF) (e : g.SameRules h) :
    g.terminalSymbols = h.terminalSymbols ∧ g.nullingSymbols = h.nullingSymbols ∧
    g.unusedSymbols = h.unusedSymbols ∧
    ∀ b : BitSet, b.length = g.numSyms → g.rhsClosureForAll b = h.rhsClosureForAll b ∧
      g.rhsClosureForAny b = h.rhsClosureForAny b := by
  have hwf' := e.wf hwf
  refine ⟨?_, ?_, ?_, fun b hb => ⟨?_, ?_⟩⟩
  · obtain ⟨b, h1, h2, h3⟩ := BitSet.terminal_spec hwf
    obtain ⟨c, k1, k2, k3⟩ := BitSet.terminal_spec hwf'
    have : b = c := ext_has (by rw [h2, k2, e.syms]) fun s => by rw [h3, k3, e.term_eq]
    unfold Cfg.terminalSymbols
    rw [h1, k1, this]
  · obtain ⟨b, h1, h2, h3⟩ := C07_nulling g hwf
    obtain ⟨c, k1, k2, k3⟩ := C07_nulling h hwf'
    have : b = c := ext_has (by rw [h2, k2, e.syms]) fun s => by
      rw [h3, k3]; exact e.prods s []
    rw [h1, k1, this]
  · obtain ⟨b, h1, h2, h3⟩ := BitSet.unused_spec hwf
    obtain ⟨c, k1, k2, k3⟩ := BitSet.unused_spec hwf'
    have : b = c := ext_has (by rw [h2, k2, e.syms]) fun s => by rw [h3, k3, e.syms, e.used]
    unfold Cfg.unusedSymbols
    rw [h1, k1, this]
  · obtain ⟨b', h1, h2⟩ := C10_order_independent g h hwf hwf' e.syms e.prods .all b hb
    exact h1.trans h2.symm
  · obtain ⟨b', h1, h2⟩ := C10_order_independent g h hwf hwf' e.syms e.prods .any b hb
    exact h1.trans h2.symm

theorem setVal_ext {v w : SetVal} (hv : v.list.Pairwise (· < ·)) (hw : w.list.Pairwise (· < ·))
    (hl : ∀ a, a ∈ v.list ↔ a ∈ w.list) (hn : v.hasNone = true ↔ w.hasNone = true) : v = w := by
  obtain ⟨vn, vl⟩ := v
  obtain ⟨wn, wl⟩ := w
  simp only at hv hw hl hn
  have e1 : vn = wn := by cases vn <;> cases wn <;> simp_all
  have e2 : vl = wl := by
    refine List.Perm.eq_of_pairwise (le := (· < ·)) (fun a b _ _ h1 h2 => by omega) hv hw ?_
    refine (List.perm_ext_iff_of_nodup ?_ ?_).2 hl
    · exact hv.imp fun h => by omega
    · exact hw.imp fun h => by omega
  rw [e1, e2]

theorem setMap_ext {m k : SetMap} (h1 : ∀ A, (m A).isSome = true ↔ (k A).isSome = true)
    (h2 : ∀ A v w, m A = some v → k A = some w → v = w) : m = k := by
  funext A
  have := h1 A
  cases e1 : m A with
  | none =>
    cases e2 : k A with
    | none => rfl
    | some w => rw [e1, e2] at this; simp at this
  | some v =>
    cases e2 : k A with
    | none => rw [e1, e2] at this; simp at this
    | some w => rw [h2 A v w e1 e2]

/-- **C121.** FIRST and LAST sets, and with the same roots FOLLOW sets. -/
theorem C121_predict {g h : Cfg} (hwf : g.WF) (e : g.SameRules h) :
    (∃ fs fs', g.firstSets = .ok fs ∧ h.firstSets = .ok fs' ∧ fs.map = fs'.map) ∧
    g.lastSets = h.lastSets ∧
    ((∀ A, A ∈ g.roots ↔ A ∈ h.roots) → g.followSets = h.followSets) := by
  have hwf' := e.wf hwf
  refine ⟨?_, ?_, fun hr => ?_⟩
  · obtain ⟨fs, h1, h2, h3⟩ := C41_first hwf
    obtain ⟨fs', k1, k2, k3⟩ := C41_first hwf'
    refine ⟨fs, fs', h1, k1, setMap_ext (fun A => ?_) fun A v w hv hw => ?_⟩
    · rw [h2, k2]; exact e.lhs A
    · obtain ⟨v1, v2, v3⟩ := h3 A v hv
      obtain ⟨w1, w2, w3⟩ := k3 A w hw
      rw [← e.prod_eq, ← e.term_eq] at w2
      rw [← e.prod_eq] at w3
      exact setVal_ext v1 w1 (fun a => (v2 a).trans (w2 a).symm) (v3.trans w3.symm)
  · obtain ⟨m, h1, h2, h3⟩ := C45_last hwf
    obtain ⟨m', k1, k2, k3⟩ := C45_last hwf'
    have : m = m' := by
      refine setMap_ext (fun A => ?_) fun A v w hv hw => ?_
      · rw [h2, k2]; exact e.lhs A
      · obtain ⟨v1, v2, v3⟩ := h3 A v hv
        obtain ⟨w1, w2, w3⟩ := k3 A w hw
        rw [← e.prod_eq, ← e.term_eq] at w2
        rw [← e.prod_eq] at w3
        exact setVal_ext v1 w1 (fun a => (v2 a).trans (w2 a).symm) (v3.trans w3.symm)
    rw [h1, k1, this]
  · obtain ⟨fs, h1, h2⟩ := firstSets_spec hwf
    obtain ⟨m, h3, h4⟩ := followSets_spec hwf h2
    obtain ⟨fs', k1, k2⟩ := firstSets_spec hwf'
    obtain ⟨m', k3, k4⟩ := followSets_spec hwf' k2
    have : m = m' := by
      refine setMap_ext (fun A => ?_) fun A v w hv hw => ?_
      · rw [h4.keys, k4.keys]; exact e.lhs A
      · have ev : m.val A = v := by simp [SetMap.val, hv]
        have ew : m'.val A = w := by simp [SetMap.val, hw]
        have hA := (h4.keys A).1 (by rw [hv]; rfl)
        have hA' := (k4.keys A).1 (by rw [hw]; rfl)
        subst ev ew
        refine setVal_ext (h4.sorted A) (k4.sorted A) (fun a => ?_) ?_
        · rw [h4.follow A hA, k4.follow A hA', e.prod_eq, e.term_eq]
        · rw [h4.root, k4.root, hr, e.lhs]
    unfold Cfg.followSets
    rw [h1, k1, Res.bind_ok, Res.bind_ok, h3, k3, this]

/-- **C121.** The matrices of direct derivation, reachability and chains of one-symbol rules. -/
theorem C121_matrices {g h : Cfg} (hwf : g.WF) (e : g.SameRules h) :
    g.directDerivationMatrix = h.directDerivationMatrix ∧
    g.reachabilityMatrix = h.reachabilityMatrix ∧
    g.unitDerivationMatrix = h.unitDerivationMatrix := by
  have hwf' := e.wf hwf
  refine ⟨?_, ?_, ?_⟩
  · obtain ⟨m, h1, h2, h3⟩ := Cfg.directDerivation_spec hwf
    obtain ⟨k, k1, k2, k3⟩ := Cfg.directDerivation_spec hwf'
    rw [h1, k1, square_ext h2 (e.syms ▸ k2) fun a b => by rw [h3, k3, e.prod_eq]]
  · obtain ⟨m, h1, h2, h3⟩ := Cfg.reachability_spec hwf
    obtain ⟨k, k1, k2, k3⟩ := Cfg.reachability_spec hwf'
    rw [h1, k1, square_ext h2 (e.syms ▸ k2) fun a b => by rw [h3, k3, e.prod_eq]]
  · obtain ⟨m, h1, h2, h3⟩ := Cfg.unitDerivation_spec hwf
    obtain ⟨k, k1, k2, k3⟩ := Cfg.unitDerivation_spec hwf'
    rw [h1, k1, square_ext h2 (e.syms ▸ k2) fun a b => by rw [h3, k3, e.prod_eq]]

/-- **C121.** The whole usefulness analysis, for any roots. -/
theorem C121_usefulness {g h : Cfg} (hwf : g.WF) (e : g.SameRules h) (roots : List Sym)
    (hr : ∀ s ∈ roots, s < g.numSyms) :
    g.usefulnessWithRoots roots = h.usefulnessWithRoots roots := by
  obtain ⟨u, h1, h2⟩ := usefulness_spec hwf roots hr
  obtain ⟨v, k1, k2⟩ := usefulness_spec (e.wf hwf) roots (e.syms ▸ hr)
  have e1 : u.reachability = v.reachability := square_ext h2.square (e.syms ▸ k2.square)
    fun a b => by rw [h2.reach, k2.reach, e.syms, e.prod_eq]
  have e2 : u.reachableSyms = v.reachableSyms := ext_has (by rw [h2.lenR, k2.lenR, e.syms])
    fun s => by rw [h2.reachable, k2.reachable, e.syms, e.prod_eq, e.used]
  have e3 : u.productivity = v.productivity := ext_has (by rw [h2.lenP, k2.lenP, e.syms])
    fun s => by rw [h2.prod, k2.prod, e.prod_eq, e.term_eq]
  rw [h1, k1]
  obtain ⟨a, b, c⟩ := u
  obtain ⟨a', b', c'⟩ := v
  simp only at e1 e2 e3
  rw [e1, e2, e3]

/-- **C121.** The answer whether a grammar is cycle free. -/
theorem C121_cycle_free {g h : Cfg} (hwf : g.WF) (e : g.SameRules h) :
    ∃ b c c' d d', Cycles.new g = .ok c ∧ Cycles.new h = .ok d ∧
      c.isCycleFree = .ok (b, c') ∧ d.isCycleFree = .ok (b, d') := by
  obtain ⟨c, b, c', h1, h2, h3, -⟩ := C34_cycle_free hwf
  obtain ⟨d, b', d', k1, k2, k3, -⟩ := C34_cycle_free (e.wf hwf)
  rw [← e.prod_eq] at k3
  have : b = b' := by
    have := h3.trans k3.symm
    cases b <;> cases b' <;> simp_all
  subst this
  exact ⟨b, c, c', d, d', h1, k1, h2, k2⟩

/-- **C121.** The kinds of recursion listed for the same rule. -/
theorem C121_recursion {g h : Cfg} (hwf : g.WF) (e : g.SameRules h) :
    ∃ l k, g.recursiveRules = .ok l ∧ h.recursiveRules = .ok k ∧
      (∀ A α, (∃ p ∈ l, p.1.lhs = A ∧ p.1.rhs = α) ↔ ∃ p ∈ k, p.1.lhs = A ∧ p.1.rhs = α) ∧
      ∀ p ∈ l, ∀ q ∈ k, p.1.lhs = q.1.lhs → p.1.rhs = q.1.rhs → p.2 = q.2 := by
  classical
  obtain ⟨l, h1, h2⟩ := C39_recursive hwf
  obtain ⟨k, k1, k2⟩ := C39_recursive (e.wf hwf)
  obtain ⟨l', h3, h4⟩ := C39_kinds hwf
  obtain ⟨k', k3, k4⟩ := C39_kinds (e.wf hwf)
  cases h1.symm.trans h3
  cases k1.symm.trans k3
  refine ⟨l, k, h1, k1, fun A α => ?_, fun p hp q hq el er => ?_⟩
  · have key : ∀ (g : Cfg) (l : List (CfgRule × RecursionKind)),
        l.map (·.1) = (g.rules.filter fun r => ∃ s ∈ r.rhs, Reaches g.prod s r.lhs) →
        ((∃ p ∈ l, p.1.lhs = A ∧ p.1.rhs = α) ↔ g.prod A α ∧ ∃ s ∈ α, Reaches g.prod s A) := by
      intro g l hl
      have : (∃ p ∈ l, p.1.lhs = A ∧ p.1.rhs = α) ↔ ∃ r ∈ l.map (·.1), r.lhs = A ∧ r.rhs = α := by
        simp
      rw [this, hl]
      constructor
      · rintro ⟨r, hr, rfl, rfl⟩
        obtain ⟨a, b⟩ := List.mem_filter.1 hr
        exact ⟨⟨r, a, rfl, rfl⟩, of_decide_eq_true b⟩
      · rintro ⟨⟨r, hr, rfl, rfl⟩, b⟩
        exact ⟨r, List.mem_filter.2 ⟨hr, decide_eq_true b⟩, rfl, rfl⟩
    rw [key g l h2, key h k k2, e.prod_eq]
  · obtain ⟨-, p1, p2, p3⟩ := h4 p hp
    obtain ⟨-, q1, q2, q3⟩ := k4 q hq
    rw [el, er, e.prod_eq] at p1 p2 p3
    obtain ⟨pr, ⟨a, b, c⟩⟩ := p
    obtain ⟨qr, ⟨a', b', c'⟩⟩ := q
    simp only at p1 p2 p3 q1 q2 q3 ⊢
    have f : ∀ {x y : Bool}, (x = true ↔ y = true) → x = y := by
      intro x y h; cases x <;> cases y <;> simp_all
    rw [f (p1.trans q1.symm), f (p2.trans q2.symm), f (p3.trans q3.symm)]

/-- **C121.** Minimal sentence lengths, in the range where they do not overflow. -/
theorem C121_lengths {g h : Cfg} (hwf : g.WF) (e : g.SameRules h) (K : Nat) (hK1 : 1 ≤ K)
    (hK : ∀ r ∈ g.rules, r.rhs.length ≤ K) (hb : K ^ (g.numSyms + 1) < 2 ^ 32) :
    g.minimalSentenceLengths (MinimalDistance.new g).minLength =
      h.minimalSentenceLengths (MinimalDistance.new h).minLength := by
  obtain ⟨t, h1, h2, h3, -⟩ := C86_sentence_lengths hwf K hK1 hK hb
  obtain ⟨u, k1, k2, k3, -⟩ := C86_sentence_lengths (e.wf hwf) K hK1 (fun r hr => by
    obtain ⟨s, hs, e1, e2⟩ := (e.prods _ _).2 ⟨r, hr, rfl, rfl⟩
    rw [← e2]; exact hK s hs) (e.syms ▸ hb)
  have : t = u := by
    apply List.ext_getElem (by rw [h2, k2, e.syms])
    intro i i1 i2
    have key : ∀ v, t[i]?.join = some v ↔ u[i]?.join = some v := fun v => by
      rw [h3, k3]
      unfold Cfg.MinLen Cfg.Lang
      rw [e.prod_eq, e.term_eq]
    rw [List.getElem?_eq_getElem i1, List.getElem?_eq_getElem i2] at key
    exact Option.ext key
  rw [h1, k1, this]

/-- Sorting and removing repeated rules gives a grammar with the same rules; so all the analyses
above are the same before and after. -/
theorem C121_sort_dedup (g : Cfg) : g.SameRules g.sort ∧ g.SameRules g.dedup ∧
    g.SameRules g.sort.dedup :=
  ⟨⟨rfl, fun A α => by
      unfold Cfg.prod; simp only [(C19_sort g).1.mem_iff]⟩,
    ⟨rfl, fun A α => ((C19_dedup g).2.1 A α).symm⟩,
    ⟨rfl, fun A α => ((C19_dedup g).2.2.2.2.1 A α).symm⟩⟩

/-- `S ::= A b | A b`, `A ::= a | A a |`, with a repeated rule and not in order. -/
def exSame : Cfg :=
  { src := ⟨4, [none, none, none, none]⟩
    rules := [⟨1, [2], {}⟩, ⟨0, [1, 3], {}⟩, ⟨1, [1, 2], {}⟩, ⟨0, [1, 3], {}⟩, ⟨1, [], {}⟩], roots := [0] }

example : exSame.WF ∧ (∀ r ∈ exSame.rules, r.rhs.length ≤ 2) ∧ 2 ^ (exSame.numSyms + 1) < 2 ^ 32 ∧
    exSame.dedup.rules.length = 5 := by decide +kernel

example : exSame.SameRules { exSame with rules :=
    [⟨0, [1, 3], {}⟩, ⟨1, [], {}⟩, ⟨1, [1, 2], {}⟩, ⟨1, [2], {}⟩] } := by
  refine ⟨rfl, fun A α => ?_⟩
  unfold Cfg.prod
  constructor <;> rintro ⟨r, hr, e⟩ <;> refine ⟨r, ?_, e⟩ <;>
    simp only [exSame, List.mem_cons, List.not_mem_nil, or_false] at hr ⊢ <;> tauto

end Verif
