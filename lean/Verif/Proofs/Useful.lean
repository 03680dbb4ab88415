import Verif.Model.Classify
import Verif.Spec.Useful
import Verif.Proofs.Matrix
import Verif.Proofs.Closure
import Verif.Proofs.Nulling
import Verif.Proofs.Basic

/-! # Helper lemmas on usefulness -/

namespace Verif

open BitMatrix

theorem reaches_iff_plus {P : Productions} {a b : Sym} :
    Reaches P a b ↔ ReachesPlus P a b ∨ a = b := by
  rw [reaches_iff, reachesPlus_iff, Relation.reflTransGen_iff_eq_or_transGen, or_comm, eq_comm]

theorem Reaches.refl {P : Productions} (a : Sym) : Reaches P a a := ⟨[], [], .refl⟩

theorem Reaches.tail {P : Productions} {a b c : Sym} {α : List Sym} (h : Reaches P a b)
    (hp : P b α) (hc : c ∈ α) : Reaches P a c := by
  rw [reaches_iff] at h ⊢
  exact h.tail ⟨α, hp, hc⟩

theorem Reaches.trans {P : Productions} {a b c : Sym} (h : Reaches P a b)
    (h' : Reaches P b c) : Reaches P a c := by
  rw [reaches_iff] at h h' ⊢
  exact h.trans h'

theorem Reaches.mono {P Q : Productions} (H : ∀ A α, P A α → Q A α) {a b : Sym}
    (h : Reaches P a b) : Reaches Q a b := by
  obtain ⟨p, s, d⟩ := h
  exact ⟨p, s, Derives.mono H d⟩

theorem productiveSyms_spec {g : Cfg} (hwf : g.WF) :
    ∃ b, g.productiveSyms = .ok b ∧ b.length = g.numSyms ∧
      ∀ s, Has b s ↔ Productive g.prod g.Term s := by
  obtain ⟨b₁, h1, h2, h3⟩ := BitSet.terminal_spec hwf
  obtain ⟨b₂, h4, h5, h6⟩ := BitSet.nulling_spec hwf b₁ h2
  obtain ⟨b, h7, h8, h9, h10, h11⟩ := rhsClosure_spec (mode := .all) hwf b₂ h5
  refine ⟨b, ?_, h8, ?_⟩
  · rw [Cfg.productiveSyms, h1]
    show (BitSet.nulling b₁ g >>= _) = _
    rw [h4]
    exact h7
  · refine least_productive (I := Has b₂) (fun s => by rw [h6, h3]) ⟨h9, closed_all_iff.1 h10, ?_⟩
    intro S hi hc
    exact h11 S hi (closed_all_iff.2 hc)

/-- What a usefulness analysis knows. -/
structure UsefulInfo (g : Cfg) (roots : List Sym) (u : Usefulness) : Prop where
  square : Square g.numSyms u.reachability
  reach : ∀ a b, Bit u.reachability a b ↔ a < g.numSyms ∧ Reaches g.prod a b
  lenP : u.productivity.length = g.numSyms
  lenR : u.reachableSyms.length = g.numSyms
  prod : ∀ s, Has u.productivity s ↔ Productive g.prod g.Term s
  reachable : ∀ s, Has u.reachableSyms s ↔
    ReachableFrom g.prod roots s ∨ (s < g.numSyms ∧ ¬ g.Used s)

theorem reaches_lt {g : Cfg} (hwf : g.WF) {a b : Sym} (ha : a < g.numSyms)
    (h : Reaches g.prod a b) : b < g.numSyms := by
  rw [reaches_iff] at h
  induction h with
  | refl => exact ha
  | tail _ h _ =>
    obtain ⟨α, ⟨r, hr, rfl, rfl⟩, hb⟩ := h
    exact (hwf r hr).2 _ hb

theorem usefulness_new_spec {g : Cfg} (hwf : g.WF) :
    ∃ u, Usefulness.new g = .ok u ∧ UsefulInfo g [] u := by
  obtain ⟨p, h1, h2, h3⟩ := productiveSyms_spec hwf
  obtain ⟨m, h4, h5, h6⟩ := Cfg.reachability_spec hwf
  obtain ⟨h7, h8⟩ := reflexiveClosure_spec h5
  obtain ⟨un, h9, h10, h11⟩ := BitSet.unused_spec hwf
  obtain ⟨p', h12, h13, h14⟩ := BitSet.union_spec (h2.trans h10.symm)
  obtain ⟨r, h15, h16, h17⟩ := BitSet.union_spec
    (a := BitSet.reset g.src) (b := un) (by rw [h10, BitSet.length_reset]; rfl)
  refine ⟨⟨m.reflexiveClosure, r, p'⟩, ?_, h7, fun a b => ?_, by rw [h13, h2],
    by rw [h16, BitSet.length_reset]; rfl, fun s => ?_, fun s => ?_⟩
  · have e : m.reflexiveClosure.length = p'.length := by rw [h7.1, h13, h2]
    simp [Usefulness.new, h1, h4, h9, h12, h15, e]
  · rw [h8, h6, reaches_iff_plus, and_or_left]
    constructor
    · rintro (h | ⟨h, h'⟩)
      · exact .inl ⟨((h6 a b).2 h |>.lt h5).1, h⟩
      · exact .inr ⟨h', h⟩
    · rintro (⟨-, h⟩ | ⟨h', h⟩)
      · exact .inl h
      · exact .inr ⟨h, h'⟩
  · rw [h14, h3, h11]
    constructor
    · rintro (h | ⟨h, hu⟩)
      · exact h
      · refine ⟨[s], .refl, fun a ha => ?_⟩
        rw [List.mem_singleton.1 ha]
        exact ⟨h, fun r hr e => hu ⟨r, hr, .inl e⟩⟩
    · exact .inl
  · rw [h17, h11, Has, BitSet.getElem?_reset]
    have : ¬ (if s < g.src.numSyms then some false else none) = some true := by
      split <;> simp
    simp [this, ReachableFrom]

theorem UsefulInfo.fold {g : Cfg} (hwf : g.WF) {u : Usefulness} (syms : List Sym)
    (roots : List Sym) (hs : ∀ s ∈ syms, s < g.numSyms) (h : UsefulInfo g roots u) :
    ∃ b, syms.foldlM (fun b sym => do
      let derived ← u.reachability.iterRowSyms sym
      BitSet.setMany b derived true) u.reachableSyms = .ok b ∧
      UsefulInfo g (roots ++ syms) { u with reachableSyms := b } := by
  induction syms generalizing u roots with
  | nil => exact ⟨_, rfl, by simpa using h⟩
  | cons s syms ih =>
    have hs0 := hs s (by simp)
    obtain ⟨l, h1, h2⟩ := Cfg.iterRowSyms_spec h.square hs0
    obtain ⟨b, h3, h4, h5⟩ := BitSet.setMany_spec true l u.reachableSyms (by
      intro t ht
      rw [h.lenR]
      exact reaches_lt hwf hs0 ((h.reach s t).1 ((h2 t).1 ht)).2)
    have hb : UsefulInfo g (roots ++ [s]) { u with reachableSyms := b } := by
      refine ⟨h.square, h.reach, h.lenP, h4.trans h.lenR, h.prod, fun t => ?_⟩
      have : Has b t ↔ t ∈ l ∨ Has u.reachableSyms t := by
        unfold Has
        rw [h5 t]
        by_cases e : t ∈ l <;> simp [e]
      show Has b t ↔ _
      rw [this, h2, h.reach, h.reachable]
      simp only [ReachableFrom, List.mem_append, List.mem_singleton, or_and_right, exists_or,
        exists_eq_left, hs0, true_and]
      rw [← or_assoc, or_comm (a := Reaches g.prod s t)]
    obtain ⟨b', h6, h7⟩ := ih (roots ++ [s]) (fun s hs' => hs s (by simp [hs'])) hb
    refine ⟨b', ?_, by simpa using h7⟩
    rw [List.foldlM_cons]
    show ((do let derived ← u.reachability.iterRowSyms s; BitSet.setMany _ derived true) >>= _) = _
    rw [h1]
    show (BitSet.setMany _ l true >>= _) = _
    rw [h3]
    exact h6

theorem usefulness_spec {g : Cfg} (hwf : g.WF) (roots : List Sym)
    (hr : ∀ s ∈ roots, s < g.numSyms) :
    ∃ u, g.usefulnessWithRoots roots = .ok u ∧ UsefulInfo g roots u := by
  obtain ⟨u, h1, h2⟩ := usefulness_new_spec hwf
  obtain ⟨b, h3, h4⟩ := h2.fold hwf roots [] hr
  refine ⟨_, ?_, by simpa using h4⟩
  rw [Cfg.usefulnessWithRoots, h1]
  show u.reachable roots = _
  rw [Usefulness.reachable, h3]
  rfl

theorem all_iff {b : BitSet} : BitSet.all b = true ↔ ∀ s, s < b.length → Has b s := by
  unfold BitSet.all Has
  rw [List.all_eq_true]
  constructor
  · intro h s hs
    rw [List.getElem?_eq_getElem hs]
    simpa using h _ (List.getElem_mem hs)
  · intro h x hx
    obtain ⟨i, hi, rfl⟩ := List.getElem_of_mem hx
    have := h i hi
    rw [List.getElem?_eq_getElem hi] at this
    simpa using this

section
variable {g : Cfg} {roots : List Sym} {u : Usefulness}

/-- The reachable bit of a rule's left side. -/
theorem UsefulInfo.reachable_lhs (h : UsefulInfo g roots u) {r : CfgRule} (hr : r ∈ g.rules) :
    Has u.reachableSyms r.lhs ↔ ReachableFrom g.prod roots r.lhs := by
  rw [h.reachable]
  exact ⟨fun h => h.elim id fun h => (h.2 ⟨r, hr, .inl rfl⟩).elim, .inl⟩

theorem UsefulInfo.satAll (hwf : g.WF) (h : UsefulInfo g roots u) {r : CfgRule}
    (hr : r ∈ g.rules) : ∃ v, rhsSatisfies .all u.productivity r.rhs = .ok v ∧
      (v = true ↔ ∀ s ∈ r.rhs, Productive g.prod g.Term s) := by
  obtain ⟨v, h1, h2⟩ := rhsSatisfies_spec .all u.productivity r.rhs (by
    rw [h.lenP]; exact (hwf r hr).2)
  refine ⟨v, h1, h2.trans ?_⟩
  exact forall₂_congr fun s _ => h.prod s

theorem UsefulInfo.getLhs (hwf : g.WF) (h : UsefulInfo g roots u) {r : CfgRule}
    (hr : r ∈ g.rules) : ∃ v, BitSet.get u.reachableSyms r.lhs = .ok v ∧
      (v = true ↔ ReachableFrom g.prod roots r.lhs) := by
  refine ⟨_, get_has (by rw [h.lenR]; exact (hwf r hr).1), ?_⟩
  rw [decide_eq_true_iff, h.reachable_lhs hr]

theorem UsefulInfo.uselessRules (hwf : g.WF) (h : UsefulInfo g roots u) (rules : List CfgRule)
    (hr : ∀ r ∈ rules, r ∈ g.rules) :
    ∃ l, u.uselessRules rules = .ok l ∧ ∀ r, r ∈ l ↔ r ∈ rules ∧
      ¬ UsefulRule g.prod g.Term roots r.lhs r.rhs := by
  induction rules with
  | nil => exact ⟨[], rfl, by simp⟩
  | cons r rules ih =>
    obtain ⟨l, h1, h2⟩ := ih fun r h => hr r (by simp [h])
    obtain ⟨v, h3, h4⟩ := h.satAll hwf (hr r (by simp))
    obtain ⟨v', h5, h6⟩ := h.getLhs hwf (hr r (by simp))
    refine ⟨_, by simp [Usefulness.uselessRules, Usefulness.usefulness, h1, h3, h5]; rfl, ?_⟩
    intro x
    have hv : (v' && v) = true ↔ UsefulRule g.prod g.Term roots r.lhs r.rhs := by
      rw [Bool.and_eq_true, h4, h6]; rfl
    cases e : (v' && v)
    · have : ¬ UsefulRule g.prod g.Term roots r.lhs r.rhs := by rw [← hv, e]; simp
      have e' : Usefulness.RuleUsefulness.isUseless ⟨v', v⟩ = true := by
        cases v' <;> cases v <;> simp_all [Usefulness.RuleUsefulness.isUseless]
      simp only [e', if_true, List.mem_cons, h2]
      constructor
      · rintro (rfl | ⟨h, h'⟩)
        · exact ⟨.inl rfl, this⟩
        · exact ⟨.inr h, h'⟩
      · rintro ⟨rfl | h, h'⟩
        · exact .inl rfl
        · exact .inr ⟨h, h'⟩
    · have hU := hv.1 e
      have e' : Usefulness.RuleUsefulness.isUseless ⟨v', v⟩ = false := by
        cases v' <;> cases v <;> simp_all [Usefulness.RuleUsefulness.isUseless]
      simp only [e', Bool.false_eq_true, if_false, List.mem_cons, h2]
      constructor
      · rintro ⟨h, h'⟩; exact ⟨.inr h, h'⟩
      · rintro ⟨rfl | h, h'⟩
        · exact (h' hU).elim
        · exact ⟨h, h'⟩

open Classical in
theorem UsefulInfo.retain (hwf : g.WF) (h : UsefulInfo g roots u) (rules : List CfgRule)
    (hr : ∀ r ∈ rules, r ∈ g.rules) :
    u.retainUseful rules = .ok (rules.filter fun r =>
      decide (UsefulRule g.prod g.Term roots r.lhs r.rhs)) := by
  induction rules with
  | nil => rfl
  | cons r rules ih =>
    have h1 := ih fun r h => hr r (by simp [h])
    obtain ⟨v, h3, h4⟩ := h.satAll hwf (hr r (by simp))
    obtain ⟨v', h5, h6⟩ := h.getLhs hwf (hr r (by simp))
    have hv : (v && v') = decide (UsefulRule g.prod g.Term roots r.lhs r.rhs) := by
      rw [Bool.eq_iff_iff, Bool.and_eq_true, h4, h6, decide_eq_true_iff, and_comm]; rfl
    simp only [Usefulness.retainUseful, h1, h3, h5, Res.bind_ok, List.filter_cons, hv]

/-- `all_useful` on symbols agrees with all rules being useful. -/
theorem UsefulInfo.allUseful (hwf : g.WF) (h : UsefulInfo g roots u) :
    u.allUseful = true ↔ ∀ r ∈ g.rules, UsefulRule g.prod g.Term roots r.lhs r.rhs := by
  rw [Usefulness.allUseful, Bool.and_eq_true, all_iff, all_iff, h.lenP, h.lenR]
  constructor
  · rintro ⟨h1, h2⟩ r hr
    exact ⟨(h.reachable_lhs hr).1 (h2 _ (hwf r hr).1),
      fun s hs => (h.prod s).1 (h1 s ((hwf r hr).2 s hs))⟩
  · intro hU
    constructor
    · intro s hs
      rw [h.prod]
      by_cases hl : ∃ r ∈ g.rules, r.lhs = s
      · obtain ⟨r, hr, rfl⟩ := hl
        exact productive_closed ⟨r, hr, rfl, rfl⟩ (hU r hr).2
      · refine ⟨[s], .refl, fun a ha => ?_⟩
        rw [List.mem_singleton.1 ha]
        exact ⟨hs, fun r hr e => hl ⟨r, hr, e⟩⟩
    · intro s hs
      rw [h.reachable]
      by_cases hu : g.Used s
      · left
        obtain ⟨r, hr, rfl | hs⟩ := hu
        · exact (hU r hr).1
        · obtain ⟨root, h1, h2⟩ := (hU r hr).1
          exact ⟨root, h1, h2.tail ⟨r, hr, rfl, rfl⟩ hs⟩
      · exact .inr ⟨hs, hu⟩

open Classical in
/-- The effect of `remove_useless_rules`: the useful rules stay. -/
theorem UsefulInfo.remove (hwf : g.WF) (h : UsefulInfo g roots u) :
    u.removeUselessRules g = .ok { g with
      rules := g.rules.filter fun r => decide (UsefulRule g.prod g.Term roots r.lhs r.rhs) } := by
  rw [Usefulness.removeUselessRules]
  by_cases e : u.allUseful = true
  · rw [if_pos e]
    have : (g.rules.filter fun r => decide (UsefulRule g.prod g.Term roots r.lhs r.rhs)) =
        g.rules := by
      rw [List.filter_eq_self]
      intro r hr
      simpa using (h.allUseful hwf).1 e r hr
    rw [this]
  · rw [if_neg e, h.retain hwf g.rules fun _ h => h]
    rfl

end

/-- The productions that remain. -/
def usefulProds (P : Productions) (T : Sym → Prop) (roots : List Sym) : Productions :=
  fun A α => P A α ∧ UsefulRule P T roots A α

/-- Derivations of terminal strings from reachable symbols only use useful productions. -/
theorem der_useful {P : Productions} {T : Sym → Prop} {roots : List Sym} {u w : List Sym}
    (d : Der P u w) (hw : ∀ a ∈ w, T a) (hu : ∀ s ∈ u, ReachableFrom P roots s) :
    Der (usefulProds P T roots) u w := by
  induction d with
  | nil => exact .nil
  | keep a _ ih =>
    exact .keep a (ih (fun a ha => hw a (by simp [ha])) fun s hs => hu s (by simp [hs]))
  | @expand A α x u v hp dx _ ihx ihu =>
    have hx : ∀ a ∈ x, T a := fun a ha => hw a (by simp [ha])
    have hA := hu A (by simp)
    refine .expand ⟨hp, hA, ?_⟩ (ihx hx fun s hs => ?_)
      (ihu (fun a ha => hw a (by simp [ha])) fun s hs => hu s (by simp [hs]))
    · intro s hs
      obtain ⟨p, q, rfl⟩ := List.append_of_mem hs
      obtain ⟨w₁, w₂, rfl, -, d2⟩ := Der.split dx
      obtain ⟨w₃, w₄, rfl, d3, -⟩ := Der.cons_iff.1 d2
      exact ⟨w₃, derives_iff_der.2 d3, fun a ha => hx a (by simp [ha])⟩
    · obtain ⟨root, h1, h2⟩ := hA
      exact ⟨root, h1, h2.tail hp hs⟩

theorem inLang_useful {P : Productions} {T : Sym → Prop} {roots : List Sym} {A : Sym}
    {w : List Sym} (hA : ReachableFrom P roots A) :
    InLang (usefulProds P T roots) T A w ↔ InLang P T A w := by
  rw [inLang_iff, inLang_iff]
  refine and_congr_left fun hT => ⟨Der.mono fun A α h => h.1, fun d => ?_⟩
  exact der_useful d hT (by simpa using hA)

/-- `g'` is `g` without its useless rules. -/
structure Cleaned (g : Cfg) (roots : List Sym) (g' : Cfg) : Prop where
  numSyms : g'.numSyms = g.numSyms
  prods : ∀ A α, g'.prod A α ↔ usefulProds g.prod g.Term roots A α
  sub : g'.rules.Sublist g.rules
  rules : ∀ r, r ∈ g'.rules ↔ r ∈ g.rules ∧ UsefulRule g.prod g.Term roots r.lhs r.rhs
  filter : ∃ p : CfgRule → Bool, g'.rules = g.rules.filter p

open Classical in
theorem cleaned_filter (g : Cfg) (roots : List Sym) :
    Cleaned g roots { g with
      rules := g.rules.filter fun r => decide (UsefulRule g.prod g.Term roots r.lhs r.rhs) } := by
  refine ⟨rfl, fun A α => ?_, List.filter_sublist, by simp, _, rfl⟩
  constructor
  · rintro ⟨r, hr, rfl, rfl⟩
    rw [List.mem_filter, decide_eq_true_iff] at hr
    exact ⟨⟨r, hr.1, rfl, rfl⟩, hr.2⟩
  · rintro ⟨⟨r, hr, rfl, rfl⟩, h⟩
    exact ⟨r, List.mem_filter.2 ⟨hr, decide_eq_true_iff.2 h⟩, rfl, rfl⟩

section
variable {g g' : Cfg} {roots : List Sym}

theorem Cleaned.wf (h : Cleaned g roots g') (hwf : g.WF) : g'.WF := by
  intro r hr
  rw [h.numSyms]
  exact hwf r ((h.rules r).1 hr).1

theorem Cleaned.inLang (h : Cleaned g roots g') {T : Sym → Prop} {A : Sym} {w : List Sym} :
    InLang g'.prod T A w ↔ InLang (usefulProds g.prod g.Term roots) T A w := by
  rw [inLang_iff, inLang_iff, Der.congr h.prods]

theorem Cleaned.term_mono (h : Cleaned g roots g') {a : Sym} (ha : g.Term a) : g'.Term a :=
  ⟨by rw [h.numSyms]; exact ha.1, fun r hr => ha.2 r ((h.rules r).1 hr).1⟩

/-- A reachable and productive symbol that is terminal afterwards was terminal before. -/
theorem Cleaned.term (h : Cleaned g roots g') {a : Sym} (hr : ReachableFrom g.prod roots a)
    (hp : Productive g.prod g.Term a) (ha : g'.Term a) : g.Term a := by
  obtain ⟨w, hw⟩ := hp
  obtain ⟨d, hT⟩ := inLang_iff.1 ((inLang_useful hr).2 hw)
  rcases Der.single_iff.1 d with rfl | ⟨α, hα, -⟩
  · exact hT a (by simp)
  · obtain ⟨r, hr, e, -⟩ := (h.prods a α).2 hα
    exact (ha.2 r hr e).elim

/-- Everything derived from a reachable productive symbol by the remaining rules is reachable
and productive. -/
theorem Cleaned.closed (h : Cleaned g roots g') {u v : List Sym} (d : Der g'.prod u v)
    (hu : ∀ s ∈ u, ReachableFrom g.prod roots s ∧ Productive g.prod g.Term s) :
    ∀ s ∈ v, ReachableFrom g.prod roots s ∧ Productive g.prod g.Term s := by
  refine (Der.restrict (Q := g'.prod) _ (fun A α hp hA => ⟨hp, fun s hs => ?_⟩) d hu).2
  obtain ⟨h1, h2⟩ := (h.prods A α).1 hp
  obtain ⟨root, h3, h4⟩ := h2.1
  exact ⟨⟨root, h3, h4.tail h1 hs⟩, h2.2 s hs⟩

theorem Cleaned.lang (h : Cleaned g roots g') {A : Sym} (hr : ReachableFrom g.prod roots A)
    (hp : Productive g.prod g.Term A) (w : List Sym) : g'.Lang A w ↔ g.Lang A w := by
  unfold Cfg.Lang
  rw [← inLang_useful (T := g.Term) hr, ← h.inLang, inLang_iff, inLang_iff]
  refine and_congr_right fun d => forall₂_congr fun a ha => ?_
  obtain ⟨h1, h2⟩ := h.closed d (by simpa using ⟨hr, hp⟩) a ha
  exact ⟨h.term h1 h2, h.term_mono⟩

/-- Every symbol of the remaining rules is productive with the remaining rules. -/
theorem Cleaned.productive (h : Cleaned g roots g') {r : CfgRule} (hr : r ∈ g'.rules) :
    Productive g'.prod g'.Term r.lhs ∧ ∀ s ∈ r.rhs, Productive g'.prod g'.Term s := by
  obtain ⟨h1, h2, h3⟩ := (h.rules r).1 hr
  have key : ∀ s ∈ r.rhs, Productive g'.prod g'.Term s := by
    intro s hs
    have hp := h3 s hs
    obtain ⟨root, h4, h5⟩ := h2
    obtain ⟨w, hw⟩ := hp
    exact ⟨w, (h.lang ⟨root, h4, h5.tail ⟨r, h1, rfl, rfl⟩ hs⟩ (h3 s hs) w).2 hw⟩
  exact ⟨productive_closed ⟨r, hr, rfl, rfl⟩ key, key⟩

/-- If all symbols of the rules are productive, the remaining rules are useful by themselves. -/
theorem Cleaned.useful (h : Cleaned g roots g')
    (hp : ∀ r ∈ g.rules, ∀ s ∈ r.rhs, Productive g.prod g.Term s) {r : CfgRule}
    (hr : r ∈ g'.rules) : UsefulRule g'.prod g'.Term roots r.lhs r.rhs := by
  refine ⟨?_, (h.productive hr).2⟩
  obtain ⟨h1, ⟨root, h4, h5⟩, -⟩ := (h.rules r).1 hr
  refine ⟨root, h4, ?_⟩
  have key : ∀ b, Reaches g.prod root b → Reaches g'.prod root b := by
    intro b hb
    rw [reaches_iff] at hb
    induction hb with
    | refl => exact .refl _
    | @tail b c hb hs ih =>
      obtain ⟨α, hα, hc⟩ := hs
      refine ih.tail ((h.prods b α).2 ⟨hα, ⟨root, h4, reaches_iff.2 hb⟩, ?_⟩) hc
      obtain ⟨r', hr', -, rfl⟩ := hα
      exact hp r' hr'
  exact key _ h5

end

open Classical in
theorem makeProper_spec {g : Cfg} (hwf : g.WF) (hr : ∀ s ∈ g.roots, s < g.numSyms) :
    ∃ g' b, g.makeProper = .ok (g', b) ∧ Cleaned g g.roots g' ∧ g'.roots = g.roots ∧
      (b = true ↔ ∀ r ∈ g.rules, UsefulRule g.prod g.Term g.roots r.lhs r.rhs) := by
  obtain ⟨u, h1, h2⟩ := usefulness_spec hwf g.roots hr
  refine ⟨_, u.allUseful, ?_, cleaned_filter g g.roots, rfl, h2.allUseful hwf⟩
  have h1' : g.usefulness = .ok u := h1
  rw [Cfg.makeProper, h1']
  have hrem := h2.remove hwf
  by_cases e : u.allUseful = true
  · rw [Usefulness.removeUselessRules, if_pos e] at hrem
    simp only [Res.ok.injEq] at hrem
    rw [← hrem]
    simp [e]
  · simp [e, hrem]

end Verif
