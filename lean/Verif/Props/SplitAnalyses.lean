import Verif.Props.SplitGenerate
import Verif.Props.SameRules

/-! # Property C135: analyses of a grammar whose long rules are split -/

namespace Verif

open Cfg Cycles BitMatrix

namespace Cfg.Unfolds

variable {h : Sym → List Sym} {g g' : Cfg}

theorem forall₂_left {α β : Type} {R : α → β → Prop} {l : List α} {k : List β}
    (e : List.Forall₂ R l k) : ∀ x ∈ l, ∃ y ∈ k, R x y := by
  induction e with
  | nil => simp
  | cons hxy _ ih =>
    intro x hx
    rcases List.mem_cons.1 hx with rfl | hx
    · exact ⟨_, by simp, hxy⟩
    · obtain ⟨y, hy, hr⟩ := ih x hx
      exact ⟨y, by simp [hy], hr⟩

theorem forall₂_right {α β : Type} {R : α → β → Prop} {l : List α} {k : List β}
    (e : List.Forall₂ R l k) : ∀ y ∈ k, ∃ x ∈ l, R x y := by
  induction e with
  | nil => simp
  | cons hxy _ ih =>
    intro y hy
    rcases List.mem_cons.1 hy with rfl | hy
    · exact ⟨_, by simp, hxy⟩
    · obtain ⟨x, hx, hr⟩ := ih y hy
      exact ⟨x, by simp [hx], hr⟩

/-- A rule of an old symbol, in the grammar before. -/
theorem prod_old (hu : Unfolds h g g') {A : Sym} (hA : A < g.numSyms) {α : List Sym}
    (hp : g'.prod A α) : g.prod A (α.flatMap h) := by
  obtain ⟨r', hr', rfl, rfl⟩ := hp
  obtain ⟨r, hr, -, e⟩ := forall₂_right (hu.alts _ hA) r' (mem_alternatives.2 ⟨hr', rfl⟩)
  exact ⟨r, (mem_alternatives.1 hr).1, (mem_alternatives.1 hr).2, e.symm⟩

theorem prod_split (hu : Unfolds h g g') {A : Sym} {α : List Sym} (hp : g.prod A α) :
    ∃ α', g'.prod A α' ∧ α'.flatMap h = α := by
  obtain ⟨r, hr, rfl, rfl⟩ := hp
  obtain ⟨r', hr', -, e⟩ := forall₂_left (hu.alts _ (hu.wf r hr).1) r (mem_alternatives.2 ⟨hr, rfl⟩)
  exact ⟨r'.rhs, ⟨r', (mem_alternatives.1 hr').1, (mem_alternatives.1 hr').2, rfl⟩, e⟩

/-- A rule of a new symbol. -/
theorem prod_new (hu : Unfolds h g g') {A : Sym} (hA : g.numSyms ≤ A) {α : List Sym}
    (hp : g'.prod A α) : α.flatMap h = h A ∧ 2 ≤ α.length := by
  obtain ⟨r', hr', rfl, rfl⟩ := hp
  obtain ⟨-, r, e, e1, e2⟩ := hu.new _ hA (hu.wf' r' hr').1
  have := mem_alternatives.2 ⟨hr', rfl⟩
  rw [e, List.mem_singleton] at this
  subst this
  exact ⟨e1, e2⟩

theorem new_prod (hu : Unfolds h g g') {x : Sym} (h1 : g.numSyms ≤ x) (h2 : x < g'.numSyms) :
    ∃ α, g'.prod x α ∧ α.flatMap h = h x ∧ 2 ≤ α.length := by
  obtain ⟨-, r, e, e1, e2⟩ := hu.new _ h1 h2
  have : r ∈ g'.alternatives x := by rw [e]; simp
  exact ⟨r.rhs, ⟨r, (mem_alternatives.1 this).1, (mem_alternatives.1 this).2, rfl⟩, e1, e2⟩

theorem one_le (hu : Unfolds h g g') {x : Sym} (hx : x < g'.numSyms) : 1 ≤ (h x).length := by
  by_cases hx' : x < g.numSyms
  · rw [hu.old x hx']; simp
  · have := (hu.new x (by omega) hx).1; omega

theorem length_le (hu : Unfolds h g g') : ∀ l : List Sym, (∀ x ∈ l, x < g'.numSyms) →
    l.length ≤ (l.flatMap h).length
  | [], _ => by simp
  | a :: l, hl => by
    have := hu.one_le (hl a (by simp))
    have := length_le hu l fun x hx => hl x (by simp [hx])
    simp only [List.length_cons, List.flatMap_cons, List.length_append]
    omega

/-- The symbols of a longer string abbreviate less than the string. -/
theorem length_lt (hu : Unfolds h g g') {l : List Sym} (hl : ∀ x ∈ l, x < g'.numSyms)
    (h2 : 2 ≤ l.length) {y : Sym} (hy : y ∈ l) : (h y).length < (l.flatMap h).length := by
  obtain ⟨p, s, rfl⟩ := List.append_of_mem hy
  have h3 := hu.length_le p fun x hx => hl x (by simp [hx])
  have h4 := hu.length_le s fun x hx => hl x (by simp [hx])
  simp only [List.length_append, List.length_cons, List.flatMap_append, List.flatMap_cons] at *
  omega

theorem prod_lt (hu : Unfolds h g g') {A : Sym} {α : List Sym} (hp : g'.prod A α) :
    A < g'.numSyms ∧ ∀ x ∈ α, x < g'.numSyms := by
  obtain ⟨r', hr', rfl, rfl⟩ := hp
  exact hu.wf' r' hr'

/-- Induction along abbreviations. -/
theorem induct (hu : Unfolds h g g') {S : Sym → Prop} (hold : ∀ x < g.numSyms, S x)
    (hnew : ∀ x α, g.numSyms ≤ x → g'.prod x α → α.flatMap h = h x → 2 ≤ α.length →
      (∀ y ∈ α, S y) → S x) : ∀ x < g'.numSyms, S x := by
  have key : ∀ n x, (h x).length ≤ n → x < g'.numSyms → S x := by
    intro n
    induction n with
    | zero => intro x hn hx; have := hu.one_le hx; omega
    | succ n ih =>
      intro x hn hx
      by_cases hx' : x < g.numSyms
      · exact hold x hx'
      · obtain ⟨α, hp, e, h2⟩ := hu.new_prod (by omega) hx
        refine hnew x α (by omega) hp e h2 fun y hy => ih y ?_ ((hu.prod_lt hp).2 y hy)
        have := hu.length_lt (hu.prod_lt hp).2 h2 hy
        rw [e] at this
        omega
  exact fun x hx => key _ x (Nat.le_refl _) hx

theorem der_bwd (hu : Unfolds h g g') {u w : List Sym} (d : Der g'.prod u w) :
    Der g.prod (u.flatMap h) (w.flatMap h) :=
  d.map h fun A α hp => by
    by_cases hA : A < g.numSyms
    · rw [hu.old A hA]; exact .prod (hu.prod_old hA hp)
    · rw [(hu.prod_new (by omega) hp).1]; exact .refl _

theorem der_all {S : Sym → List Sym} {P : Productions} : ∀ u : List Sym,
    (∀ x ∈ u, Der P [x] (S x)) → Der P u (u.flatMap S)
  | [], _ => .nil
  | a :: u, hx => by
    have := (hx a (by simp)).append (der_all u fun x hx' => hx x (by simp [hx']))
    simpa using this

theorem der_sym (hu : Unfolds h g g') : ∀ x < g'.numSyms, Der g'.prod [x] (h x) :=
  hu.induct (fun x hx => by rw [hu.old x hx]; exact .refl _) fun x α _ hp e _ ih => by
    have := (Der.prod hp).trans (der_all (S := h) α ih)
    rwa [e] at this

theorem der_fwd (hu : Unfolds h g g') {u w : List Sym} (d : Der g.prod u w) : Der g'.prod u w :=
  d.mono' fun A α hp => by
    obtain ⟨α', hp', e⟩ := hu.prod_split hp
    have := (Der.prod hp').trans (der_all (S := h) α' fun x hx => hu.der_sym x ((hu.prod_lt hp').2 x hx))
    rwa [e] at this

theorem der_old (hu : Unfolds h g g') {A : Sym} (hA : A < g.numSyms) {w : List Sym}
    (d : Der g'.prod [A] w) : Der g.prod [A] (w.flatMap h) := by
  have := hu.der_bwd d
  rwa [List.flatMap_cons, List.flatMap_nil, List.append_nil, hu.old A hA] at this

theorem lhs_iff (hu : Unfolds h g g') {a : Sym} (ha : a < g.numSyms) :
    (∃ r ∈ g'.rules, r.lhs = a) ↔ ∃ r ∈ g.rules, r.lhs = a := by
  constructor
  · rintro ⟨r, hr, rfl⟩
    obtain ⟨s, hs, e, -⟩ := hu.prod_old ha ⟨r, hr, rfl, rfl⟩
    exact ⟨s, hs, e⟩
  · rintro ⟨r, hr, rfl⟩
    obtain ⟨α, ⟨s, hs, e, -⟩, -⟩ := hu.prod_split ⟨r, hr, rfl, rfl⟩
    exact ⟨s, hs, e⟩

theorem term_eq (hu : Unfolds h g g') : g'.Term = g.Term := by
  funext a
  apply propext
  have hle := hu.le
  unfold Cfg.Term
  by_cases ha : a < g.numSyms
  · have := hu.lhs_iff ha
    constructor
    · rintro ⟨-, k⟩
      exact ⟨ha, fun r hr e => by
        obtain ⟨s, hs, e'⟩ := this.2 ⟨r, hr, e⟩
        exact k s hs e'⟩
    · rintro ⟨-, k⟩
      exact ⟨by omega, fun r hr e => by
        obtain ⟨s, hs, e'⟩ := this.1 ⟨r, hr, e⟩
        exact k s hs e'⟩
  · constructor
    · rintro ⟨h1, k⟩
      obtain ⟨α, ⟨r, hr, e, -⟩, -⟩ := hu.new_prod (by omega) h1
      exact absurd e (k r hr)
    · rintro ⟨h1, -⟩
      exact absurd h1 ha

theorem term_lt {a : Sym} (ha : g.Term a) : a < g.numSyms := ha.1

theorem derives_iff (hu : Unfolds h g g') {A : Sym} (hA : A < g.numSyms) {w : List Sym}
    (hw : ∀ x ∈ w, x < g.numSyms) : Derives g'.prod [A] w ↔ Derives g.prod [A] w := by
  rw [derives_iff_der, derives_iff_der]
  constructor
  · intro d
    have := hu.der_old hA d
    rwa [flatMap_single_of_lt hu.old hw] at this
  · exact hu.der_fwd

theorem lang_iff (hu : Unfolds h g g') {A : Sym} (hA : A < g.numSyms) {w : List Sym} :
    g'.Lang A w ↔ g.Lang A w := by
  unfold Cfg.Lang InLang
  rw [hu.term_eq]
  refine and_congr_left fun hw => hu.derives_iff hA fun x hx => (hw x hx).1

theorem productive_iff (hu : Unfolds h g g') {A : Sym} (hA : A < g.numSyms) :
    Productive g'.prod g'.Term A ↔ Productive g.prod g.Term A :=
  exists_congr fun _ => hu.lang_iff hA

theorem first_iff (hu : Unfolds h g g') {A a : Sym} (hA : A < g.numSyms) :
    FirstOf g'.prod g'.Term [A] a ↔ FirstOf g.prod g.Term [A] a := by
  unfold FirstOf
  rw [hu.term_eq]
  refine and_congr_right fun ha => ?_
  constructor
  · rintro ⟨γ, d⟩
    have := hu.der_old hA (derives_iff_der.1 d)
    rw [List.flatMap_cons, hu.old a ha.1] at this
    exact ⟨γ.flatMap h, derives_iff_der.2 this⟩
  · rintro ⟨γ, d⟩
    exact ⟨γ, derives_iff_der.2 (hu.der_fwd (derives_iff_der.1 d))⟩

theorem last_iff (hu : Unfolds h g g') {A a : Sym} (hA : A < g.numSyms) :
    LastOf g'.prod g'.Term [A] a ↔ LastOf g.prod g.Term [A] a := by
  unfold LastOf
  rw [hu.term_eq]
  refine and_congr_right fun ha => ?_
  constructor
  · rintro ⟨γ, d⟩
    have := hu.der_old hA (derives_iff_der.1 d)
    rw [List.flatMap_append, List.flatMap_cons, hu.old a ha.1] at this
    exact ⟨γ.flatMap h, derives_iff_der.2 this⟩
  · rintro ⟨γ, d⟩
    exact ⟨γ, derives_iff_der.2 (hu.der_fwd (derives_iff_der.1 d))⟩

theorem follow_iff (hu : Unfolds h g g') {A a : Sym} (hA : A < g.numSyms) :
    FollowOf g'.prod g'.Term A a ↔ FollowOf g.prod g.Term A a := by
  unfold FollowOf
  rw [hu.term_eq]
  refine and_congr_right fun ha => ?_
  constructor
  · rintro ⟨B, α, γ, d⟩
    have d' := hu.der_bwd (derives_iff_der.1 d)
    simp only [List.flatMap_append, List.flatMap_cons, hu.old a ha.1, hu.old A hA,
      List.flatMap_nil, List.append_nil] at d'
    by_cases hB : B < g.numSyms
    · rw [hu.old B hB] at d'
      exact ⟨B, α.flatMap h, γ.flatMap h, derives_iff_der.2 d'⟩
    · by_cases hB' : B < g'.numSyms
      · obtain ⟨r, hr, s, e⟩ := hu.part B (by omega) hB'
        have d2 := (Der.prod (P := g.prod) ⟨r, hr, rfl, e.symm⟩).trans (d'.append (.refl s))
        refine ⟨r.lhs, α.flatMap h, γ.flatMap h ++ s, derives_iff_der.2 ?_⟩
        simpa using d2
      · rcases Der.single_iff.1 (derives_iff_der.1 d) with e | ⟨β, hp, -⟩
        · have := congrArg List.length e
          simp at this
          omega
        · exact absurd (hu.prod_lt hp).1 hB'
  · rintro ⟨B, α, γ, d⟩
    exact ⟨B, α, γ, derives_iff_der.2 (hu.der_fwd (derives_iff_der.1 d))⟩

theorem used_iff (hu : Unfolds h g g') {a : Sym} (ha : a < g.numSyms) : g'.Used a ↔ g.Used a := by
  constructor
  · rintro ⟨r, hr, e⟩
    by_cases hl : r.lhs < g.numSyms
    · obtain ⟨q, hq, e1, e2⟩ := hu.prod_old hl ⟨r, hr, rfl, rfl⟩
      refine ⟨q, hq, e.imp (fun e => by rw [e1, e]) fun e => ?_⟩
      rw [e2]
      exact List.mem_flatMap.2 ⟨a, e, by rw [hu.old a ha]; simp⟩
    · rcases e with e | e
      · omega
      · obtain ⟨q, hq, hs⟩ := hu.part r.lhs (by omega) (hu.wf' r hr).1
        refine ⟨q, hq, .inr (hs.subset ?_)⟩
        rw [← (hu.prod_new (by omega) ⟨r, hr, rfl, rfl⟩).1]
        exact List.mem_flatMap.2 ⟨a, e, by rw [hu.old a ha]; simp⟩
  · rintro ⟨r, hr, e⟩
    obtain ⟨α, ⟨q, hq, e1, e2⟩, e3⟩ := hu.prod_split ⟨r, hr, rfl, rfl⟩
    rcases e with e | e
    · exact ⟨q, hq, .inl (by rw [e1, e])⟩
    · have key : ∀ x < g'.numSyms, a ∈ h x → x = a ∨ g'.Used a :=
        hu.induct (fun x hx hm => by
          rw [hu.old x hx] at hm
          exact .inl (List.mem_singleton.1 hm).symm) fun x α hx hp e h2 ih hm => by
          rw [← e] at hm
          obtain ⟨y, hy, hm⟩ := List.mem_flatMap.1 hm
          rcases ih y hy hm with rfl | k
          · obtain ⟨q, hq, -, rfl⟩ := hp
            exact .inr ⟨q, hq, .inr hy⟩
          · exact .inr k
      rw [← e3] at e
      obtain ⟨y, hy, hm⟩ := List.mem_flatMap.1 e
      rw [← e2] at hy
      rcases key y ((hu.wf' q hq).2 y hy) hm with rfl | k
      · exact ⟨q, hq, .inr hy⟩
      · exact k

theorem reachesPlus_prod {P : Productions} {a b : Sym} :
    ReachesPlus P a b ↔ ∃ α p s, P a α ∧ Der P α (p ++ b :: s) := by
  constructor
  · rintro ⟨p, s, d⟩
    obtain ⟨v, ⟨A', α, p', s', hp, e, rfl⟩, d⟩ := Relation.TransGen.head'_iff.1 d
    have : p' = [] ∧ A' = a ∧ s' = [] := by
      rcases p' with _ | ⟨x, p'⟩ <;> simp_all
    obtain ⟨rfl, rfl, rfl⟩ := this
    exact ⟨α, p, s, hp, derives_iff_der.1 (by simpa [Derives] using d)⟩
  · rintro ⟨α, p, s, hp, d⟩
    exact ⟨p, s, Relation.TransGen.head'_iff.2 ⟨α, ⟨a, α, [], [], hp, rfl, by simp⟩,
      derives_iff_der.2 d⟩⟩

theorem reachesPlus_iff (hu : Unfolds h g g') {a b : Sym} (ha : a < g.numSyms)
    (hb : b < g.numSyms) : ReachesPlus g'.prod a b ↔ ReachesPlus g.prod a b := by
  rw [reachesPlus_prod, reachesPlus_prod]
  constructor
  · rintro ⟨α, p, s, hp, d⟩
    have := hu.der_bwd d
    rw [List.flatMap_append, List.flatMap_cons, hu.old b hb] at this
    exact ⟨_, _, _, hu.prod_old ha hp, this⟩
  · rintro ⟨α, p, s, hp, d⟩
    obtain ⟨α', hp', e⟩ := hu.prod_split hp
    have := der_all (S := h) α' fun x hx => hu.der_sym x ((hu.prod_lt hp').2 x hx)
    rw [e] at this
    exact ⟨α', p, s, hp', this.trans (hu.der_fwd d)⟩

theorem reaches_iff (hu : Unfolds h g g') {a b : Sym} (ha : a < g.numSyms)
    (hb : b < g.numSyms) : Reaches g'.prod a b ↔ Reaches g.prod a b := by
  rw [reaches_iff_plus, reaches_iff_plus, hu.reachesPlus_iff ha hb]

theorem unitStep_lt (hu : Unfolds h g g') {a b : Sym} (k : UnitStep g'.prod a b) :
    a < g.numSyms := by
  by_contra ha
  have := (hu.prod_new (by omega) k.1).2
  simp at this

theorem unitStep_iff (hu : Unfolds h g g') {a b : Sym} (ha : a < g.numSyms)
    (hb : b < g.numSyms) : UnitStep g'.prod a b ↔ UnitStep g.prod a b := by
  unfold UnitStep
  refine and_congr_left fun _ => ?_
  constructor
  · intro hp
    have := hu.prod_old ha hp
    rwa [List.flatMap_cons, List.flatMap_nil, List.append_nil, hu.old b hb] at this
  · intro hp
    obtain ⟨α, hp', e⟩ := hu.prod_split hp
    have hl := hu.length_le α (hu.prod_lt hp').2
    rw [e] at hl
    match α, hp', e, hl with
    | [], _, e, _ => simp at e
    | [x], hp', e, _ =>
      rw [List.flatMap_cons, List.flatMap_nil, List.append_nil] at e
      by_cases hx : x < g.numSyms
      · rw [hu.old x hx] at e
        rwa [e] at hp'
      · have := (hu.new x (by omega) ((hu.prod_lt hp').2 x (by simp))).1
        rw [e] at this
        simp at this
    | _ :: _ :: _, _, _, hl => simp at hl

theorem unit_iff (hu : Unfolds h g g') {a b : Sym} (ha : a < g.numSyms)
    (hb : b < g.numSyms) : UnitChain g'.prod a b ↔ UnitChain g.prod a b := by
  constructor
  · intro k
    unfold UnitChain at k
    induction k using Relation.TransGen.head_induction_on with
    | single k => exact .single ((hu.unitStep_iff ha hb).1 k)
    | @head _ c k k' ih =>
      have : c < g.numSyms := by
        obtain ⟨z, k2, -⟩ := Relation.TransGen.head'_iff.1 k'
        exact hu.unitStep_lt k2
      exact Relation.TransGen.head ((hu.unitStep_iff ha this).1 k) (ih this)
  · intro k
    unfold UnitChain at k
    induction k using Relation.TransGen.head_induction_on with
    | single k => exact .single ((hu.unitStep_iff ha hb).2 k)
    | @head _ c k k' ih =>
      have : c < g.numSyms := by
        obtain ⟨z, ⟨⟨r, hr, e, -⟩, -⟩, -⟩ := Relation.TransGen.head'_iff.1 k'
        rw [← e]
        exact (hu.wf r hr).1
      exact Relation.TransGen.head ((hu.unitStep_iff ha this).2 k) (ih this)

theorem cycleFree_iff (hu : Unfolds h g g') : CycleFree g'.prod ↔ CycleFree g.prod := by
  constructor
  · intro k a ha
    have hl : a < g.numSyms := by
      obtain ⟨z, ⟨⟨r, hr, e, -⟩, -⟩, -⟩ := Relation.TransGen.head'_iff.1 ha
      rw [← e]
      exact (hu.wf r hr).1
    exact k a ((hu.unit_iff hl hl).2 ha)
  · intro k a ha
    have hl : a < g.numSyms := by
      obtain ⟨z, k2, -⟩ := Relation.TransGen.head'_iff.1 ha
      exact hu.unitStep_lt k2
    exact k a ((hu.unit_iff hl hl).1 ha)

theorem closureAll_iff (hu : Unfolds h g g') {I R I' R' : Sym → Prop}
    (hI : ∀ a < g.numSyms, (I' a ↔ I a)) (hn : ∀ a, I' a → a < g.numSyms)
    (hI0 : ∀ a, I a → a < g.numSyms)
    (hR : IsLeast (ClosedAll g.prod) I R) (hR' : IsLeast (ClosedAll g'.prod) I' R') {a : Sym}
    (ha : a < g.numSyms) : R' a ↔ R a := by
  obtain ⟨r1, r2, r3⟩ := hR
  obtain ⟨k1, k2, k3⟩ := hR'
  constructor
  · intro k
    have := k3 (fun x => ∀ y ∈ h x, R y) (fun s hs y hy => by
      rw [hu.old s (hn s hs), List.mem_singleton] at hy
      subst hy
      exact r1 y ((hI y (hn y hs)).1 hs)) (fun A α hp hne hα y hy => by
      by_cases hA : A < g.numSyms
      · rw [hu.old A hA, List.mem_singleton] at hy
        subst hy
        refine r2 y _ (hu.prod_old hA hp) (fun e => ?_) fun s hs => ?_
        · have := hu.length_le α (hu.prod_lt hp).2
          rw [e] at this
          exact hne (List.length_eq_zero_iff.1 (by simpa using this))
        · obtain ⟨x, hx, hs⟩ := List.mem_flatMap.1 hs
          exact hα x hx s hs
      · rw [← (hu.prod_new (by omega) hp).1] at hy
        obtain ⟨x, hx, hs⟩ := List.mem_flatMap.1 hy
        exact hα x hx y hs) a k
    exact this a (by rw [hu.old a ha]; simp)
  · refine r3 R' (fun s hs => k1 s ((hI s (hI0 s hs)).2 hs)) (fun A α hp hne hα => ?_) a
    obtain ⟨α', hp', e⟩ := hu.prod_split hp
    have key : ∀ x < g'.numSyms, (∀ y ∈ h x, R' y) → R' x :=
      hu.induct (fun x hx hm => hm x (by rw [hu.old x hx]; simp)) fun x α _ hp e h2 ih hm =>
        k2 x α hp (by rintro rfl; simp at h2) fun y hy => ih y hy fun z hz => hm z (by
          rw [← e]; exact List.mem_flatMap.2 ⟨y, hy, hz⟩)
    refine k2 A α' hp' (by rintro rfl; exact hne e.symm) fun x hx =>
      key x ((hu.prod_lt hp').2 x hx) fun y hy => hα y (by
        rw [← e]; exact List.mem_flatMap.2 ⟨x, hx, hy⟩)

theorem closureAny_iff (hu : Unfolds h g g') {I R I' R' : Sym → Prop}
    (hI : ∀ a < g.numSyms, (I' a ↔ I a)) (hn : ∀ a, I' a → a < g.numSyms)
    (hI0 : ∀ a, I a → a < g.numSyms)
    (hR : IsLeast (ClosedAny g.prod) I R) (hR' : IsLeast (ClosedAny g'.prod) I' R') {a : Sym}
    (ha : a < g.numSyms) : R' a ↔ R a := by
  obtain ⟨r1, r2, r3⟩ := hR
  obtain ⟨k1, k2, k3⟩ := hR'
  constructor
  · intro k
    obtain ⟨y, hy, h2⟩ := k3 (fun x => ∃ y ∈ h x, R y) (fun s hs =>
      ⟨s, by rw [hu.old s (hn s hs)]; simp, r1 s ((hI s (hn s hs)).1 hs)⟩)
      (fun A α hp ⟨s, hs, y, hy, hr⟩ => by
        by_cases hA : A < g.numSyms
        · exact ⟨A, by rw [hu.old A hA]; simp, r2 A _ (hu.prod_old hA hp)
            ⟨y, List.mem_flatMap.2 ⟨s, hs, hy⟩, hr⟩⟩
        · refine ⟨y, ?_, hr⟩
          rw [← (hu.prod_new (by omega) hp).1]
          exact List.mem_flatMap.2 ⟨s, hs, hy⟩) a k
    rw [hu.old a ha, List.mem_singleton] at hy
    rwa [hy] at h2
  · refine r3 R' (fun s hs => k1 s ((hI s (hI0 s hs)).2 hs)) (fun A α hp ⟨s, hs, hr⟩ => ?_) a
    obtain ⟨α', hp', e⟩ := hu.prod_split hp
    have key : ∀ x < g'.numSyms, (∃ y ∈ h x, R' y) → R' x :=
      hu.induct (fun x hx ⟨y, hy, hr⟩ => by
        rw [hu.old x hx, List.mem_singleton] at hy; rwa [hy] at hr)
        fun x α _ hp e h2 ih ⟨y, hy, hr⟩ => by
          rw [← e] at hy
          obtain ⟨z, hz, hy⟩ := List.mem_flatMap.1 hy
          exact k2 x α hp ⟨z, hz, ih z hz ⟨y, hy, hr⟩⟩
    rw [← e] at hs
    obtain ⟨x, hx, hs⟩ := List.mem_flatMap.1 hs
    exact k2 A α' hp' ⟨x, hx, key x ((hu.prod_lt hp').2 x hx) ⟨s, hs, hr⟩⟩

end Cfg.Unfolds

/-- The sets agree on the symbols below `n`. -/
def AgreeBelow (n : Nat) (b b' : BitSet) : Prop := ∀ a < n, (Has b' a ↔ Has b a)

/-- The maps have the same entries for the symbols below `n`. -/
def SameBelow (n : Nat) (m m' : SetMap) : Prop := ∀ A < n, m' A = m A

theorem optVal_ext {v w : Option SetVal} (h1 : v.isSome = true ↔ w.isSome = true)
    (h2 : ∀ a b, v = some a → w = some b → a = b) : v = w := by
  cases v <;> cases w <;> simp_all

section

variable {g : Cfg} (hwf : g.WF) {limit : Option Nat} (hlim : ∀ n, limit = some n → 2 ≤ n) {g' : Cfg}
  (hg : g.limitRhsLen limit = .ok g')
include hwf hlim hg

theorem split_unfolds : ∃ h, Unfolds h g g' ∧ g'.roots = g.roots := by
  obtain ⟨g1, h, e, hu⟩ := limitRhsLen_unfolds hwf hlim
  cases hg.symm.trans e
  obtain ⟨g2, e2, -, -, hr, -⟩ := limitRhsLen_inv g hwf limit hlim
  cases e2.symm.trans e
  exact ⟨h, hu, hr⟩

/-- **C135.** The terminals, left sides of empty rules and unused symbols, and the sets propagated
from sets of old symbols. No new symbol is a terminal, has an empty rule or is unused. -/
theorem C135_sets :
    (∃ b b', g.terminalSymbols = .ok b ∧ g'.terminalSymbols = .ok b' ∧
      ∀ a, Has b' a ↔ Has b a) ∧
    (∃ b b', g.nullingSymbols = .ok b ∧ g'.nullingSymbols = .ok b' ∧
      ∀ a, Has b' a ↔ Has b a) ∧
    (∃ b b', g.unusedSymbols = .ok b ∧ g'.unusedSymbols = .ok b' ∧
      ∀ a, Has b' a ↔ Has b a) ∧
    ∀ b b' : BitSet, b.length = g.numSyms → b'.length = g'.numSyms →
      (∀ a, Has b' a ↔ Has b a) →
      (∃ c c', g.rhsClosureForAll b = .ok c ∧ g'.rhsClosureForAll b' = .ok c' ∧
        AgreeBelow g.numSyms c c') ∧
      ∃ c c', g.rhsClosureForAny b = .ok c ∧ g'.rhsClosureForAny b' = .ok c' ∧
        AgreeBelow g.numSyms c c' := by
  obtain ⟨h, hu, -⟩ := split_unfolds hwf hlim hg
  have hle := hu.le
  refine ⟨?_, ?_, ?_, fun b b' hb hb' hag => ?_⟩
  · obtain ⟨b, h1, h2, h3⟩ := BitSet.terminal_spec hu.wf
    obtain ⟨c, k1, k2, k3⟩ := BitSet.terminal_spec hu.wf'
    exact ⟨b, c, h1, k1, fun a => by rw [h3, k3, hu.term_eq]⟩
  · obtain ⟨b, h1, h2, h3⟩ := C07_nulling g hu.wf
    obtain ⟨c, k1, k2, k3⟩ := C07_nulling g' hu.wf'
    refine ⟨b, c, h1, k1, fun a => ?_⟩
    rw [h3, k3]
    change g'.prod a [] ↔ g.prod a []
    constructor
    · intro hp
      by_cases ha : a < g.numSyms
      · exact hu.prod_old ha hp
      · have := (hu.prod_new (by omega) hp).2
        simp at this
    · intro hp
      obtain ⟨α, hp', e⟩ := hu.prod_split hp
      have := hu.length_le α (hu.prod_lt hp').2
      rw [e] at this
      have hnil : α = [] := List.length_eq_zero_iff.1 (by simpa using this)
      rwa [hnil] at hp'
  · obtain ⟨b, h1, h2, h3⟩ := BitSet.unused_spec hu.wf
    obtain ⟨c, k1, k2, k3⟩ := BitSet.unused_spec hu.wf'
    refine ⟨b, c, h1, k1, fun a => ?_⟩
    rw [h3, k3]
    by_cases ha : a < g.numSyms
    · rw [hu.used_iff ha]
      have : a < g'.numSyms := by omega
      simp [ha, this]
    · constructor
      · rintro ⟨k, k'⟩
        obtain ⟨α, ⟨r, hr, e, -⟩, -⟩ := hu.new_prod (by omega) k
        exact absurd ⟨r, hr, .inl e⟩ k'
      · rintro ⟨k, -⟩
        exact absurd k ha
  · have hlt : ∀ a, Has b a → a < g.numSyms := fun a k => by
      unfold Has at k
      have := (List.getElem?_eq_some_iff.1 k).1
      omega
    constructor
    · obtain ⟨c, h1, -, h2⟩ := closureAll_spec hu.wf b hb
      obtain ⟨c', k1, -, k2⟩ := closureAll_spec hu.wf' b' hb'
      exact ⟨c, c', h1, k1, fun a ha => hu.closureAll_iff (fun a _ => hag a)
        (fun a k => hlt a ((hag a).1 k)) hlt h2 k2 ha⟩
    · obtain ⟨c, h1, -, h2⟩ := closureAny_spec hu.wf b hb
      obtain ⟨c', k1, -, k2⟩ := closureAny_spec hu.wf' b' hb'
      exact ⟨c, c', h1, k1, fun a ha => hu.closureAny_iff (fun a _ => hag a)
        (fun a k => hlt a ((hag a).1 k)) hlt h2 k2 ha⟩

/-- **C135.** The matrices of reachability and of chains of one-symbol rules agree between old
symbols. -/
theorem C135_matrices :
    ∃ m₂ m₂' m₃ m₃', g.reachabilityMatrix = .ok m₂ ∧
      g'.reachabilityMatrix = .ok m₂' ∧ g.unitDerivationMatrix = .ok m₃ ∧
      g'.unitDerivationMatrix = .ok m₃' ∧ ∀ a b, a < g.numSyms → b < g.numSyms →
        (Bit m₂' a b ↔ Bit m₂ a b) ∧ (Bit m₃' a b ↔ Bit m₃ a b) := by
  obtain ⟨h, hu, -⟩ := split_unfolds hwf hlim hg
  obtain ⟨m₂, c1, -, c2⟩ := Cfg.reachability_spec hu.wf
  obtain ⟨m₂', d1, -, d2⟩ := Cfg.reachability_spec hu.wf'
  obtain ⟨m₃, e1, -, e2⟩ := Cfg.unitDerivation_spec hu.wf
  obtain ⟨m₃', f1, -, f2⟩ := Cfg.unitDerivation_spec hu.wf'
  refine ⟨m₂, m₂', m₃, m₃', c1, d1, e1, f1, fun a b ha hb => ⟨?_, ?_⟩⟩
  · rw [c2, d2]; exact hu.reachesPlus_iff ha hb
  · rw [e2, f2]; exact hu.unit_iff ha hb

/-- **C135.** The usefulness analysis agrees on old symbols, for any old roots. -/
theorem C135_usefulness {roots : List Sym} (hr : ∀ s ∈ roots, s < g.numSyms) :
    ∃ u u', g.usefulnessWithRoots roots = .ok u ∧ g'.usefulnessWithRoots roots = .ok u' ∧
      AgreeBelow g.numSyms u.productivity u'.productivity ∧
      AgreeBelow g.numSyms u.reachableSyms u'.reachableSyms ∧
      ∀ a b, a < g.numSyms → b < g.numSyms → (Bit u'.reachability a b ↔ Bit u.reachability a b) := by
  obtain ⟨h, hu, -⟩ := split_unfolds hwf hlim hg
  have hle := hu.le
  obtain ⟨u, h1, h2⟩ := usefulness_spec hu.wf roots hr
  obtain ⟨u', k1, k2⟩ := usefulness_spec hu.wf' roots fun s hs => by have := hr s hs; omega
  refine ⟨u, u', h1, k1, fun a ha => ?_, fun a ha => ?_, fun a b ha hb => ?_⟩
  · rw [h2.prod, k2.prod, hu.productive_iff ha]
  · rw [h2.reachable, k2.reachable, hu.used_iff ha]
    have : a < g'.numSyms := by omega
    simp only [ha, this, true_and]
    refine or_congr_left (exists_congr fun r => and_congr_right fun hm => hu.reaches_iff (hr r hm) ha)
  · rw [h2.reach, k2.reach, hu.reaches_iff ha hb]
    have : a < g'.numSyms := by omega
    simp [ha, this]

/-- **C135.** The answer whether the grammar is cycle free is the same. -/
theorem C135_cycle_free :
    ∃ b c c' d d', Cycles.new g = .ok c ∧ Cycles.new g' = .ok d ∧
      c.isCycleFree = .ok (b, c') ∧ d.isCycleFree = .ok (b, d') := by
  obtain ⟨h, hu, -⟩ := split_unfolds hwf hlim hg
  obtain ⟨c, b, c', h1, h2, h3, -⟩ := C34_cycle_free hu.wf
  obtain ⟨d, b', d', k1, k2, k3, -⟩ := C34_cycle_free hu.wf'
  rw [hu.cycleFree_iff] at k3
  have : b = b' := by
    have := h3.trans k3.symm
    cases b <;> cases b' <;> simp_all
  subst this
  exact ⟨b, c, c', d, d', h1, k1, h2, k2⟩

/-- **C135.** FIRST, LAST and FOLLOW sets of the old symbols are the same. -/
theorem C135_predict :
    (∃ fs fs', g.firstSets = .ok fs ∧ g'.firstSets = .ok fs' ∧
      SameBelow g.numSyms fs.map fs'.map) ∧
    (∃ m m', g.lastSets = .ok m ∧ g'.lastSets = .ok m' ∧ SameBelow g.numSyms m m') ∧
    ∃ m m', g.followSets = .ok m ∧ g'.followSets = .ok m' ∧ SameBelow g.numSyms m m' := by
  obtain ⟨h, hu, hroots⟩ := split_unfolds hwf hlim hg
  refine ⟨?_, ?_, ?_⟩
  · obtain ⟨fs, h1, h2, h3⟩ := C41_first hu.wf
    obtain ⟨fs', k1, k2, k3⟩ := C41_first hu.wf'
    refine ⟨fs, fs', h1, k1, fun A hA => optVal_ext ?_ fun v w hv hw => ?_⟩
    · rw [h2, k2]; exact hu.lhs_iff hA
    · obtain ⟨v1, v2, v3⟩ := k3 A v hv
      obtain ⟨w1, w2, w3⟩ := h3 A w hw
      exact setVal_ext v1 w1 (fun a => by rw [v2, w2]; exact hu.first_iff hA)
        (by rw [v3, w3]; exact hu.derives_iff hA (by simp))
  · obtain ⟨m, h1, h2, h3⟩ := C45_last hu.wf
    obtain ⟨m', k1, k2, k3⟩ := C45_last hu.wf'
    refine ⟨m, m', h1, k1, fun A hA => optVal_ext ?_ fun v w hv hw => ?_⟩
    · rw [h2, k2]; exact hu.lhs_iff hA
    · obtain ⟨v1, v2, v3⟩ := k3 A v hv
      obtain ⟨w1, w2, w3⟩ := h3 A w hw
      exact setVal_ext v1 w1 (fun a => by rw [v2, w2]; exact hu.last_iff hA)
        (by rw [v3, w3]; exact hu.derives_iff hA (by simp))
  · obtain ⟨fs, h1, h2⟩ := firstSets_spec hu.wf
    obtain ⟨m, h3, h4⟩ := followSets_spec hu.wf h2
    obtain ⟨fs', k1, k2⟩ := firstSets_spec hu.wf'
    obtain ⟨m', k3, k4⟩ := followSets_spec hu.wf' k2
    refine ⟨m, m', by unfold Cfg.followSets; rw [h1, Res.bind_ok, h3],
      by unfold Cfg.followSets; rw [k1, Res.bind_ok, k3], fun A hA => optVal_ext ?_ fun w v hw hv => ?_⟩
    · rw [h4.keys, k4.keys]; exact hu.lhs_iff hA
    · have ev : m.val A = v := by simp [SetMap.val, hv]
      have ew : m'.val A = w := by simp [SetMap.val, hw]
      have hA1 := (h4.keys A).1 (by rw [hv]; rfl)
      have hA2 := (k4.keys A).1 (by rw [hw]; rfl)
      subst ev ew
      refine setVal_ext (k4.sorted A) (h4.sorted A) (fun a => ?_) ?_
      · rw [h4.follow A hA1, k4.follow A hA2]; exact hu.follow_iff hA
      · rw [h4.root, k4.root, hroots, hu.lhs_iff hA]

/-- **C135.** The minimal sentence lengths of the old symbols are the same, in the range where
those of the split grammar do not overflow. -/
theorem C135_lengths (K : Nat) (hK1 : 1 ≤ K)
    (hK : ∀ r ∈ g.rules, r.rhs.length ≤ K) (hb : K ^ (g'.numSyms + 1) < 2 ^ 32) :
    ∃ t t', g.minimalSentenceLengths (MinimalDistance.new g).minLength = .ok t ∧
      g'.minimalSentenceLengths (MinimalDistance.new g').minLength = .ok t' ∧
      ∀ a < g.numSyms, t'[a]? = t[a]? := by
  obtain ⟨h, hu, -⟩ := split_unfolds hwf hlim hg
  have hle := hu.le
  obtain ⟨t, h1, h2, h3, -⟩ := C86_sentence_lengths hu.wf K hK1 hK
    (Nat.lt_of_le_of_lt (Nat.pow_le_pow_right hK1 (by omega)) hb)
  obtain ⟨t', k1, k2, k3, -⟩ := C86_sentence_lengths hu.wf' K hK1 (fun r hr => by
    have hl := hu.length_le r.rhs (hu.wf' r hr).2
    by_cases hA : r.lhs < g.numSyms
    · obtain ⟨q, hq, -, e⟩ := hu.prod_old hA ⟨r, hr, rfl, rfl⟩
      have := hK q hq
      rw [e] at this
      omega
    · obtain ⟨q, hq, hs⟩ := hu.part r.lhs (by omega) (hu.wf' r hr).1
      rw [(hu.prod_new (by omega) ⟨r, hr, rfl, rfl⟩).1] at hl
      have := hs.length_le
      have := hK q hq
      omega) hb
  refine ⟨t, t', h1, k1, fun a ha => ?_⟩
  have l1 : a < t.length := by omega
  have l2 : a < t'.length := by omega
  have key : ∀ v, t'[a]?.join = some v ↔ t[a]?.join = some v := fun v => by
    rw [h3, k3]
    unfold Cfg.MinLen
    simp only [hu.lang_iff ha]
  rw [List.getElem?_eq_getElem l1, List.getElem?_eq_getElem l2] at key ⊢
  congr 1
  exact Option.ext key

end

/-- `S ::= a S b S | b T |`, `T ::= S | b a b`; no rule has the symbol 4. -/
def exSplitAn : Cfg :=
  { src := ⟨5, [none, none, none, none, none]⟩
    rules := [⟨0, [1, 0, 2, 0], {}⟩, ⟨0, [2, 3], {}⟩, ⟨0, [], {}⟩, ⟨3, [0], {}⟩, ⟨3, [2, 1, 2], {}⟩],
    roots := [0] }

example : exSplitAn.WF ∧ (∀ s ∈ [0, 3], s < exSplitAn.numSyms) ∧
    (∀ n, some 2 = some n → 2 ≤ n) ∧ (∀ r ∈ exSplitAn.rules, r.rhs.length ≤ 4) ∧
    (fun g' => (g'.numSyms, 4 ^ (g'.numSyms + 1) < 2 ^ 32, g'.rules.map fun r => (r.lhs, r.rhs))) <$>
      exSplitAn.limitRhsLen (some 2) =
    .ok (8, 4 ^ 9 < 2 ^ 32, [(5, [1, 0]), (6, [5, 2]), (0, [6, 0]), (0, [2, 3]), (0, []), (3, [0]),
      (7, [2, 1]), (3, [7, 2])]) :=
  ⟨by decide, by decide, by rintro n ⟨⟩; decide, by decide, rfl⟩

/-- The analyses of the new symbols are those of the strings they stand for. -/
example : (fun m => (m 0, m 3, m 5, m 7)) <$> (exSplitAn.limitRhsLen (some 2)).bind Cfg.lastSets =
    .ok (some ⟨true, [2]⟩, some ⟨true, [2]⟩, some ⟨false, [1, 2]⟩, some ⟨false, [1]⟩) := by
  decide +kernel

end Verif
