import Verif.Props.SameRules
import Verif.Props.Remap

/-! # Property C130: analyses of a renumbered grammar are the renumbered analyses -/

namespace Verif

open Cycles BitMatrix

/-- `g'` is `g` with the symbols from `U` renumbered by `σ`; `U` contains all symbols that occur in
rules. -/
structure Cfg.Renumbered (U : Sym → Prop) (σ : Sym → Sym) (g g' : Cfg) : Prop where
  ren : Cfg.Renaming U σ g g'
  rules : ∀ r ∈ g.rules, U r.lhs ∧ ∀ a ∈ r.rhs, U a
  lt : ∀ a, U a → a < g.numSyms

namespace Cfg.Renumbered

variable {U : Sym → Prop} {σ : Sym → Sym} {g g' : Cfg}

theorem wf (h : Renumbered U σ g g') : g.WF := fun r hr =>
  ⟨h.lt _ (h.rules r hr).1, fun s hs => h.lt s ((h.rules r hr).2 s hs)⟩

theorem wf' (h : Renumbered U σ g g') : g'.WF := h.ren.wf h.rules

theorem lt' (h : Renumbered U σ g g') {a : Sym} (ha : U a) : σ a < g'.numSyms :=
  (h.ren.onto _).2 ⟨a, ha, rfl⟩

theorem prodU (h : Renumbered U σ g g') {A : Sym} {α : List Sym} (hp : g.prod A α) :
    U A ∧ ∀ a ∈ α, U a := by
  obtain ⟨r, hr, rfl, rfl⟩ := hp
  exact h.rules r hr

theorem map_inj (h : Renumbered U σ g g') {u v : List Sym} (hu : ∀ a ∈ u, U a) (hv : ∀ a ∈ v, U a)
    (e : u.map σ = v.map σ) : u = v := by
  induction u generalizing v with
  | nil => cases v with
    | nil => rfl
    | cons b v => simp at e
  | cons a u ih => cases v with
    | nil => simp at e
    | cons b v =>
      simp only [List.map_cons, List.cons.injEq] at e
      rw [h.ren.inj a b (hu a (by simp)) (hv b (by simp)) e.1,
        ih (fun x hx => hu x (by simp [hx])) (fun x hx => hv x (by simp [hx])) e.2]

theorem prod_iff (h : Renumbered U σ g g') {A : Sym} (hA : U A) {β : List Sym} :
    g'.prod (σ A) β ↔ ∃ α, β = α.map σ ∧ g.prod A α := by
  rw [h.ren.prod]
  constructor
  · rintro ⟨B, α, hp, e, rfl⟩
    rw [h.ren.inj A B hA (h.prodU hp).1 e]
    exact ⟨α, rfl, hp⟩
  · rintro ⟨α, rfl, hp⟩; exact ⟨A, α, hp, rfl, rfl⟩

theorem prod_map (h : Renumbered U σ g g') {A : Sym} (hA : U A) {α : List Sym}
    (hα : ∀ a ∈ α, U a) : g'.prod (σ A) (α.map σ) ↔ g.prod A α := by
  rw [h.prod_iff hA]
  constructor
  · rintro ⟨β, e, hp⟩
    rwa [h.map_inj hα (h.prodU hp).2 e]
  · intro hp; exact ⟨α, rfl, hp⟩

theorem lhs_iff (h : Renumbered U σ g g') {A : Sym} (hA : U A) :
    (∃ r ∈ g'.rules, r.lhs = σ A) ↔ ∃ r ∈ g.rules, r.lhs = A := by
  constructor
  · rintro ⟨r, hr, e⟩
    obtain ⟨α, -, r', hr', e', -⟩ := (h.prod_iff hA).1 ⟨r, hr, e, rfl⟩
    exact ⟨r', hr', e'⟩
  · rintro ⟨r, hr, e⟩
    obtain ⟨r', hr', e', -⟩ := (h.prod_iff hA).2 ⟨r.rhs, rfl, r, hr, e, rfl⟩
    exact ⟨r', hr', e'⟩

theorem term_iff (h : Renumbered U σ g g') {a : Sym} (ha : U a) : g'.Term (σ a) ↔ g.Term a :=
  h.ren.term h.rules h.lt a ha

/-- Derivations correspond. -/
theorem der_iff (h : Renumbered U σ g g') {u : List Sym} (hu : ∀ a ∈ u, U a) {w : List Sym} :
    Der g'.prod (u.map σ) w ↔ ∃ v, w = v.map σ ∧ (∀ a ∈ v, U a) ∧ Der g.prod u v := by
  constructor
  · intro d
    generalize e : u.map σ = u' at d
    induction d generalizing u with
    | nil =>
      cases u with
      | nil => exact ⟨[], rfl, by simp, .nil⟩
      | cons => simp at e
    | keep a d ih =>
      cases u with
      | nil => simp at e
      | cons b u =>
        simp only [List.map_cons, List.cons.injEq] at e
        obtain ⟨v, rfl, h1, h2⟩ := ih (fun x hx => hu x (by simp [hx])) e.2
        refine ⟨b :: v, by rw [← e.1]; rfl, ?_, .keep b h2⟩
        intro x hx
        rcases List.mem_cons.1 hx with rfl | hx
        · exact hu x (by simp)
        · exact h1 x hx
    | expand hp d1 d2 ih1 ih2 =>
      cases u with
      | nil => simp at e
      | cons b u =>
        simp only [List.map_cons, List.cons.injEq] at e
        obtain ⟨e1, e2⟩ := e
        subst e1
        obtain ⟨α, rfl, hq⟩ := (h.prod_iff (hu b (by simp))).1 hp
        obtain ⟨v1, rfl, h1, h2⟩ := ih1 (h.prodU hq).2 rfl
        obtain ⟨v2, rfl, h3, h4⟩ := ih2 (fun x hx => hu x (by simp [hx])) e2
        refine ⟨v1 ++ v2, by simp, ?_, .expand hq h2 h4⟩
        intro x hx
        rcases List.mem_append.1 hx with hx | hx
        · exact h1 x hx
        · exact h3 x hx
  · rintro ⟨v, rfl, -, d⟩
    clear hu
    induction d with
    | nil => exact .nil
    | keep a d ih => exact .keep _ ih
    | expand hp d1 d2 ih1 ih2 =>
      rw [List.map_append]
      exact .expand ((h.prod_iff (h.prodU hp).1).2 ⟨_, rfl, hp⟩) ih1 ih2

theorem derives_iff (h : Renumbered U σ g g') {u : List Sym} (hu : ∀ a ∈ u, U a) {w : List Sym} :
    Derives g'.prod (u.map σ) w ↔ ∃ v, w = v.map σ ∧ (∀ a ∈ v, U a) ∧ Derives g.prod u v := by
  simp only [derives_iff_der]
  exact h.der_iff hu

theorem derives_map (h : Renumbered U σ g g') {u v : List Sym} (hu : ∀ a ∈ u, U a)
    (hv : ∀ a ∈ v, U a) : Derives g'.prod (u.map σ) (v.map σ) ↔ Derives g.prod u v := by
  rw [h.derives_iff hu]
  constructor
  · rintro ⟨v', e, h1, h2⟩
    rwa [h.map_inj hv h1 e]
  · intro h2; exact ⟨v, rfl, hv, h2⟩

theorem derU (h : Renumbered U σ g g') {u v : List Sym} (d : Der g.prod u v) :
    (∀ a ∈ u, U a) → ∀ a ∈ v, U a := by
  induction d with
  | nil => simp
  | keep a d ih =>
    intro hu x hx
    rcases List.mem_cons.1 hx with rfl | hx
    · exact hu x (by simp)
    · exact ih (fun y hy => hu y (by simp [hy])) x hx
  | expand hp d1 d2 ih1 ih2 =>
    intro hu x hx
    rcases List.mem_append.1 hx with hx | hx
    · exact ih1 (h.prodU hp).2 x hx
    · exact ih2 (fun y hy => hu y (by simp [hy])) x hx

theorem single {a : Sym} (ha : U a) : ∀ x ∈ [a], U x := by simpa using ha

theorem lang_iff (h : Renumbered U σ g g') {A : Sym} (hA : U A) (w : List Sym) :
    g'.Lang (σ A) w ↔ ∃ v, w = v.map σ ∧ g.Lang A v :=
  h.ren.lang h.rules h.lt A hA w

theorem direct_iff (h : Renumbered U σ g g') {a b : Sym} (ha : U a) (hb : U b) :
    (∃ α, g'.prod (σ a) α ∧ σ b ∈ α) ↔ ∃ α, g.prod a α ∧ b ∈ α := by
  constructor
  · rintro ⟨α, hp, hm⟩
    obtain ⟨α, rfl, hq⟩ := (h.prod_iff ha).1 hp
    obtain ⟨c, hc, e⟩ := List.mem_map.1 hm
    rw [h.ren.inj b c hb ((h.prodU hq).2 c hc) e.symm]
    exact ⟨α, hq, hc⟩
  · rintro ⟨α, hp, hm⟩
    exact ⟨α.map σ, (h.prod_iff ha).2 ⟨α, rfl, hp⟩, List.mem_map_of_mem hm⟩

/-- Corresponding relations have corresponding transitive closures. -/
theorem transGen_iff (h : Renumbered U σ g g') {R R' : Sym → Sym → Prop}
    (hR : ∀ a b, U a → U b → (R' (σ a) (σ b) ↔ R a b)) (hRU : ∀ a b, R a b → U a ∧ U b)
    (hRU' : ∀ a b, R' a b → a < g'.numSyms ∧ b < g'.numSyms) {a b : Sym} (ha : U a) (hb : U b) :
    Relation.TransGen R' (σ a) (σ b) ↔ Relation.TransGen R a b := by
  constructor
  · intro d
    have key : ∀ y, Relation.TransGen R' (σ a) y → ∃ c, U c ∧ σ c = y ∧ Relation.TransGen R a c := by
      intro y d
      induction d with
      | single d =>
        obtain ⟨c, hc, rfl⟩ := (h.ren.onto _).1 (hRU' _ _ d).2
        exact ⟨c, hc, rfl, .single ((hR a c ha hc).1 d)⟩
      | tail _ d ih =>
        obtain ⟨c, hc, rfl, k⟩ := ih
        obtain ⟨e, he, rfl⟩ := (h.ren.onto _).1 (hRU' _ _ d).2
        exact ⟨e, he, rfl, .tail k ((hR c e hc he).1 d)⟩
    obtain ⟨c, hc, e, k⟩ := key _ d
    rwa [← h.ren.inj c b hc hb e]
  · intro d
    clear hb
    induction d with
    | single d => exact .single ((hR _ _ ha (hRU _ _ d).2).2 d)
    | tail _ d ih => exact .tail ih ((hR _ _ (hRU _ _ d).1 (hRU _ _ d).2).2 d)

theorem reachesPlus_iff (h : Renumbered U σ g g') {a b : Sym} (ha : U a) (hb : U b) :
    ReachesPlus g'.prod (σ a) (σ b) ↔ ReachesPlus g.prod a b := by
  rw [Verif.reachesPlus_iff, Verif.reachesPlus_iff]
  refine h.transGen_iff (fun a b ha hb => h.direct_iff ha hb) ?_ ?_ ha hb
  · rintro a b ⟨α, hp, hm⟩; exact ⟨(h.prodU hp).1, (h.prodU hp).2 b hm⟩
  · rintro a b ⟨α, ⟨r, hr, rfl, rfl⟩, hm⟩
    exact ⟨(h.wf' r hr).1, (h.wf' r hr).2 b hm⟩

theorem reaches_iff (h : Renumbered U σ g g') {a b : Sym} (ha : U a) (hb : U b) :
    Reaches g'.prod (σ a) (σ b) ↔ Reaches g.prod a b := by
  rw [reaches_iff_plus, reaches_iff_plus, h.reachesPlus_iff ha hb]
  exact or_congr_right ⟨h.ren.inj a b ha hb, fun e => by rw [e]⟩

theorem unit_iff (h : Renumbered U σ g g') {a b : Sym} (ha : U a) (hb : U b) :
    UnitChain g'.prod (σ a) (σ b) ↔ UnitChain g.prod a b := by
  unfold UnitChain
  refine h.transGen_iff (fun a b ha hb => ?_) ?_ ?_ ha hb
  · unfold UnitStep
    rw [show [σ b] = [b].map σ from rfl, h.prod_map ha (single hb)]
    exact and_congr_right fun _ => not_congr ⟨h.ren.inj a b ha hb, fun e => by rw [e]⟩
  · rintro a b ⟨hp, -⟩; exact ⟨(h.prodU hp).1, (h.prodU hp).2 b (by simp)⟩
  · rintro a b ⟨⟨r, hr, rfl, e⟩, -⟩
    exact ⟨(h.wf' r hr).1, (h.wf' r hr).2 b (by rw [e]; simp)⟩

theorem used_iff (h : Renumbered U σ g g') {a : Sym} (ha : U a) : g'.Used (σ a) ↔ g.Used a := by
  constructor
  · rintro ⟨r, hr, hm⟩
    obtain ⟨q, hq, rfl⟩ := List.mem_map.1 (h.ren.rules.mem_iff.1 hr)
    refine ⟨q, hq, ?_⟩
    rcases hm with e | hm
    · exact .inl (h.ren.inj _ _ (h.rules q hq).1 ha e)
    · obtain ⟨c, hc, e⟩ := List.mem_map.1 hm
      rw [← h.ren.inj c a ((h.rules q hq).2 c hc) ha e]
      exact .inr hc
  · rintro ⟨r, hr, hm⟩
    refine ⟨r.rename σ, h.ren.rules.mem_iff.2 (List.mem_map_of_mem hr), ?_⟩
    rcases hm with e | hm
    · exact .inl (congrArg σ e)
    · exact .inr (List.mem_map_of_mem hm)

theorem productive_iff (h : Renumbered U σ g g') {a : Sym} (ha : U a) :
    Productive g'.prod g'.Term (σ a) ↔ Productive g.prod g.Term a := by
  constructor
  · rintro ⟨w, hw⟩
    obtain ⟨v, -, hv⟩ := (h.lang_iff ha w).1 hw
    exact ⟨v, hv⟩
  · rintro ⟨v, hv⟩; exact ⟨v.map σ, (h.lang_iff ha _).2 ⟨v, rfl, hv⟩⟩

theorem minLen_iff (h : Renumbered U σ g g') {a : Sym} (ha : U a) (m : Nat) :
    g'.MinLen (σ a) m ↔ g.MinLen a m := by
  unfold Cfg.MinLen
  refine and_congr ⟨?_, ?_⟩ ⟨fun k w hw => ?_, fun k w hw => ?_⟩
  · rintro ⟨w, hw, e⟩
    obtain ⟨v, rfl, hv⟩ := (h.lang_iff ha w).1 hw
    exact ⟨v, hv, by simpa using e⟩
  · rintro ⟨v, hv, e⟩
    exact ⟨v.map σ, (h.lang_iff ha _).2 ⟨v, rfl, hv⟩, by simpa using e⟩
  · simpa using k (w.map σ) ((h.lang_iff ha _).2 ⟨w, rfl, hw⟩)
  · obtain ⟨v, rfl, hv⟩ := (h.lang_iff ha w).1 hw
    simpa using k v hv

/-- A string whose image begins with, ends with or contains given images. -/
theorem derives_exists (h : Renumbered U σ g g') {A : Sym} (hA : U A) {F : List Sym → Prop}
    {F' : List Sym → Prop} (hF : ∀ v, (∀ a ∈ v, U a) → (F' (v.map σ) ↔ F v)) :
    (∃ w, Derives g'.prod [σ A] w ∧ F' w) ↔ ∃ v, Derives g.prod [A] v ∧ F v := by
  constructor
  · rintro ⟨w, d, k⟩
    obtain ⟨v, rfl, h1, h2⟩ := (h.derives_iff (u := [A]) (single hA)).1 d
    exact ⟨v, h2, (hF v h1).1 k⟩
  · rintro ⟨v, d, k⟩
    have hv : ∀ a ∈ v, U a := h.derU (derives_iff_der.1 d) (single hA)
    exact ⟨v.map σ, (h.derives_map (u := [A]) (single hA) hv).2 d, (hF v hv).2 k⟩

theorem first_iff (h : Renumbered U σ g g') {A a : Sym} (hA : U A) (ha : U a) :
    FirstOf g'.prod g'.Term [σ A] (σ a) ↔ FirstOf g.prod g.Term [A] a := by
  unfold FirstOf
  refine and_congr (h.term_iff ha) ?_
  have := h.derives_exists hA (F := fun v => ∃ γ, v = a :: γ) (F' := fun v => ∃ γ, v = σ a :: γ) (by
    intro v hv
    cases v with
    | nil => simp
    | cons b v =>
      simp only [List.map_cons, List.cons.injEq, exists_eq_right']
      exact ⟨fun e => h.ren.inj b a (hv b (by simp)) ha e, fun e => by rw [e]⟩)
  constructor
  · rintro ⟨γ, d⟩
    obtain ⟨v, d, γ, rfl⟩ := this.1 ⟨_, d, γ, rfl⟩
    exact ⟨γ, d⟩
  · rintro ⟨γ, d⟩
    obtain ⟨v, d, γ, rfl⟩ := this.2 ⟨_, d, γ, rfl⟩
    exact ⟨γ, d⟩

theorem last_iff (h : Renumbered U σ g g') {A a : Sym} (hA : U A) (ha : U a) :
    LastOf g'.prod g'.Term [σ A] (σ a) ↔ LastOf g.prod g.Term [A] a := by
  unfold LastOf
  refine and_congr (h.term_iff ha) ?_
  have := h.derives_exists hA (F := fun v => ∃ γ, v = γ ++ [a])
    (F' := fun v => ∃ γ, v = γ ++ [σ a]) (by
    intro v hv
    constructor
    · rintro ⟨γ, e⟩
      obtain ⟨v1, v2, rfl, rfl, e2⟩ := List.map_eq_append_iff.1 e
      obtain ⟨b, rfl⟩ : ∃ b, v2 = [b] := by
        rcases v2 with _ | ⟨b, _ | ⟨c, v2⟩⟩
        · simp at e2
        · exact ⟨b, rfl⟩
        · simp at e2
      simp only [List.map_cons, List.map_nil, List.cons.injEq, and_true] at e2
      exact ⟨v1, by rw [h.ren.inj b a (hv b (by simp)) ha e2]⟩
    · rintro ⟨γ, rfl⟩; exact ⟨γ.map σ, by simp⟩)
  constructor
  · rintro ⟨γ, d⟩
    obtain ⟨v, d, γ, rfl⟩ := this.1 ⟨_, d, γ, rfl⟩
    exact ⟨γ, d⟩
  · rintro ⟨γ, d⟩
    obtain ⟨v, d, γ, rfl⟩ := this.2 ⟨_, d, γ, rfl⟩
    exact ⟨γ, d⟩

theorem nullable_iff (h : Renumbered U σ g g') {A : Sym} (hA : U A) :
    Derives g'.prod [σ A] [] ↔ Derives g.prod [A] [] :=
  h.derives_map (u := [A]) (v := []) (single hA) (by simp)

theorem follow_iff (h : Renumbered U σ g g') {A a : Sym} (hA : U A) (ha : U a) :
    FollowOf g'.prod g'.Term (σ A) (σ a) ↔ FollowOf g.prod g.Term A a := by
  unfold FollowOf
  refine and_congr (h.term_iff ha) ?_
  have key : ∀ B, U B → ((∃ α γ, Derives g'.prod [σ B] (α ++ σ A :: σ a :: γ)) ↔
      ∃ α γ, Derives g.prod [B] (α ++ A :: a :: γ)) := by
    intro B hB
    have := h.derives_exists hB (F := fun v => ∃ α γ, v = α ++ A :: a :: γ)
      (F' := fun v => ∃ α γ, v = α ++ σ A :: σ a :: γ) (by
      intro v hv
      constructor
      · rintro ⟨α, γ, e⟩
        obtain ⟨v1, v2, rfl, rfl, e2⟩ := List.map_eq_append_iff.1 e
        rcases v2 with _ | ⟨b, _ | ⟨c, v2⟩⟩
        · simp at e2
        · simp at e2
        · simp only [List.map_cons, List.cons.injEq] at e2
          exact ⟨v1, v2, by rw [h.ren.inj b A (hv b (by simp)) hA e2.1,
            h.ren.inj c a (hv c (by simp)) ha e2.2.1]⟩
      · rintro ⟨α, γ, rfl⟩; exact ⟨α.map σ, γ.map σ, by simp⟩)
    constructor
    · rintro ⟨α, γ, d⟩
      obtain ⟨v, d, α, γ, rfl⟩ := this.1 ⟨_, d, α, γ, rfl⟩
      exact ⟨α, γ, d⟩
    · rintro ⟨α, γ, d⟩
      obtain ⟨v, d, α, γ, rfl⟩ := this.2 ⟨_, d, α, γ, rfl⟩
      exact ⟨α, γ, d⟩
  have hlen : ∀ {P : Productions} {B : Sym} {α γ : List Sym} {x y : Sym},
      Derives P [B] (α ++ x :: y :: γ) → ∃ β, P B β := by
    intro P B α γ x y d
    rw [derives_iff_der, Der.single_iff] at d
    rcases d with e | ⟨β, hp, -⟩
    · have := congrArg List.length e
      simp only [List.length_append, List.length_cons, List.length_nil] at this
      omega
    · exact ⟨β, hp⟩
  constructor
  · rintro ⟨B', α, γ, d⟩
    obtain ⟨β, hp⟩ := hlen d
    obtain ⟨B, β, hq, rfl, -⟩ := (h.ren.prod _ _).1 hp
    obtain ⟨α, γ, d⟩ := (key B (h.prodU hq).1).1 ⟨α, γ, d⟩
    exact ⟨B, α, γ, d⟩
  · rintro ⟨B, α, γ, d⟩
    obtain ⟨β, hp⟩ := hlen d
    obtain ⟨α, γ, d⟩ := (key B (h.prodU hp).1).2 ⟨α, γ, d⟩
    exact ⟨σ B, α, γ, d⟩

theorem first_onto (h : Renumbered U σ g g') {x : Sym} (hx : x < g'.numSyms) :
    ∃ a, U a ∧ σ a = x := (h.ren.onto x).1 hx

end Cfg.Renumbered

/-- The results of `reorder_symbols` and `remove_unused_symbols` are renumbered grammars. -/
theorem C130_remap (g : Cfg) (hwf : g.WF) (hroots : g.RootsIn (· < g.numSyms))
    (hlim : g.Limited) (hnames : g.src.names.length ≤ g.numSyms) :
    (∀ f : Sym → Sym → Ordering, TotalCmp f →
      ∃ r' σ, (Remap.new g).reorderSymbols f = .ok r' ∧
        Cfg.Renumbered (· < g.numSyms) σ g r'.g) ∧
    (g.rules ≠ [] → ∃ r' σ, (Remap.new g).removeUnusedSymbols = .ok r' ∧
      Cfg.Renumbered g.Used σ g r'.g) := by
  refine ⟨fun f hf => ?_, fun hne => ?_⟩
  · obtain ⟨r', σ, h1, h2, -⟩ := C55_reorder_symbols_partial g hf hwf hroots hlim hnames
    exact ⟨r', σ, h1, h2, hwf, fun a ha => ha⟩
  · obtain ⟨r', σ, h1, -, h2, -⟩ := C85_remove_unused_symbols g hwf hroots hlim hnames hne
    refine ⟨r', σ, h1, h2, fun r hr => ⟨⟨r, hr, .inl rfl⟩, fun a ha => ⟨r, hr, .inr ha⟩⟩, ?_⟩
    rintro a ⟨r, hr, rfl | ha⟩
    · exact (hwf r hr).1
    · exact (hwf r hr).2 a ha

section

variable {U : Sym → Prop} {σ : Sym → Sym} {g g' : Cfg}

/-- Symbol sets that correspond. -/
def SetsAgree (U : Sym → Prop) (σ : Sym → Sym) (b b' : BitSet) : Prop :=
  ∀ a, U a → (Has b' (σ a) ↔ Has b a)

/-- **C130.** The symbol sets correspond; sets propagated from corresponding sets correspond. -/
theorem C130_sets (h : Cfg.Renumbered U σ g g') :
    (∃ b b', g.terminalSymbols = .ok b ∧ g'.terminalSymbols = .ok b' ∧ SetsAgree U σ b b') ∧
    (∃ b b', g.nullingSymbols = .ok b ∧ g'.nullingSymbols = .ok b' ∧ SetsAgree U σ b b') ∧
    (∃ b b', g.unusedSymbols = .ok b ∧ g'.unusedSymbols = .ok b' ∧ SetsAgree U σ b b') ∧
    ∀ b b' : BitSet, b.length = g.numSyms → b'.length = g'.numSyms → SetsAgree U σ b b' →
      (∃ c c', g.rhsClosureForAll b = .ok c ∧ g'.rhsClosureForAll b' = .ok c' ∧
        SetsAgree U σ c c') ∧
      ∃ c c', g.rhsClosureForAny b = .ok c ∧ g'.rhsClosureForAny b' = .ok c' ∧
        SetsAgree U σ c c' := by
  refine ⟨?_, ?_, ?_, fun b b' hb hb' hag => ⟨?_, ?_⟩⟩
  · obtain ⟨b, h1, h2, h3⟩ := BitSet.terminal_spec h.wf
    obtain ⟨c, k1, k2, k3⟩ := BitSet.terminal_spec h.wf'
    exact ⟨b, c, h1, k1, fun a ha => by rw [h3, k3]; exact h.term_iff ha⟩
  · obtain ⟨b, h1, h2, h3⟩ := C07_nulling g h.wf
    obtain ⟨c, k1, k2, k3⟩ := C07_nulling g' h.wf'
    exact ⟨b, c, h1, k1, fun a ha => by
      rw [h3, k3]; exact h.prod_map (α := []) ha (by simp)⟩
  · obtain ⟨b, h1, h2, h3⟩ := BitSet.unused_spec h.wf
    obtain ⟨c, k1, k2, k3⟩ := BitSet.unused_spec h.wf'
    exact ⟨b, c, h1, k1, fun a ha => by
      rw [h3, k3, h.used_iff ha]; simp [h.lt' ha, h.lt a ha]⟩
  · obtain ⟨c, h1, h2, h3, h4, h5⟩ := closureAll_spec h.wf b hb
    obtain ⟨c', k1, k2, k3, k4, k5⟩ := closureAll_spec h.wf' b' hb'
    refine ⟨c, c', h1, k1, fun a ha => ⟨fun hc => ?_, fun hc => ?_⟩⟩
    · have := k5 (fun x => ∀ a, U a → σ a = x → Has c a) (fun x hx a ha e => by
        subst e; exact h3 a ((hag a ha).1 hx)) ?_ (σ a) hc
      · exact this a ha rfl
      · intro X β hp hne hβ a ha e
        subst e
        obtain ⟨α, rfl, hq⟩ := (h.prod_iff ha).1 hp
        exact h4 a α hq (by rintro rfl; exact hne rfl) fun s hs =>
          hβ (σ s) (List.mem_map_of_mem hs) s ((h.prodU hq).2 s hs) rfl
    · have := h5 (fun a => U a → Has c' (σ a)) (fun a hx ha => k3 _ ((hag a ha).2 hx)) ?_ a hc
      · exact this ha
      · intro A α hp hne hα hA
        refine k4 (σ A) (α.map σ) ((h.prod_iff hA).2 ⟨α, rfl, hp⟩) (by simpa using hne) ?_
        intro s hs
        obtain ⟨t, ht, rfl⟩ := List.mem_map.1 hs
        exact hα t ht ((h.prodU hp).2 t ht)
  · obtain ⟨c, h1, h2, h3, h4, h5⟩ := closureAny_spec h.wf b hb
    obtain ⟨c', k1, k2, k3, k4, k5⟩ := closureAny_spec h.wf' b' hb'
    refine ⟨c, c', h1, k1, fun a ha => ⟨fun hc => ?_, fun hc => ?_⟩⟩
    · have := k5 (fun x => ∀ a, U a → σ a = x → Has c a) (fun x hx a ha e => by
        subst e; exact h3 a ((hag a ha).1 hx)) ?_ (σ a) hc
      · exact this a ha rfl
      · rintro X β hp ⟨s, hs, hβ⟩ a ha e
        subst e
        obtain ⟨α, rfl, hq⟩ := (h.prod_iff ha).1 hp
        obtain ⟨t, ht, rfl⟩ := List.mem_map.1 hs
        exact h4 a α hq ⟨t, ht, hβ t ((h.prodU hq).2 t ht) rfl⟩
    · have := h5 (fun a => U a → Has c' (σ a)) (fun a hx ha => k3 _ ((hag a ha).2 hx)) ?_ a hc
      · exact this ha
      · rintro A α hp ⟨s, hs, hα⟩ hA
        exact k4 (σ A) (α.map σ) ((h.prod_iff hA).2 ⟨α, rfl, hp⟩)
          ⟨σ s, List.mem_map_of_mem hs, hα ((h.prodU hp).2 s hs)⟩

/-- **C130.** The matrices of direct derivation, reachability and unit derivation correspond. -/
theorem C130_matrices (h : Cfg.Renumbered U σ g g') :
    ∃ m₁ m₁' m₂ m₂' m₃ m₃', g.directDerivationMatrix = .ok m₁ ∧
      g'.directDerivationMatrix = .ok m₁' ∧ g.reachabilityMatrix = .ok m₂ ∧
      g'.reachabilityMatrix = .ok m₂' ∧ g.unitDerivationMatrix = .ok m₃ ∧
      g'.unitDerivationMatrix = .ok m₃' ∧ ∀ a b, U a → U b →
        (Bit m₁' (σ a) (σ b) ↔ Bit m₁ a b) ∧ (Bit m₂' (σ a) (σ b) ↔ Bit m₂ a b) ∧
        (Bit m₃' (σ a) (σ b) ↔ Bit m₃ a b) := by
  obtain ⟨m₁, a1, -, a2⟩ := Cfg.directDerivation_spec h.wf
  obtain ⟨m₁', b1, -, b2⟩ := Cfg.directDerivation_spec h.wf'
  obtain ⟨m₂, c1, -, c2⟩ := Cfg.reachability_spec h.wf
  obtain ⟨m₂', d1, -, d2⟩ := Cfg.reachability_spec h.wf'
  obtain ⟨m₃, e1, -, e2⟩ := Cfg.unitDerivation_spec h.wf
  obtain ⟨m₃', f1, -, f2⟩ := Cfg.unitDerivation_spec h.wf'
  refine ⟨_, _, _, _, _, _, a1, b1, c1, d1, e1, f1, fun a b ha hb => ⟨?_, ?_, ?_⟩⟩
  · rw [a2, b2, h.direct_iff ha hb]
  · rw [c2, d2, h.reachesPlus_iff ha hb]
  · rw [e2, f2, h.unit_iff ha hb]

/-- **C130.** Usefulness for corresponding roots: productive and reachable symbols correspond, and
the same rules are useful. -/
theorem C130_usefulness (h : Cfg.Renumbered U σ g g') {roots : List Sym}
    (hr : ∀ s ∈ roots, U s) :
    ∃ u u', g.usefulnessWithRoots roots = .ok u ∧
      g'.usefulnessWithRoots (roots.map σ) = .ok u' ∧
      SetsAgree U σ u.productivity u'.productivity ∧
      SetsAgree U σ u.reachableSyms u'.reachableSyms ∧
      ∀ a b, U a → U b → (Bit u'.reachability (σ a) (σ b) ↔ Bit u.reachability a b) := by
  obtain ⟨u, h1, h2⟩ := usefulness_spec h.wf roots fun s hs => h.lt s (hr s hs)
  obtain ⟨u', k1, k2⟩ := usefulness_spec h.wf' (roots.map σ) fun s hs => by
    obtain ⟨t, ht, rfl⟩ := List.mem_map.1 hs
    exact h.lt' (hr t ht)
  refine ⟨u, u', h1, k1, fun a ha => ?_, fun a ha => ?_, fun a b ha hb => ?_⟩
  · rw [h2.prod, k2.prod, h.productive_iff ha]
  · rw [h2.reachable, k2.reachable, h.used_iff ha]
    refine or_congr ?_ (by simp [h.lt' ha, h.lt a ha])
    unfold ReachableFrom
    constructor
    · rintro ⟨r, hm, k⟩
      obtain ⟨t, ht, rfl⟩ := List.mem_map.1 hm
      exact ⟨t, ht, (h.reaches_iff (hr t ht) ha).1 k⟩
    · rintro ⟨t, ht, k⟩
      exact ⟨σ t, List.mem_map_of_mem ht, (h.reaches_iff (hr t ht) ha).2 k⟩
  · rw [h2.reach, k2.reach, h.reaches_iff ha hb]
    simp [h.lt' ha, h.lt a ha]

/-- **C130.** Both grammars are cycle free or neither is. -/
theorem C130_cycle_free (h : Cfg.Renumbered U σ g g') :
    ∃ b c c' d d', Cycles.new g = .ok c ∧ Cycles.new g' = .ok d ∧
      c.isCycleFree = .ok (b, c') ∧ d.isCycleFree = .ok (b, d') := by
  obtain ⟨c, b, c', h1, h2, h3, -⟩ := C34_cycle_free h.wf
  obtain ⟨d, b', d', k1, k2, k3, -⟩ := C34_cycle_free h.wf'
  have hc : CycleFree g'.prod ↔ CycleFree g.prod := by
    constructor
    · intro k a ha
      have hU : U a := by
        obtain ⟨y, ⟨hp, -⟩, -⟩ := Relation.TransGen.head'_iff.1 ha
        exact (h.prodU hp).1
      exact k (σ a) ((h.unit_iff hU hU).2 ha)
    · intro k x hx
      obtain ⟨y, ⟨hp, -⟩, -⟩ := Relation.TransGen.head'_iff.1 hx
      obtain ⟨a, α, hq, rfl, -⟩ := (h.ren.prod _ _).1 hp
      have hU := (h.prodU hq).1
      exact k a ((h.unit_iff hU hU).1 hx)
  have : b = b' := by
    have := h3.trans (hc.symm.trans k3.symm)
    cases b <;> cases b' <;> simp_all
  subst this
  exact ⟨b, c, c', d, d', h1, k1, h2, k2⟩

/-- Set maps that correspond. -/
def MapsAgree (U : Sym → Prop) (σ : Sym → Sym) (m m' : SetMap) : Prop :=
  ∀ A, U A → ((m' (σ A)).isSome = true ↔ (m A).isSome = true) ∧
    ∀ v v', m A = some v → m' (σ A) = some v' → (v'.hasNone = true ↔ v.hasNone = true) ∧
      (∀ a, U a → (σ a ∈ v'.list ↔ a ∈ v.list)) ∧ v'.list.Perm (v.list.map σ)

theorem lists_agree {l l' : List Sym} (hs : l.Pairwise (· < ·)) (hs' : l'.Pairwise (· < ·))
    (hinj : ∀ a b, U a → U b → σ a = σ b → a = b) (hl : ∀ a ∈ l, U a)
    (hl' : ∀ x ∈ l', ∃ a, U a ∧ σ a = x) (h : ∀ a, U a → (σ a ∈ l' ↔ a ∈ l)) :
    l'.Perm (l.map σ) := by
  refine (List.perm_ext_iff_of_nodup (hs'.imp fun h => by omega) ?_).2 fun x => ?_
  · refine List.Nodup.map_on (fun a ha b hb e => hinj a b (hl a ha) (hl b hb) e)
      (hs.imp fun h => by omega)
  · constructor
    · intro hx
      obtain ⟨a, ha, rfl⟩ := hl' x hx
      exact List.mem_map_of_mem ((h a ha).1 hx)
    · intro hx
      obtain ⟨a, ha, rfl⟩ := List.mem_map.1 hx
      exact (h a (hl a ha)).2 ha

/-- Maps that list corresponding sets for corresponding symbols. -/
theorem maps_agree (h : Cfg.Renumbered U σ g g') {m m' : SetMap} {F F' : Sym → Sym → Prop}
    {N N' : Sym → Prop} (k1 : ∀ A, (m A).isSome = true ↔ ∃ r ∈ g.rules, r.lhs = A)
    (k2 : ∀ A, (m' A).isSome = true ↔ ∃ r ∈ g'.rules, r.lhs = A)
    (k3 : ∀ A v, m A = some v → v.list.Pairwise (· < ·) ∧ (∀ a, a ∈ v.list ↔ F A a) ∧
      (v.hasNone = true ↔ N A))
    (k4 : ∀ A v, m' A = some v → v.list.Pairwise (· < ·) ∧ (∀ a, a ∈ v.list ↔ F' A a) ∧
      (v.hasNone = true ↔ N' A))
    (hF : ∀ A a, U A → U a → (F' (σ A) (σ a) ↔ F A a)) (hN : ∀ A, U A → (N' (σ A) ↔ N A))
    (hFU : ∀ A a, U A → F A a → U a) (hFU' : ∀ A a, F' A a → a < g'.numSyms) :
    MapsAgree U σ m m' := by
  intro A hA
  refine ⟨by rw [k1, k2, h.lhs_iff hA], fun v v' hv hv' => ?_⟩
  obtain ⟨a1, a2, a3⟩ := k3 A v hv
  obtain ⟨b1, b2, b3⟩ := k4 _ v' hv'
  have key : ∀ a, U a → (σ a ∈ v'.list ↔ a ∈ v.list) := fun a ha => by
    rw [a2, b2, hF A a hA ha]
  refine ⟨by rw [a3, b3, hN A hA], key, lists_agree a1 b1 h.ren.inj ?_ ?_ key⟩
  · intro a ha; exact hFU A a hA ((a2 a).1 ha)
  · intro x hx; exact (h.ren.onto x).1 (hFU' _ x ((b2 x).1 hx))

/-- **C130.** FIRST, LAST and FOLLOW sets correspond. -/
theorem C130_predict (h : Cfg.Renumbered U σ g g') (hroots : ∀ s ∈ g.roots, U s) :
    (∃ fs fs', g.firstSets = .ok fs ∧ g'.firstSets = .ok fs' ∧ MapsAgree U σ fs.map fs'.map) ∧
    (∃ m m', g.lastSets = .ok m ∧ g'.lastSets = .ok m' ∧ MapsAgree U σ m m') ∧
    ∃ m m', g.followSets = .ok m ∧ g'.followSets = .ok m' ∧ MapsAgree U σ m m' := by
  refine ⟨?_, ?_, ?_⟩
  · obtain ⟨fs, h1, h2, h3⟩ := C41_first h.wf
    obtain ⟨fs', k1, k2, k3⟩ := C41_first h.wf'
    refine ⟨fs, fs', h1, k1, maps_agree h h2 k2 h3 k3 (fun A a hA ha => h.first_iff hA ha)
      (fun A hA => h.nullable_iff hA) ?_ fun A a hf => hf.1.1⟩
    rintro A a hA ⟨-, γ, d⟩
    exact h.derU (derives_iff_der.1 d) (Cfg.Renumbered.single hA) a (by simp)
  · obtain ⟨m, h1, h2, h3⟩ := C45_last h.wf
    obtain ⟨m', k1, k2, k3⟩ := C45_last h.wf'
    refine ⟨m, m', h1, k1, maps_agree h h2 k2 h3 k3 (fun A a hA ha => h.last_iff hA ha)
      (fun A hA => h.nullable_iff hA) ?_ fun A a hf => hf.1.1⟩
    rintro A a hA ⟨-, γ, d⟩
    exact h.derU (derives_iff_der.1 d) (Cfg.Renumbered.single hA) a (by simp)
  · obtain ⟨fs, h1, h2⟩ := firstSets_spec h.wf
    obtain ⟨m, h3, h4⟩ := followSets_spec h.wf h2
    obtain ⟨fs', k1, k2⟩ := firstSets_spec h.wf'
    obtain ⟨m', k3, k4⟩ := followSets_spec h.wf' k2
    refine ⟨m, m', by unfold Cfg.followSets; rw [h1]; exact h3,
      by unfold Cfg.followSets; rw [k1]; exact k3, ?_⟩
    have key : ∀ {g : Cfg} {m : SetMap}, FollowInfo g m → ∀ A v, m A = some v →
        v.list.Pairwise (· < ·) ∧ (∀ a, a ∈ v.list ↔ FollowOf g.prod g.Term A a) ∧
        (v.hasNone = true ↔ A ∈ g.roots ∧ ∃ r ∈ g.rules, r.lhs = A) := by
      intro g m hi A v hv
      have ev : m.val A = v := by simp [SetMap.val, hv]
      have hA := (hi.keys A).1 (by rw [hv]; rfl)
      subst ev
      exact ⟨hi.sorted A, hi.follow A hA, hi.root A⟩
    refine maps_agree h h4.keys k4.keys (key h4) (key k4)
      (fun A a hA ha => h.follow_iff hA ha) (fun A hA => ?_) ?_ fun A a hf => hf.1.1
    · rw [h.lhs_iff hA, h.ren.roots]
      refine and_congr_left fun _ => ⟨fun hm => ?_, fun hm => List.mem_map_of_mem hm⟩
      obtain ⟨t, ht, e⟩ := List.mem_map.1 hm
      rwa [← h.ren.inj t A (hroots t ht) hA e]
    · rintro A a hA ⟨-, B, α, γ, d⟩
      rw [derives_iff_der, Der.single_iff] at d
      rcases d with e | ⟨β, hp, d⟩
      · have := congrArg List.length e
        simp only [List.length_append, List.length_cons, List.length_nil] at this
        omega
      · exact h.derU d (h.prodU hp).2 a (by simp)

/-- **C130.** Minimal sentence lengths are the same for corresponding symbols, in the range where
they do not overflow. -/
theorem C130_lengths (h : Cfg.Renumbered U σ g g') (K : Nat) (hK1 : 1 ≤ K)
    (hK : ∀ r ∈ g.rules, r.rhs.length ≤ K) (hb : K ^ (g.numSyms + 1) < 2 ^ 32)
    (hb' : K ^ (g'.numSyms + 1) < 2 ^ 32) :
    ∃ t t', g.minimalSentenceLengths (MinimalDistance.new g).minLength = .ok t ∧
      g'.minimalSentenceLengths (MinimalDistance.new g').minLength = .ok t' ∧
      ∀ a, U a → t'[σ a]? = t[a]? := by
  obtain ⟨t, h1, h2, h3, -⟩ := C86_sentence_lengths h.wf K hK1 hK hb
  obtain ⟨t', k1, k2, k3, -⟩ := C86_sentence_lengths h.wf' K hK1 (fun r hr => by
    obtain ⟨q, hq, rfl⟩ := List.mem_map.1 (h.ren.rules.mem_iff.1 hr)
    simpa [CfgRule.rename] using hK q hq) hb'
  refine ⟨t, t', h1, k1, fun a ha => ?_⟩
  have l1 : a < t.length := by rw [h2]; exact h.lt a ha
  have l2 : σ a < t'.length := by rw [k2]; exact h.lt' ha
  have key : ∀ v, t'[σ a]?.join = some v ↔ t[a]?.join = some v := fun v => by
    rw [h3, k3, h.minLen_iff ha]
  rw [List.getElem?_eq_getElem l1, List.getElem?_eq_getElem l2] at key ⊢
  exact congrArg some (Option.ext key)

/-- **C130.** The recursive rules are the renumbered recursive rules, with the same kinds, up to
order. -/
theorem C130_recursion (h : Cfg.Renumbered U σ g g') :
    ∃ l l', g.recursiveRules = .ok l ∧ g'.recursiveRules = .ok l' ∧
      l'.Perm (l.map fun p => (p.1.rename σ, p.2)) := by
  classical
  obtain ⟨l, h1, h2⟩ := C39_recursive h.wf
  obtain ⟨l₁, h3, h4⟩ := C39_kinds h.wf
  cases h1.symm.trans h3
  obtain ⟨l', k1, k2⟩ := C39_recursive h.wf'
  obtain ⟨l₂, k3, k4⟩ := C39_kinds h.wf'
  cases k1.symm.trans k3
  refine ⟨l, l', h1, k1, ?_⟩
  -- the kind of a rule
  let kind : Cfg → CfgRule → RecursionKind := fun g r =>
    ⟨decide (∃ s α, r.rhs = s :: α ∧ Reaches g.prod s r.lhs),
      decide (∃ a α s β b, r.rhs = a :: α ++ s :: β ++ [b] ∧ Reaches g.prod s r.lhs),
      decide (∃ s α, r.rhs = α ++ [s] ∧ Reaches g.prod s r.lhs)⟩
  have f : ∀ {x y : Bool}, (x = true ↔ y = true) → x = y := by
    intro x y h; cases x <;> cases y <;> simp_all
  have hl : ∀ {g : Cfg} {l : List (CfgRule × RecursionKind)}, (∀ p ∈ l, p.1 ∈ g.rules ∧
      (p.2.left = true ↔ ∃ s α, p.1.rhs = s :: α ∧ Reaches g.prod s p.1.lhs) ∧
      (p.2.right = true ↔ ∃ s α, p.1.rhs = α ++ [s] ∧ Reaches g.prod s p.1.lhs) ∧
      (p.2.middle = true ↔ ∃ a α s β b, p.1.rhs = a :: α ++ s :: β ++ [b] ∧
        Reaches g.prod s p.1.lhs)) → l = (l.map (·.1)).map fun r => (r, kind g r) := by
    intro g l hl
    rw [List.map_map]
    conv_lhs => rw [← List.map_id l]
    refine List.map_congr_left fun p hp => ?_
    obtain ⟨-, p1, p2, p3⟩ := hl p hp
    obtain ⟨r, ⟨a, b, c⟩⟩ := p
    simp only at p1 p2 p3
    simp only [id, Function.comp, kind, Prod.mk.injEq, RecursionKind.mk.injEq, true_and]
    exact ⟨f (by rw [p1, decide_eq_true_eq]), f (by rw [p3, decide_eq_true_eq]),
      f (by rw [p2, decide_eq_true_eq])⟩
  have hkind : ∀ r ∈ g.rules, kind g' (r.rename σ) = kind g r := by
    intro r hr
    obtain ⟨u1, u2⟩ := h.rules r hr
    simp only [kind, RecursionKind.mk.injEq]
    refine ⟨decide_eq_decide.2 ?_, decide_eq_decide.2 ?_, decide_eq_decide.2 ?_⟩
    · constructor
      · rintro ⟨s, α, e, k⟩
        obtain ⟨t, β, e', rfl, rfl⟩ := List.map_eq_cons_iff.1 e
        exact ⟨t, β, e', (h.reaches_iff (u2 t (by rw [e']; simp)) u1).1 k⟩
      · rintro ⟨t, β, e, k⟩
        exact ⟨σ t, β.map σ, by simp [CfgRule.rename, e],
          (h.reaches_iff (u2 t (by rw [e]; simp)) u1).2 k⟩
    · constructor
      · rintro ⟨a, α, s, β, b, e, k⟩
        obtain ⟨l1, l2, e', e1, e2⟩ := List.map_eq_append_iff.1 e
        obtain ⟨l3, l4, rfl, e3, e4⟩ := List.map_eq_append_iff.1 e1
        obtain ⟨t, γ, rfl, rfl, rfl⟩ := List.map_eq_cons_iff.1 e4
        obtain ⟨a', α', rfl, rfl, rfl⟩ := List.map_eq_cons_iff.1 e3
        obtain ⟨b', γ', rfl, rfl, e5⟩ := List.map_eq_cons_iff.1 e2
        rw [List.map_eq_nil_iff] at e5
        subst e5
        exact ⟨a', α', t, γ, b', e', (h.reaches_iff (u2 t (by rw [e']; simp)) u1).1 k⟩
      · rintro ⟨a, α, s, β, b, e, k⟩
        exact ⟨σ a, α.map σ, σ s, β.map σ, σ b, by simp [CfgRule.rename, e],
          (h.reaches_iff (u2 s (by rw [e]; simp)) u1).2 k⟩
    · constructor
      · rintro ⟨s, α, e, k⟩
        obtain ⟨l1, l2, e', rfl, e2⟩ := List.map_eq_append_iff.1 e
        obtain ⟨t, γ, rfl, rfl, e5⟩ := List.map_eq_cons_iff.1 e2
        rw [List.map_eq_nil_iff] at e5
        subst e5
        exact ⟨t, l1, e', (h.reaches_iff (u2 t (by rw [e']; simp)) u1).1 k⟩
      · rintro ⟨t, β, e, k⟩
        exact ⟨σ t, β.map σ, by simp [CfgRule.rename, e],
          (h.reaches_iff (u2 t (by rw [e]; simp)) u1).2 k⟩
  have hrec : ∀ r ∈ g.rules, (∃ s ∈ (r.rename σ).rhs, Reaches g'.prod s (r.rename σ).lhs) ↔
      ∃ s ∈ r.rhs, Reaches g.prod s r.lhs := by
    intro r hr
    obtain ⟨u1, u2⟩ := h.rules r hr
    constructor
    · rintro ⟨s, hs, k⟩
      obtain ⟨t, ht, rfl⟩ := List.mem_map.1 hs
      exact ⟨t, ht, (h.reaches_iff (u2 t ht) u1).1 k⟩
    · rintro ⟨t, ht, k⟩
      exact ⟨σ t, List.mem_map_of_mem ht, (h.reaches_iff (u2 t ht) u1).2 k⟩
  have hperm : (l'.map (·.1)).Perm ((l.map (·.1)).map (·.rename σ)) := by
    rw [k2, h2]
    refine (h.ren.rules.filter _).trans (List.Perm.of_eq ?_)
    rw [List.filter_map]
    congr 1
    refine List.filter_congr fun r hr => ?_
    simp only [Function.comp]
    exact decide_eq_decide.2 (hrec r hr)
  rw [hl k4]
  refine (hperm.map _).trans (List.Perm.of_eq ?_)
  rw [List.map_map, List.map_map]
  conv_rhs => rw [hl h4, List.map_map, List.map_map]
  refine List.map_congr_left fun p hp => ?_
  simp only [Function.comp, Prod.mk.injEq, true_and]
  exact hkind p.1 (h4 p hp).1

/-- `S ::= A b | ε`, `A ::= a | A a`; symbol 4 does not occur. -/
def exRenumber : Cfg :=
  { src := ⟨5, [none, none, none, none, none]⟩
    rules := [⟨0, [1, 3], {}⟩, ⟨1, [2], {}⟩, ⟨1, [1, 2], {}⟩, ⟨0, [], {}⟩], roots := [0] }

example : exRenumber.WF ∧ exRenumber.RootsIn (· < exRenumber.numSyms) ∧
    exRenumber.src.names.length ≤ exRenumber.numSyms ∧ exRenumber.rules ≠ [] ∧
    (∀ r ∈ exRenumber.rules, r.rhs.length ≤ 2) ∧ 2 ^ (exRenumber.numSyms + 1) < 2 ^ 32 := by
  decide +kernel

example : exRenumber.Limited := fun n h => by cases h

/-- The symbols in the order 3, 2, 1, 0. -/
example : Cfg.Renumbered (· < 4) (fun a => 3 - a) exRenumber
    { src := ⟨4, [none, none, none, none]⟩
      rules := [⟨2, [1], {}⟩, ⟨2, [2, 1], {}⟩, ⟨3, [], {}⟩, ⟨3, [2, 0], {}⟩], roots := [3] } := by
  refine ⟨⟨?_, ?_, ?_, rfl, rfl, rfl, ?_⟩, by decide, fun a ha => ?_⟩
  · intro x
    show x < 4 ↔ _
    constructor
    · intro hx; exact ⟨3 - x, by omega, by omega⟩
    · rintro ⟨a, ha, rfl⟩; omega
  · intro a b ha hb e; omega
  · decide
  · intro a ha
    have : a = 0 ∨ a = 1 ∨ a = 2 ∨ a = 3 := by omega
    rcases this with rfl | rfl | rfl | rfl <;> rfl
  · show a < 5; omega

end

end Verif
