import Verif.Props.SplitAnalyses
import Verif.Props.TreesFinite

/-! # Property C139: analyses of a grammar whose nulling rules are eliminated -/

namespace Verif

open Cfg Cycles BitMatrix

/-- Every left side of a rule derives a non-empty string of terminals. -/
def Cfg.NonEmpty (g : Cfg) : Prop := ∀ r ∈ g.rules, ∃ w, w ≠ [] ∧ g.Lang r.lhs w

/-- What the elimination does to a grammar where every left side derives a non-empty string: `g₁` is
the grammar with long rules split. -/
structure Eliminated (g g₁ g' : Cfg) (h : Sym → List Sym) : Prop where
  unfolds : Unfolds h g g₁
  bin : ∀ A α, g₁.prod A α → α.length ≤ 2
  prod : g'.prod = elimProds g₁.prod
  syms : g'.numSyms = g₁.numSyms
  roots : g'.roots = g.roots
  wf' : g'.WF
  live : ∀ x < g₁.numSyms, ∃ w, w ≠ [] ∧ InLang g₁.prod g₁.Term x w

theorem eliminated {g : Cfg} (hwf : g.WF) (hne : g.NonEmpty) :
    ∃ g₁ g' res h, g.binarizeAndEliminateNulling = .ok (g', res) ∧ Eliminated g g₁ g' h := by
  obtain ⟨g₁, g', res, e, hs⟩ := elim_spec hwf
  obtain ⟨h, hu, hr⟩ := split_unfolds hwf (limit := some 2) (by rintro n ⟨⟩; exact Nat.le_refl 2) hs.split
  have h2 : ∀ A α, g₁.prod A α → α.length ≤ 2 := by
    rintro A α ⟨r, hr, -, rfl⟩
    exact hs.len r hr
  have live : ∀ x < g₁.numSyms, ∃ w, w ≠ [] ∧ InLang g₁.prod g₁.Term x w := by
    refine hu.induct (fun x hx => ?_) fun x α _ hp _ h2 ih => ?_
    · by_cases ht : g.Term x
      · exact ⟨[x], by simp, .refl, by rw [hu.term_eq]; simpa using ht⟩
      · have : ∃ r ∈ g.rules, r.lhs = x := by
          by_contra hh
          exact ht ⟨hx, fun r hr e => hh ⟨r, hr, e⟩⟩
        obtain ⟨r, hr, rfl⟩ := this
        obtain ⟨w, hw, hl⟩ := hne r hr
        exact ⟨w, hw, (hu.lang_iff hx).2 hl⟩
    · have key : ∀ α : List Sym, (∀ y ∈ α, ∃ w, w ≠ [] ∧ InLang g₁.prod g₁.Term y w) →
          ∃ w, α.length ≤ w.length ∧ Der g₁.prod α w ∧ ∀ z ∈ w, g₁.Term z := by
        intro α
        induction α with
        | nil => exact fun _ => ⟨[], by simp, .nil, by simp⟩
        | cons a α ih =>
          intro hα
          obtain ⟨v, hv, d, hT⟩ := hα a (by simp)
          obtain ⟨w, hw, d', hT'⟩ := ih fun y hy => hα y (by simp [hy])
          refine ⟨v ++ w, ?_, Der.append (derives_iff_der.1 d) d', fun z hz => ?_⟩
          · have := List.length_pos_iff.2 hv
            simp only [List.length_cons, List.length_append]
            omega
          · rcases List.mem_append.1 hz with hz | hz
            · exact hT z hz
            · exact hT' z hz
      obtain ⟨w, hw, d, hT⟩ := key α ih
      exact ⟨w, by rintro rfl; rw [List.length_nil] at hw; omega, derives_iff_der.2 ((Der.prod hp).trans d), hT⟩
  refine ⟨g₁, g', res, h, e, hu, h2, ?_, hs.syms.1, hs.roots.1, hs.wf, live⟩
  funext A α
  apply propext
  rcases hs.prods with ⟨hno, rfl⟩ | ⟨-, hp⟩
  · constructor
    · intro hp
      refine ⟨.inl hp, ?_⟩
      rintro rfl
      exact hno A (derives_iff_der.2 (.prod hp))
    · rintro ⟨hp | ⟨β, -, a, b, -, ⟨-, hb⟩ | ⟨-, ha⟩⟩, -⟩
      · exact hp
      · exact absurd hb (hno _)
      · exact absurd ha (hno _)
  · rw [hp]
    refine and_iff_left_of_imp fun k => ?_
    have hA : A < g₁.numSyms := by
      rcases k.1 with hp | ⟨β, hp, -⟩
      · exact (hu.prod_lt hp).1
      · exact (hu.prod_lt hp).1
    obtain ⟨w, hw, d, hT⟩ := live A hA
    exact ⟨w, derives_iff_der.2 ((derives_elim h2 A hw).2 (derives_iff_der.1 d)), hT⟩

namespace Eliminated

variable {g g₁ g' : Cfg} {h : Sym → List Sym}

theorem derives_iff₁ (k : Eliminated g g₁ g' h) {A : Sym} {w : List Sym} (hw : w ≠ []) :
    Derives g'.prod [A] w ↔ Derives g₁.prod [A] w := by
  rw [derives_iff_der, derives_iff_der, k.prod]
  exact derives_elim k.bin A hw

theorem not_nullable (k : Eliminated g g₁ g' h) (A : Sym) : ¬ Derives g'.prod [A] [] := by
  rw [k.prod]
  exact not_nullable_of_nonempty (fun A hp => hp.2 rfl) A

theorem lhs_iff₁ (k : Eliminated g g₁ g' h) {a : Sym} :
    (∃ r ∈ g'.rules, r.lhs = a) ↔ ∃ r ∈ g₁.rules, r.lhs = a := by
  constructor
  · rintro ⟨r, hr, rfl⟩
    have hp : g'.prod r.lhs r.rhs := ⟨r, hr, rfl, rfl⟩
    rw [k.prod] at hp
    rcases hp.1 with ⟨q, hq, e, -⟩ | ⟨β, ⟨q, hq, e, -⟩, -⟩
    · exact ⟨q, hq, e⟩
    · exact ⟨q, hq, e⟩
  · rintro ⟨r, hr, rfl⟩
    obtain ⟨w, hw, d, hT⟩ := k.live r.lhs (k.unfolds.wf' r hr).1
    rcases Der.single_iff.1 (derives_iff_der.1 ((k.derives_iff₁ hw).2 d)) with rfl | ⟨α, ⟨q, hq, e, -⟩, -⟩
    · exact absurd rfl ((hT r.lhs (by simp)).2 r hr)
    · exact ⟨q, hq, e⟩

theorem term_eq (k : Eliminated g g₁ g' h) : g'.Term = g.Term := by
  rw [← k.unfolds.term_eq]
  funext a
  apply propext
  unfold Cfg.Term
  rw [k.syms]
  refine and_congr_right fun _ => ?_
  have := k.lhs_iff₁ (a := a)
  constructor
  · intro h1 r hr e
    obtain ⟨q, hq, e'⟩ := this.2 ⟨r, hr, e⟩
    exact h1 q hq e'
  · intro h1 r hr e
    obtain ⟨q, hq, e'⟩ := this.1 ⟨r, hr, e⟩
    exact h1 q hq e'

theorem lhs_iff (k : Eliminated g g₁ g' h) {a : Sym} (ha : a < g.numSyms) :
    (∃ r ∈ g'.rules, r.lhs = a) ↔ ∃ r ∈ g.rules, r.lhs = a := by
  rw [k.lhs_iff₁, k.unfolds.lhs_iff ha]

theorem first_iff (k : Eliminated g g₁ g' h) {A a : Sym} (hA : A < g.numSyms) :
    FirstOf g'.prod g'.Term [A] a ↔ FirstOf g.prod g.Term [A] a := by
  rw [← k.unfolds.first_iff hA]
  unfold FirstOf
  rw [k.term_eq, k.unfolds.term_eq]
  exact and_congr_right fun _ => exists_congr fun γ => k.derives_iff₁ (by simp)

theorem last_iff (k : Eliminated g g₁ g' h) {A a : Sym} (hA : A < g.numSyms) :
    LastOf g'.prod g'.Term [A] a ↔ LastOf g.prod g.Term [A] a := by
  rw [← k.unfolds.last_iff hA]
  unfold LastOf
  rw [k.term_eq, k.unfolds.term_eq]
  exact and_congr_right fun _ => exists_congr fun γ => k.derives_iff₁ (by simp)

theorem follow_iff (k : Eliminated g g₁ g' h) {A a : Sym} (hA : A < g.numSyms) :
    FollowOf g'.prod g'.Term A a ↔ FollowOf g.prod g.Term A a := by
  rw [← k.unfolds.follow_iff hA]
  unfold FollowOf
  rw [k.term_eq, k.unfolds.term_eq]
  exact and_congr_right fun _ => exists_congr fun B => exists_congr fun α =>
    exists_congr fun γ => k.derives_iff₁ (by simp)

theorem reaches_iff (k : Eliminated g g₁ g' h) {a b : Sym} (ha : a < g.numSyms)
    (hb : b < g.numSyms) : Reaches g'.prod a b ↔ Reaches g.prod a b := by
  rw [← k.unfolds.reaches_iff ha hb]
  unfold Reaches
  exact exists_congr fun p => exists_congr fun s => k.derives_iff₁ (by simp)

theorem reachesPlus_iff (k : Eliminated g g₁ g' h) {a b : Sym} (ha : a < g.numSyms)
    (hb : b < g.numSyms) : ReachesPlus g'.prod a b ↔ ReachesPlus g.prod a b := by
  rw [← k.unfolds.reachesPlus_iff ha hb, Unfolds.reachesPlus_prod, Unfolds.reachesPlus_prod]
  constructor
  · rintro ⟨α, p, s, hp, d⟩
    have d' : Der g₁.prod α (p ++ b :: s) := d.mono' fun A α hp => by
      rw [k.prod] at hp
      exact elimProds_der hp
    rw [k.prod] at hp
    rcases hp.1 with hq | ⟨β, hq, x, y, rfl, ⟨rfl, hy⟩ | ⟨rfl, hx⟩⟩
    · exact ⟨α, p, s, hq, d'⟩
    · refine ⟨_, p, s, hq, ?_⟩
      have := Der.append (u₁ := [x]) d' (derives_iff_der.1 hy)
      simpa using this
    · exact ⟨_, p, s, hq, Der.append (u₁ := [x]) (v₁ := []) (derives_iff_der.1 hx) d'⟩
  · rintro ⟨α, p, s, hp, d⟩
    obtain ⟨α', he, d'⟩ := der_elim k.bin d
    rw [k.prod]
    have hne : α' ≠ [] := by
      rintro rfl
      have : p ++ b :: s = [] := by
        generalize p ++ b :: s = l at d'
        cases d'
        rfl
      simp at this
    refine ⟨α', p, s, ⟨?_, hne⟩, d'⟩
    rcases erase_short he (k.bin _ _ hp) hne with rfl | hsh
    · exact .inl hp
    · exact .inr ⟨α, hp, hsh⟩

theorem used_iff (k : Eliminated g g₁ g' h) {a : Sym} (ha : a < g.numSyms) :
    g'.Used a ↔ g.Used a := by
  constructor
  · rintro ⟨r, hr, e⟩
    rw [← k.unfolds.used_iff ha]
    rcases e with e | e
    · obtain ⟨q, hq, e⟩ := k.lhs_iff₁.1 ⟨r, hr, e⟩
      exact ⟨q, hq, .inl e⟩
    · have hp : g'.prod r.lhs r.rhs := ⟨r, hr, rfl, rfl⟩
      rw [k.prod] at hp
      rcases hp.1 with ⟨q, hq, -, e'⟩ | ⟨β, ⟨q, hq, -, rfl⟩, x, y, e', ⟨e1, -⟩ | ⟨e1, -⟩⟩
      · exact ⟨q, hq, .inr (by rw [e']; exact e)⟩
      · refine ⟨q, hq, .inr ?_⟩
        rw [e1] at e
        rw [e']
        simp [List.mem_singleton.1 e]
      · refine ⟨q, hq, .inr ?_⟩
        rw [e1] at e
        rw [e']
        simp [List.mem_singleton.1 e]
  · rintro ⟨r, hr, e | e⟩
    · obtain ⟨q, hq, e⟩ := (k.lhs_iff ha).2 ⟨r, hr, e⟩
      exact ⟨q, hq, .inl e⟩
    · obtain ⟨p, s, e⟩ := List.append_of_mem e
      have : ReachesPlus g.prod r.lhs a :=
        Unfolds.reachesPlus_prod.2 ⟨r.rhs, p, s, ⟨r, hr, rfl, rfl⟩, by rw [e]; exact .refl _⟩
      obtain ⟨α, p, s, hp, d⟩ :=
        Unfolds.reachesPlus_prod.1 ((k.reachesPlus_iff (k.unfolds.wf r hr).1 ha).2 this)
      have key : ∀ {u w : List Sym}, Der g'.prod u w → (∀ x ∈ u, x = a → g'.Used a) →
          ∀ x ∈ w, x = a → g'.Used a := by
        intro u w d
        induction d with
        | nil => exact fun _ x hx => absurd hx (by simp)
        | keep b _ ih =>
          intro hu x hx
          rcases List.mem_cons.1 hx with rfl | hx
          · exact hu x (by simp)
          · exact ih (fun y hy => hu y (by simp [hy])) x hx
        | @expand A α x u v hp _ _ ihx ihu =>
          intro hu y hy
          rcases List.mem_append.1 hy with hy | hy
          · refine ihx (fun z hz e => ?_) y hy
            obtain ⟨q, hq, -, rfl⟩ := hp
            exact ⟨q, hq, .inr (e ▸ hz)⟩
          · exact ihu (fun z hz => hu z (by simp [hz])) y hy
      refine key d (fun x hx e => ?_) a (by simp) rfl
      obtain ⟨q, hq, -, rfl⟩ := hp
      exact ⟨q, hq, .inr (e ▸ hx)⟩

theorem lang_iff (k : Eliminated g g₁ g' h) {A : Sym} (hA : A < g.numSyms) {w : List Sym} :
    g'.Lang A w ↔ w ≠ [] ∧ g.Lang A w := by
  by_cases hw : w = []
  · subst hw
    simp only [ne_eq, not_true_eq_false, false_and, iff_false]
    exact fun hl => k.not_nullable A hl.1
  · rw [and_iff_right hw, ← k.unfolds.lang_iff hA]
    unfold Cfg.Lang InLang
    rw [k.term_eq, k.unfolds.term_eq, k.derives_iff₁ hw]

/-- Between symbols the eliminated grammar derives through one-symbol rules. -/
theorem der_single {P : Productions} (hP : ∀ A, ¬ P A []) {u w : List Sym} (d : Der P u w) :
    ∀ A B, u = [A] → w = [B] → A = B ∨ UnitChain P A B := by
  have hlen : ∀ {u w : List Sym}, Der P u w → u.length ≤ w.length := by
    intro u w d
    induction d with
    | nil => simp
    | keep => simp; omega
    | @expand A α x u v hp _ _ ihx ihu =>
      have : α ≠ [] := by rintro rfl; exact hP A hp
      have := List.length_pos_iff.2 this
      simp only [List.length_cons, List.length_append]
      omega
  induction d with
  | nil => intro A B e; simp at e
  | keep a d _ =>
    intro A B e1 e2
    simp only [List.cons.injEq] at e1 e2
    exact .inl (e1.1.symm.trans e2.1)
  | @expand A' α x u v hp hx hu ihx _ =>
    intro A B e1 e2
    simp only [List.cons.injEq] at e1
    obtain ⟨rfl, rfl⟩ := e1
    have hv : v = [] := by cases hu; rfl
    subst hv
    rw [List.append_nil] at e2
    subst e2
    have hl := hlen hx
    match α, hp, hx, hl, ihx with
    | [], hp, _, _, _ => exact absurd hp (hP _)
    | [C], hp, hx, _, ihx =>
      by_cases hc : A' = C
      · subst hc
        exact ihx A' B rfl rfl
      · right
        rcases ihx C B rfl rfl with rfl | k
        · exact .single ⟨hp, hc⟩
        · exact Relation.TransGen.head ⟨hp, hc⟩ k
    | _ :: _ :: _, _, _, hl, _ => simp at hl

theorem chain_der {P : Productions} {A B : Sym} (c : UnitChain P A B) : Der P [A] [B] := by
  unfold UnitChain at c
  induction c with
  | single s => exact .prod s.1
  | tail _ s ih => exact ih.trans (.prod s.1)

theorem chain_old (k : Eliminated g g₁ g' h) {A B : Sym} (c : UnitChain g'.prod A B) :
    (∃ X < g.numSyms, Relation.ReflTransGen (UnitStep g'.prod) A X ∧ UnitChain g'.prod X B) ∨
      (h B).length < (h A).length := by
  have step : ∀ {x y : Sym}, UnitStep g'.prod x y → g.numSyms ≤ x →
      (h y).length < (h x).length := by
    intro x y hs hx
    have hp := hs.1
    rw [k.prod] at hp
    have : ∃ α, g₁.prod x α ∧ y ∈ α := by
      rcases hp.1 with hq | ⟨β, hq, a, b, rfl, ⟨e, -⟩ | ⟨e, -⟩⟩
      · exact ⟨_, hq, by simp⟩
      · exact ⟨_, hq, by simp [List.cons.inj e]⟩
      · exact ⟨_, hq, by simp [List.cons.inj e]⟩
    obtain ⟨α, hq, hy⟩ := this
    obtain ⟨e, h2⟩ := k.unfolds.prod_new hx hq
    rw [← e]
    exact k.unfolds.length_lt (k.unfolds.prod_lt hq).2 h2 hy
  unfold UnitChain at c
  induction c using Relation.TransGen.head_induction_on with
  | @single a s =>
    by_cases ha : a < g.numSyms
    · exact .inl ⟨a, ha, .refl, .single s⟩
    · exact .inr (step s (by omega))
  | @head a c s s' ih =>
    by_cases ha : a < g.numSyms
    · exact .inl ⟨a, ha, .refl, Relation.TransGen.head s s'⟩
    · rcases ih with ⟨X, hX, h1, h2⟩ | ih
      · exact .inl ⟨X, hX, .head s h1, h2⟩
      · exact .inr (ih.trans (step s (by omega)))

theorem derivesPlus_of {P : Productions} {A : Sym} {α w : List Sym} (hp : P A α) (d : Der P α w) :
    DerivesPlus P [A] w :=
  Relation.TransGen.head'_iff.2 ⟨α, ⟨A, α, [], [], hp, rfl, by simp⟩, derives_iff_der.2 d⟩

theorem cycle_old (k : Eliminated g g₁ g' h) (hc : ¬ CycleFree g'.prod) :
    ∃ A < g.numSyms, DerivesPlus g.prod [A] [A] := by
  unfold CycleFree at hc
  have : ∃ A, UnitChain g'.prod A A := by
    by_contra hh
    exact hc fun A hA => hh ⟨A, hA⟩
  obtain ⟨A, hA⟩ := this
  rcases k.chain_old hA with ⟨X, hX, h1, h2⟩ | hlt
  · refine ⟨X, hX, ?_⟩
    have h3 : UnitChain g'.prod X X := Relation.TransGen.trans_left h2 h1
    obtain ⟨Y, s, h4⟩ := Relation.TransGen.head'_iff.1 h3
    have d4 : Der g₁.prod [Y] [X] := by
      have : Der g'.prod [Y] [X] := by
        rcases Relation.reflTransGen_iff_eq_or_transGen.1 h4 with rfl | h4
        · exact .refl _
        · exact chain_der h4
      exact this.mono' fun A α hp => by
        rw [k.prod] at hp
        exact elimProds_der hp
    have hp := s.1
    rw [k.prod] at hp
    have : ∃ α, g₁.prod X α ∧ Der g₁.prod α [X] := by
      rcases hp.1 with hq | ⟨β, hq, x, y, rfl, ⟨e, hy⟩ | ⟨e, hx⟩⟩
      · exact ⟨_, hq, d4⟩
      · obtain rfl := (List.cons.inj e).1
        exact ⟨_, hq, Der.append (u₁ := [Y]) (v₁ := [X]) d4 (derives_iff_der.1 hy)⟩
      · obtain rfl := (List.cons.inj e).1
        exact ⟨_, hq, Der.append (u₁ := [x]) (v₁ := []) (derives_iff_der.1 hx) d4⟩
    obtain ⟨α, hq, d⟩ := this
    have d' := k.unfolds.der_bwd d
    rw [List.flatMap_cons, List.flatMap_nil, List.append_nil, k.unfolds.old X hX] at d'
    exact derivesPlus_of (k.unfolds.prod_old hX hq) d'
  · omega

theorem no_cycle (k : Eliminated g g₁ g' h) (hc : CycleFree g'.prod) {A B : Sym}
    (hA : A < g.numSyms) (hB : B < g.numSyms) (hne : A ≠ B)
    (h1 : Derives g.prod [A] [B]) (h2 : Derives g.prod [B] [A]) : False := by
  have hP : ∀ A, ¬ g'.prod A [] := fun A hp => by
    rw [k.prod] at hp
    exact hp.2 rfl
  have key : ∀ {A B : Sym}, A < g.numSyms → B < g.numSyms → A ≠ B → Derives g.prod [A] [B] →
      UnitChain g'.prod A B := by
    intro A B hA hB hne d
    have d' := (k.derives_iff₁ (by simp)).2 ((k.unfolds.derives_iff hA (by simpa using hB)).2 d)
    exact (der_single hP (derives_iff_der.1 d') A B rfl rfl).resolve_left hne
  exact hc A (Relation.TransGen.trans (key hA hB hne h1) (key hB hA (Ne.symm hne) h2))

end Eliminated

section

variable {g : Cfg} (hwf : g.WF) (hne : g.NonEmpty) {g' res : Cfg}
  (hg : g.binarizeAndEliminateNulling = .ok (g', res))
include hwf hne hg

theorem eliminated_of : ∃ g₁ h, Eliminated g g₁ g' h := by
  obtain ⟨g₁, g'', res', h, e, k⟩ := eliminated hwf hne
  obtain ⟨rfl, rfl⟩ := Prod.mk.inj (Res.ok.inj (hg.symm.trans e))
  exact ⟨g₁, h, k⟩

/-- **C139.** The terminals are the same, and no symbol is the left side of an empty rule. -/
theorem C139_sets :
    (∃ b b', g.terminalSymbols = .ok b ∧ g'.terminalSymbols = .ok b' ∧
      ∀ a, Has b' a ↔ Has b a) ∧
    ∃ b', g'.nullingSymbols = .ok b' ∧ ∀ a, ¬ Has b' a := by
  obtain ⟨g₁, h, k⟩ := eliminated_of hwf hne hg
  constructor
  · obtain ⟨b, h1, h2, h3⟩ := BitSet.terminal_spec hwf
    obtain ⟨c, k1, k2, k3⟩ := BitSet.terminal_spec k.wf'
    exact ⟨b, c, h1, k1, fun a => by rw [h3, k3, k.term_eq]⟩
  · obtain ⟨c, k1, k2, k3⟩ := C07_nulling g' k.wf'
    refine ⟨c, k1, fun a ha => ?_⟩
    rw [k3] at ha
    exact k.not_nullable a (derives_iff_der.2 (.prod ha))

/-- **C139.** Reachability is the same between old symbols, and so is the analysis of usefulness
from any old roots: the same old symbols are reachable. All symbols are productive, new ones too. -/
theorem C139_reachability {roots : List Sym} (hr : ∀ s ∈ roots, s < g.numSyms) :
    (∃ m m', g.reachabilityMatrix = .ok m ∧ g'.reachabilityMatrix = .ok m' ∧
      ∀ a b, a < g.numSyms → b < g.numSyms → (Bit m' a b ↔ Bit m a b)) ∧
    ∃ u u', g.usefulnessWithRoots roots = .ok u ∧ g'.usefulnessWithRoots roots = .ok u' ∧
      AgreeBelow g.numSyms u.reachableSyms u'.reachableSyms ∧
      ∀ a < g'.numSyms, Has u'.productivity a := by
  obtain ⟨g₁, h, k⟩ := eliminated_of hwf hne hg
  have hle : g.numSyms ≤ g'.numSyms := by rw [k.syms]; exact k.unfolds.le
  constructor
  · obtain ⟨m, h1, -, h2⟩ := Cfg.reachability_spec hwf
    obtain ⟨m', k1, -, k2⟩ := Cfg.reachability_spec k.wf'
    exact ⟨m, m', h1, k1, fun a b ha hb => by rw [h2, k2, k.reachesPlus_iff ha hb]⟩
  · obtain ⟨u, h1, h2⟩ := usefulness_spec hwf roots hr
    obtain ⟨u', k1, k2⟩ := usefulness_spec k.wf' roots fun s hs => by
      have := hr s hs
      omega
    refine ⟨u, u', h1, k1, fun a ha => ?_, fun a ha => ?_⟩
    · have : a < g'.numSyms := by omega
      rw [h2.reachable, k2.reachable, k.used_iff ha]
      simp only [ha, this, true_and]
      exact or_congr_left (exists_congr fun r =>
        and_congr_right fun hm => k.reaches_iff (hr r hm) ha)
    · rw [k2.prod]
      obtain ⟨w, hw, d, hT⟩ := k.live a (by rw [← k.syms]; exact ha)
      exact ⟨w, (k.derives_iff₁ hw).2 d, by rw [k.term_eq, ← k.unfolds.term_eq]; exact hT⟩

/-- **C139.** FIRST and LAST sets of old symbols have the same terminals and lose the mark for the
empty string; FOLLOW sets are the same. -/
theorem C139_predict :
    (∃ fs fs', g.firstSets = .ok fs ∧ g'.firstSets = .ok fs' ∧ ∀ A < g.numSyms,
      fs'.map A = (fs.map A).map fun v => { v with hasNone := false }) ∧
    (∃ m m', g.lastSets = .ok m ∧ g'.lastSets = .ok m' ∧ ∀ A < g.numSyms,
      m' A = (m A).map fun v => { v with hasNone := false }) ∧
    ∃ m m', g.followSets = .ok m ∧ g'.followSets = .ok m' ∧ SameBelow g.numSyms m m' := by
  obtain ⟨g₁, h, k⟩ := eliminated_of hwf hne hg
  refine ⟨?_, ?_, ?_⟩
  · obtain ⟨fs, h1, h2, h3⟩ := C41_first hwf
    obtain ⟨fs', k1, k2, k3⟩ := C41_first k.wf'
    refine ⟨fs, fs', h1, k1, fun A hA => optVal_ext ?_ fun v w hv hw => ?_⟩
    · rw [Option.isSome_map, h2, k2]; exact k.lhs_iff hA
    · obtain ⟨w, hw', rfl⟩ := Option.map_eq_some_iff.1 hw
      obtain ⟨v1, v2, v3⟩ := k3 A v hv
      obtain ⟨w1, w2, w3⟩ := h3 A w hw'
      exact setVal_ext v1 w1 (fun a => by rw [v2, w2]; exact k.first_iff hA)
        (by rw [v3]; simpa using k.not_nullable A)
  · obtain ⟨m, h1, h2, h3⟩ := C45_last hwf
    obtain ⟨m', k1, k2, k3⟩ := C45_last k.wf'
    refine ⟨m, m', h1, k1, fun A hA => optVal_ext ?_ fun v w hv hw => ?_⟩
    · rw [Option.isSome_map, h2, k2]; exact k.lhs_iff hA
    · obtain ⟨w, hw', rfl⟩ := Option.map_eq_some_iff.1 hw
      obtain ⟨v1, v2, v3⟩ := k3 A v hv
      obtain ⟨w1, w2, w3⟩ := h3 A w hw'
      exact setVal_ext v1 w1 (fun a => by rw [v2, w2]; exact k.last_iff hA)
        (by rw [v3]; simpa using k.not_nullable A)
  · obtain ⟨fs, h1, h2⟩ := firstSets_spec hwf
    obtain ⟨m, h3, h4⟩ := followSets_spec hwf h2
    obtain ⟨fs', k1, k2⟩ := firstSets_spec k.wf'
    obtain ⟨m', k3, k4⟩ := followSets_spec k.wf' k2
    refine ⟨m, m', by unfold Cfg.followSets; rw [h1, Res.bind_ok, h3],
      by unfold Cfg.followSets; rw [k1, Res.bind_ok, k3], fun A hA => optVal_ext ?_ fun w v hw hv => ?_⟩
    · rw [h4.keys, k4.keys]; exact k.lhs_iff hA
    · have ev : m.val A = v := by simp [SetMap.val, hv]
      have ew : m'.val A = w := by simp [SetMap.val, hw]
      have hA1 := (h4.keys A).1 (by rw [hv]; rfl)
      have hA2 := (k4.keys A).1 (by rw [hw]; rfl)
      subst ev ew
      refine setVal_ext (k4.sorted A) (h4.sorted A) (fun a => ?_) ?_
      · rw [h4.follow A hA1, k4.follow A hA2]; exact k.follow_iff hA
      · rw [h4.root, k4.root, k.roots, k.lhs_iff hA]

/-- **C139.** Detecting cycles after the elimination finds derivations of a symbol from itself in
the grammar before, through empty strings too: if the answer is that there are no cycles, no two
symbols derive each other; if it is that there are, some symbol derives itself in one or more
steps. -/
theorem C139_cycles :
    ∃ c b c', Cycles.new g' = .ok c ∧ c.isCycleFree = .ok (b, c') ∧
      (b = true → ∀ A B, A < g.numSyms → B < g.numSyms → A ≠ B →
        ¬ (Derives g.prod [A] [B] ∧ Derives g.prod [B] [A])) ∧
      (b = false → ∃ A < g.numSyms, DerivesPlus g.prod [A] [A]) := by
  obtain ⟨g₁, h, k⟩ := eliminated_of hwf hne hg
  obtain ⟨c, b, c', h1, h2, h3, -⟩ := C34_cycle_free k.wf'
  refine ⟨c, b, c', h1, h2, fun hb A B hA hB hAB ⟨d, d'⟩ => k.no_cycle (h3.1 hb) hA hB hAB d d',
    fun hb => k.cycle_old fun hc => ?_⟩
  rw [h3.2 hc] at hb
  cases hb

/-- **C139.** The minimal sentence length of an old symbol is the least length of a non-empty string
that it derived before, in the range where the sums do not overflow. -/
theorem C139_lengths (hb : 2 ^ (g'.numSyms + 1) < 2 ^ 32) :
    ∃ t', g'.minimalSentenceLengths (MinimalDistance.new g').minLength = .ok t' ∧
      ∀ a < g.numSyms, ∃ m, t'[a]? = some (some m) ∧ 1 ≤ m ∧ (∃ w, g.Lang a w ∧ w.length = m) ∧
        ∀ w, w ≠ [] → g.Lang a w → m ≤ w.length := by
  obtain ⟨g₁, h, k⟩ := eliminated_of hwf hne hg
  have hle : g.numSyms ≤ g'.numSyms := by rw [k.syms]; exact k.unfolds.le
  obtain ⟨t', k1, k2, k3, -⟩ := C86_sentence_lengths k.wf' 2 (by omega) (fun r hr => by
    have hp : g'.prod r.lhs r.rhs := ⟨r, hr, rfl, rfl⟩
    rw [k.prod] at hp
    rcases hp.1 with hq | ⟨β, -, x, y, -, ⟨e, -⟩ | ⟨e, -⟩⟩
    · exact k.bin _ _ hq
    · rw [e]; simp
    · rw [e]; simp) hb
  refine ⟨t', k1, fun a ha => ?_⟩
  have hl : ∃ m, g'.MinLen a m := by
    classical
    have hex : ∃ m w, g'.Lang a w ∧ w.length = m := by
      obtain ⟨w, hw, d, hT⟩ := k.live a (by rw [← k.syms]; omega)
      exact ⟨_, w, ⟨(k.derives_iff₁ hw).2 d, by
        rw [k.term_eq, ← k.unfolds.term_eq]; exact hT⟩, rfl⟩
    exact ⟨Nat.find hex, Nat.find_spec hex, fun w hw => Nat.find_min' hex ⟨w, hw, rfl⟩⟩
  obtain ⟨m, hm⟩ := hl
  have e := (k3 a m).2 hm
  have hlt : a < t'.length := by omega
  rw [List.getElem?_eq_getElem hlt] at e ⊢
  obtain ⟨⟨w, hw, rfl⟩, hmin⟩ := hm
  obtain ⟨hw0, hw1⟩ := (k.lang_iff ha).1 hw
  exact ⟨_, congrArg some e, List.length_pos_iff.2 hw0, ⟨w, hw1, rfl⟩, fun v hv hl =>
    hmin v ((k.lang_iff ha).2 ⟨hv, hl⟩)⟩

end

/-- `S ::= N S M | a b`, `N ::= b |`, `M ::= a | N N`. -/
def exElimAn : Cfg :=
  { src := ⟨5, [none, none, none, none, none]⟩
    rules := [⟨0, [1, 0, 2], {}⟩, ⟨0, [3, 4], {}⟩, ⟨1, [4], {}⟩, ⟨1, [], {}⟩, ⟨2, [3], {}⟩,
      ⟨2, [1, 1], {}⟩]
    roots := [0] }

theorem exElimAn_nonEmpty : exElimAn.NonEmpty := by
  intro r hr
  have hb : exElimAn.Lang 1 [4] := ⟨.single ⟨1, [4], [], [], by decide, rfl, rfl⟩, by decide⟩
  have ha : exElimAn.Lang 2 [3] := ⟨.single ⟨2, [3], [], [], by decide, rfl, rfl⟩, by decide⟩
  have hs : exElimAn.Lang 0 [3, 4] := ⟨.single ⟨0, [3, 4], [], [], by decide, rfl, rfl⟩, by decide⟩
  have : r.lhs = 0 ∨ r.lhs = 1 ∨ r.lhs = 2 := by revert r; decide
  rcases this with e | e | e
  · exact ⟨_, by simp, e ▸ hs⟩
  · exact ⟨_, by simp, e ▸ hb⟩
  · exact ⟨_, by simp, e ▸ ha⟩

example : exElimAn.WF ∧ exElimAn.NonEmpty ∧ (∀ s ∈ [0, 2], s < exElimAn.numSyms) ∧
    (fun p : Cfg × Cfg => (p.1.numSyms, p.1.rules.map fun r => (r.lhs, r.rhs))) <$>
      exElimAn.binarizeAndEliminateNulling =
    .ok (6, [(5, [1, 0]), (0, [5, 2]), (0, [3, 4]), (1, [4]), (2, [3]), (2, [1, 1]), (5, [0]),
      (0, [5]), (2, [1]), (2, [1])]) :=
  ⟨by decide, exElimAn_nonEmpty, by decide, by decide +kernel⟩

/-- FIRST of `S` before and after, and the cycle `S ⇒ N S M ⇒* S`, found after the elimination
only. -/
example : (fun m => m.map 0) <$> exElimAn.firstSets = .ok (some ⟨false, [3, 4]⟩) ∧
    (fun m => m.map 2) <$> exElimAn.firstSets = .ok (some ⟨true, [3, 4]⟩) ∧
    (do .ok (← (← Cycles.new exElimAn).isCycleFree).1) = .ok true ∧
    (do
      let p ← exElimAn.binarizeAndEliminateNulling
      .ok ((← p.1.firstSets).map 2, (← (← Cycles.new p.1).isCycleFree).1)) =
        .ok (some ⟨false, [3, 4]⟩, false) := by
  decide +kernel

end Verif
