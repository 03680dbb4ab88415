import Verif.Model.RecursionDistance
import Verif.Proofs.Recursion
import Verif.Proofs.Distance

/-! # Helper lemmas on `Recursion::minimal_distances` -/

namespace Verif

open BitMatrix

theorem mapM_forall₂ {α β : Type} (f : α → Res β) (R : α → β → Prop) (l : List α)
    (h : ∀ x ∈ l, ∃ y, f x = .ok y ∧ R x y) : ∃ ys, l.mapM f = .ok ys ∧ List.Forall₂ R l ys := by
  induction l with
  | nil => exact ⟨[], rfl, .nil⟩
  | cons x l ih =>
    obtain ⟨y, h1, h2⟩ := h x (by simp)
    obtain ⟨ys, h3, h4⟩ := ih fun x hx => h x (by simp [hx])
    exact ⟨y :: ys, by rw [List.mapM_cons, h1, Res.bind_ok, h3]; rfl, .cons h2 h4⟩

theorem ruleDots_spec {n : Nat} {m : BitMatrix} (hm : Square n m) {r : CfgRule} (hl : r.lhs < n)
    (hr : ∀ s ∈ r.rhs, s < n) (idx : Nat) :
    ∃ ds, ruleDots m r idx = .ok ds ∧
      ∀ x, x ∈ ds ↔ x.1 = idx ∧ ∃ s, r.rhs[x.2]? = some s ∧ Bit m s r.lhs := by
  obtain ⟨flags, h1, h2⟩ := mapM_forall₂ (fun s => m.get s r.lhs)
    (fun s b => b = true ↔ Bit m s r.lhs) r.rhs fun s hs => get_spec hm (hr s hs) hl
  refine ⟨_, by rw [ruleDots, h1]; rfl, fun x => ?_⟩
  rw [List.forall₂_iff_get] at h2
  obtain ⟨hlen, hget⟩ := h2
  obtain ⟨i, p⟩ := x
  simp only [List.mem_map, List.mem_filter, Prod.exists, List.mk_mem_zipIdx_iff_getElem?,
    Prod.mk.injEq]
  constructor
  · rintro ⟨b, q, ⟨hq, hb⟩, rfl, rfl⟩
    have hq' : q < flags.length := (List.getElem?_eq_some_iff.1 hq).1
    have hq'' : q < r.rhs.length := by omega
    refine ⟨rfl, r.rhs[q], List.getElem?_eq_getElem hq'', ?_⟩
    have := (hget q hq'' hq').1
    simp only [List.get_eq_getElem] at this
    refine this ?_
    rw [List.getElem?_eq_getElem hq'] at hq
    rw [Option.some.inj hq]
    exact hb
  · rintro ⟨rfl, s, hs, hb⟩
    have hq : p < r.rhs.length := (List.getElem?_eq_some_iff.1 hs).1
    have hq' : p < flags.length := by omega
    refine ⟨true, p, ⟨?_, rfl⟩, rfl, rfl⟩
    rw [List.getElem?_eq_getElem hq']
    rw [List.getElem?_eq_getElem hq] at hs
    obtain rfl := Option.some.inj hs
    have := (hget p hq hq').2
    simp only [List.get_eq_getElem] at this
    rw [this hb]

theorem recursiveDots_spec {g : Cfg} (hwf : g.WF) {m : BitMatrix} (hm : Square g.numSyms m)
    (hb : ∀ a b, Bit m a b ↔ ReachesPlus g.prod a b) :
    ∃ ds, g.recursiveDots m = .ok ds ∧
      ∀ x, x ∈ ds ↔ ∃ r s, g.rules[x.1]? = some r ∧ r.rhs[x.2]? = some s ∧
        Reaches g.prod s r.lhs := by
  obtain ⟨dss, h1, h2⟩ := mapM_forall₂ (fun x : CfgRule × Nat => ruleDots m x.1 x.2)
    (fun x ds => ∀ y, y ∈ ds ↔ y.1 = x.2 ∧ ∃ s, x.1.rhs[y.2]? = some s ∧ Bit m s x.1.lhs)
    g.rules.zipIdx fun x hx => by
      have hx' : x.1 ∈ g.rules := by
        obtain ⟨r, i⟩ := x
        exact List.mem_of_getElem? (List.mk_mem_zipIdx_iff_getElem?.1 hx)
      exact ruleDots_spec hm (hwf _ hx').1 (hwf _ hx').2 x.2
  refine ⟨dss.flatten, by rw [Cfg.recursiveDots, h1]; rfl, fun x => ?_⟩
  rw [List.forall₂_iff_get] at h2
  obtain ⟨hlen, hget⟩ := h2
  rw [List.length_zipIdx] at hlen
  rw [List.mem_flatten]
  constructor
  · rintro ⟨ds, hds, hx⟩
    obtain ⟨i, hi, rfl⟩ := List.getElem_of_mem hds
    have hi' : i < g.rules.length := by omega
    have := (hget i (by simpa using hi') hi x).1 (by simpa using hx)
    simp only [List.get_eq_getElem, List.getElem_zipIdx] at this
    obtain ⟨e, s, h3, h4⟩ := this
    have e : x.1 = i := by omega
    subst e
    refine ⟨g.rules[x.1], s, List.getElem?_eq_getElem hi', h3, ?_⟩
    rw [hb, reaches_lhs_iff ⟨_, List.getElem_mem hi', rfl, rfl⟩ (List.mem_of_getElem? h3)] at h4
    exact h4
  · rintro ⟨r, s, h3, h4, h5⟩
    have hi : x.1 < g.rules.length := (List.getElem?_eq_some_iff.1 h3).1
    rw [List.getElem?_eq_getElem hi] at h3
    obtain rfl := Option.some.inj h3
    refine ⟨dss[x.1]'(by omega), List.getElem_mem _, ?_⟩
    have := (hget x.1 (by simpa using hi) (by omega) x).2
    simp only [List.get_eq_getElem, List.getElem_zipIdx] at this
    refine this ⟨by omega, s, h4, ?_⟩
    rw [hb, reaches_lhs_iff ⟨_, List.getElem_mem hi, rfl, rfl⟩ (List.mem_of_getElem? h4)]
    exact h5

theorem recursionDistances_spec {g : Cfg} {K M : Nat} (hg : DistCtx g K M) :
    ∃ l k, g.recursiveRules = .ok k ∧ g.recursionDistances = .ok l ∧
      l.map (fun x => (x.rule, x.recursion)) = k ∧
      ∀ x ∈ l, x.distances.1 = 0 ∧
        (x.recursion.left = true → ∀ c, g.MinLens x.rule.rhs c → x.distances.2 ≤ c) := by
  have hwf := hg.wf
  obtain ⟨m, h1, h2, h3⟩ := Cfg.reachability_spec hwf
  obtain ⟨ds, h4, h5⟩ := recursiveDots_spec hwf h2 h3
  obtain ⟨d, h6, h7, -, -, -, h8, -⟩ := distanceCall_spec hg between_new ds .symmetric (by
    intro x hx r hr
    obtain ⟨r', s, h, h', -⟩ := (h5 x).1 hx
    rw [hr] at h
    obtain rfl := Option.some.inj h
    have := (List.getElem?_eq_some_iff.1 h').1
    omega)
  have hitem : ∀ x ∈ g.rules.zipIdx, ∃ o, d.recursiveRule m x.1 x.2 = .ok o ∧
      ∃ k, ruleRecursion x.1 m = .ok k ∧
        o.map (fun x => (x.rule, x.recursion)) = k.map (fun k => (x.1, k)) ∧
        ∀ y, o = some y → y.distances.1 = 0 ∧
          (y.recursion.left = true → ∀ c, g.MinLens y.rule.rhs c → y.distances.2 ≤ c) := by
    rintro ⟨r, i⟩ hx
    have hr := List.mk_mem_zipIdx_iff_getElem?.1 hx
    have hmem := List.mem_of_getElem? hr
    obtain ⟨o, k1, k2, k3⟩ := ruleRecursion_spec hwf h2 h3 hmem
    unfold MinimalDistance.recursiveRule
    simp only [k1, Res.bind_ok]
    cases o with
    | none => exact ⟨none, rfl, none, rfl, rfl, by simp⟩
    | some k =>
      obtain ⟨s, hs, hreach⟩ := k2.1 rfl
      obtain ⟨p, hp⟩ := List.mem_iff_getElem?.1 hs
      have hcov := h8 (by simp) (i, p) ((h5 (i, p)).2 ⟨r, s, hr, hp, hreach⟩) ⟨r, hr⟩
      obtain ⟨row, v, c1, c2, c3⟩ := hcov r hr 0 (Nat.zero_le _) 0 (by simpa using .nil)
      simp only at c1
      have hlen := h7.inv.rows i r row hr c1
      have c2' : row[0]? = some (some v) := by
        rw [tbl_eq (by omega), c2]
      obtain rfl : v = 0 := by omega
      have hlast : row.length - 1 < row.length := by omega
      refine ⟨some ⟨r, k, (0, (row[row.length - 1]'hlast).getD (2 ^ 32 - 1))⟩, ?_, some k, rfl, rfl, ?_⟩
      · dsimp only
        rw [Res.index_ok.2 c1, Res.bind_ok, Res.index_ok.2 c2', Res.bind_ok,
          Res.index_ok.2 (List.getElem?_eq_getElem hlast), Res.bind_ok]
        rfl
      · intro y e
        obtain rfl := Option.some.inj e
        refine ⟨rfl, fun hleft c hc => ?_⟩
        obtain ⟨s', hs', hreach'⟩ := (k3 k rfl).left.1 hleft
        have hcov := h8 (by simp) (i, 0) ((h5 (i, 0)).2 ⟨r, s', hr, by
          rw [← List.head?_eq_getElem?]; exact hs', hreach'⟩) ⟨r, hr⟩
        obtain ⟨row', v, e1, e2, e3⟩ := hcov r hr r.rhs.length (by simp) c (by simpa using hc)
        simp only at e1
        rw [c1] at e1
        obtain rfl := Option.some.inj e1
        have e4 : row[row.length - 1]? = some (some v) := by
          rw [tbl_eq hlast, hlen, Nat.add_sub_cancel, e2]
        rw [List.getElem?_eq_getElem hlast] at e4
        simp only [Option.some.inj e4, Option.getD_some]
        exact e3
  obtain ⟨items, m1, m2⟩ := mapM_forall₂ (fun x : CfgRule × Nat => d.recursiveRule m x.1 x.2) _
    g.rules.zipIdx hitem
  have hres : g.recursionDistances = .ok (items.filterMap id) := by
    rw [Cfg.recursionDistances, h1]
    simp only [Res.bind_ok, h4, h6]
    rw [m1]
    rfl
  have hkinds : ∀ (l : List (CfgRule × Nat)) (items : List (Option RecursiveRule)),
      List.Forall₂ (fun (x : CfgRule × Nat) (o : Option RecursiveRule) =>
        ∃ k, ruleRecursion x.1 m = .ok k ∧
        o.map (fun x => (x.rule, x.recursion)) = k.map (fun k => (x.1, k)) ∧
        ∀ y, o = some y → y.distances.1 = 0 ∧
          (y.recursion.left = true → ∀ c, g.MinLens y.rule.rhs c → y.distances.2 ≤ c)) l items →
      ∃ kinds : List (CfgRule × Option RecursionKind),
        ((l.map Prod.fst).mapM fun rule => do .ok (rule, ← ruleRecursion rule m) : Res _) = .ok kinds ∧
        (kinds.filterMap fun (rule, kind) => kind.map fun k => (rule, k)) =
          (items.filterMap id).map (fun x => (x.rule, x.recursion)) ∧
        ∀ x ∈ items.filterMap id, x.distances.1 = 0 ∧
          (x.recursion.left = true → ∀ c, g.MinLens x.rule.rhs c → x.distances.2 ≤ c) := by
    intro l items h
    induction h with
    | nil => exact ⟨[], rfl, rfl, by simp⟩
    | @cons x o l items hx _ ih =>
      obtain ⟨kinds, i1, i2, i3⟩ := ih
      obtain ⟨k, j1, j2, j3⟩ := hx
      refine ⟨(x.1, k) :: kinds, by rw [List.map_cons, List.mapM_cons, j1, i1]; rfl, ?_, ?_⟩
      · rw [List.filterMap_cons, List.filterMap_cons]
        cases o with
        | none =>
          cases k with
          | none => exact i2
          | some k => simp at j2
        | some y =>
          cases k with
          | none => simp at j2
          | some k =>
            simp only [Option.map_some, Option.some.injEq] at j2
            simp only [Option.map_some, id, List.map_cons, j2, i2]
      · intro y hy
        rw [List.filterMap_cons] at hy
        cases o with
        | none => exact i3 y hy
        | some z =>
          simp only [id, List.mem_cons] at hy
          rcases hy with rfl | hy
          · exact j3 _ rfl
          · exact i3 y hy
  obtain ⟨kinds, n1, n2, n3⟩ := hkinds _ _ m2
  rw [List.zipIdx_map_fst] at n1
  refine ⟨_, _, ?_, hres, rfl, n3⟩
  rw [Cfg.recursiveRules, h1]
  simp only [Res.bind_ok]
  rw [n1, Res.bind_ok, ← n2]

end Verif
