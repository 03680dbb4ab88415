import Verif.Props.SplitAnalyses
import Verif.Props.LlTrees

/-! # Property C144: LL(1) tables of a grammar whose long rules are split -/

namespace Verif

open Cfg

/-- The number of rules of `A` before the rule with index `i`. -/
def Cfg.rank (g : Cfg) (A : Sym) (i : Nat) : Nat :=
  ((g.rules.take i).filter fun r => r.lhs = A).length

/-- In every rule of `A`, each symbol derives a terminal string, and the nullable symbols at the
front derive only the empty string. -/
def Cfg.PlainRules (g : Cfg) (A : Sym) : Prop :=
  ∀ r ∈ g.rules, r.lhs = A →
    (∀ s ∈ r.rhs, Productive g.prod g.Term s) ∧ LeadsEmpty g.prod g.Term r.rhs

section Ranks

variable {p : CfgRule → Bool}

theorem filter_rank {l : List CfgRule} : ∀ {i : Nat} {r : CfgRule}, l[i]? = some r → p r = true →
    (l.filter p)[((l.take i).filter p).length]? = some r := by
  induction l with
  | nil => intro i r h; simp at h
  | cons q l ih =>
    intro i r h hp
    cases i with
    | zero =>
      simp only [List.getElem?_cons_zero, Option.some.injEq] at h
      subst h
      simp [hp]
    | succ i =>
      rw [List.getElem?_cons_succ] at h
      have := ih h hp
      by_cases hq : p q = true
      · simp [hq, this]
      · simp [hq, this]

theorem rank_filter {l : List CfgRule} : ∀ {k : Nat} {r : CfgRule}, (l.filter p)[k]? = some r →
    ∃ i, l[i]? = some r ∧ p r = true ∧ ((l.take i).filter p).length = k := by
  induction l with
  | nil => intro k r h; simp at h
  | cons q l ih =>
    intro k r h
    by_cases hq : p q = true
    · rw [List.filter_cons_of_pos hq] at h
      cases k with
      | zero =>
        simp only [List.getElem?_cons_zero, Option.some.injEq] at h
        subst h
        exact ⟨0, by simp, hq, by simp⟩
      | succ k =>
        rw [List.getElem?_cons_succ] at h
        obtain ⟨i, h1, h2, h3⟩ := ih h
        exact ⟨i + 1, by simpa using h1, h2, by simp [hq, h3]⟩
    · rw [List.filter_cons_of_neg hq] at h
      obtain ⟨i, h1, h2, h3⟩ := ih h
      exact ⟨i + 1, by simpa using h1, h2, by simp [hq, h3]⟩

theorem rank_lt {l : List CfgRule} {i j : Nat} {r : CfgRule} (h : l[i]? = some r) (hp : p r = true)
    (hij : i < j) : ((l.take i).filter p).length < ((l.take j).filter p).length := by
  have h1 : ((l.take (i + 1)).filter p).length = ((l.take i).filter p).length + 1 := by
    rw [List.take_add_one, h]
    simp [hp]
  have h2 : (l.take (i + 1)).Sublist (l.take j) := List.take_sublist_take_left hij
  have := (h2.filter p).length_le
  omega

end Ranks

/-- The ranks of a cell are the positions of the entered rules among the rules of the symbol. -/
theorem cell_ranks {g : Cfg} {A : Sym} {Q : CfgRule → Prop} {l : List Nat}
    (hs : l.Pairwise (· < ·))
    (hl : ∀ i : Nat, i ∈ l ↔ ∃ r, g.rules[i]? = some r ∧ r.lhs = A ∧ Q r) :
    (l.map (g.rank A)).Pairwise (· < ·) ∧
      ∀ k, k ∈ l.map (g.rank A) ↔ ∃ r, (g.alternatives A)[k]? = some r ∧ Q r := by
  constructor
  · rw [List.pairwise_map]
    refine hs.imp_of_mem fun {i j} hi _ hij => ?_
    obtain ⟨r, h1, h2, -⟩ := (hl i).1 hi
    exact rank_lt h1 (by simpa using h2) hij
  · intro k
    rw [List.mem_map]
    constructor
    · rintro ⟨i, hi, rfl⟩
      obtain ⟨r, h1, h2, h3⟩ := (hl i).1 hi
      exact ⟨r, filter_rank h1 (by simpa using h2), h3⟩
    · rintro ⟨r, h1, h2⟩
      obtain ⟨i, k1, k2, k3⟩ := rank_filter h1
      exact ⟨i, (hl i).2 ⟨r, k1, by simpa using k2, h2⟩, k3⟩

theorem sorted_ext {l k : List Nat} (hl : l.Pairwise (· < ·)) (hk : k.Pairwise (· < ·))
    (h : ∀ a, a ∈ l ↔ a ∈ k) : l = k := by
  refine List.Perm.eq_of_pairwise (le := (· < ·)) (fun a b _ _ h1 h2 => by omega) hl hk ?_
  refine (List.perm_ext_iff_of_nodup ?_ ?_).2 h
  · exact hl.imp fun h => by omega
  · exact hk.imp fun h => by omega

theorem enters_iff {g : Cfg} (hwf : g.WF) {r : CfgRule} (hr : r ∈ g.rules)
    (hp : ∀ s ∈ r.rhs, Productive g.prod g.Term s) (hl : LeadsEmpty g.prod g.Term r.rhs) {a : Sym} :
    Enters g r a ↔ FirstOf g.prod g.Term r.rhs a ∨
      (Derives g.prod r.rhs [] ∧ FollowOf g.prod g.Term r.lhs a) := by
  obtain ⟨fs, -, hfs⟩ := firstSets_spec hwf
  obtain ⟨v, -, hv⟩ := firstSetForString_spec hfs r.rhs (hwf r hr).2
  constructor
  · rintro (hE | ⟨hE, hF⟩)
    · exact .inl ((hv.sound hp).1 a ((hv.exact a).2 hE))
    · exact .inr ⟨(hv.sound hp).2 (hv.none_iff.2 (hv.empty_iff.2 hE)), hF⟩
  · rintro (hc | ⟨hn, hF⟩)
    · exact .inl ((hv.exact a).1 ((hv.complete hl).1 a hc))
    · exact .inr ⟨hv.empty_iff.1 (hv.none_iff.1 ((hv.complete hl).2 hn)), hF⟩

theorem firstOf_mem {P : Productions} {T : Sym → Prop} {a : Sym} : ∀ {u : List Sym},
    FirstOf P T u a → ∃ pre x post, u = pre ++ x :: post ∧ Der P pre [] ∧ FirstOf P T [x] a
  | [], h => by
    obtain ⟨-, γ, d⟩ := h
    cases Der.nil_iff.1 (derives_iff_der.1 d)
  | x :: u, h => by
    rcases firstOf_cons.1 h with h | ⟨hn, h⟩
    · exact ⟨[], x, u, rfl, .nil, h⟩
    · obtain ⟨pre, y, post, rfl, h1, h2⟩ := firstOf_mem h
      exact ⟨x :: pre, y, post, rfl, by simpa using (derives_iff_der.1 hn).append h1, h2⟩

namespace Cfg.Unfolds

variable {h : Sym → List Sym} {g g' : Cfg}

theorem first_string (hu : Unfolds h g g') {u : List Sym} (hb : ∀ x ∈ u, x < g'.numSyms) {a : Sym} :
    FirstOf g'.prod g'.Term u a ↔ FirstOf g.prod g.Term (u.flatMap h) a := by
  unfold FirstOf
  rw [hu.term_eq]
  refine and_congr_right fun ha => ?_
  constructor
  · rintro ⟨γ, d⟩
    have := hu.der_bwd (derives_iff_der.1 d)
    rw [List.flatMap_cons, hu.old a ha.1] at this
    exact ⟨γ.flatMap h, derives_iff_der.2 this⟩
  · rintro ⟨γ, d⟩
    exact ⟨γ, derives_iff_der.2 ((der_all (S := h) u fun x hx => hu.der_sym x (hb x hx)).trans
      (hu.der_fwd (derives_iff_der.1 d)))⟩

theorem null_string (hu : Unfolds h g g') {u : List Sym} (hb : ∀ x ∈ u, x < g'.numSyms) :
    Der g'.prod u [] ↔ Der g.prod (u.flatMap h) [] :=
  ⟨fun d => hu.der_bwd d, fun d => (der_all (S := h) u fun x hx => hu.der_sym x (hb x hx)).trans
    (hu.der_fwd d)⟩

theorem leadsEmpty (hu : Unfolds h g g') {u : List Sym} (hb : ∀ x ∈ u, x < g'.numSyms)
    (hl : LeadsEmpty g.prod g.Term (u.flatMap h)) : LeadsEmpty g'.prod g'.Term u := by
  rintro pre s post rfl hpre hs b hf
  have h1 : ∀ x ∈ pre, x < g'.numSyms := fun x hx => hb x (by simp [hx])
  have h2 : ∀ x ∈ [s], x < g'.numSyms := fun x hx => hb x (by simp at hx; simp [hx])
  have k1 := (hu.null_string h1).1 (derives_iff_der.1 hpre)
  have k2 := (hu.null_string h2).1 (derives_iff_der.1 hs)
  have k3 := (hu.first_string h2).1 hf
  rw [List.flatMap_cons, List.flatMap_nil, List.append_nil] at k2 k3
  obtain ⟨p, x, q, e, d, hx⟩ := firstOf_mem k3
  rw [e] at k2
  obtain ⟨w₁, w₂, ew, d1, d2⟩ := Der.split k2
  obtain ⟨rfl, rfl⟩ := List.append_eq_nil_iff.1 ew.symm
  obtain ⟨w₁, w₂, ew, d3, -⟩ := Der.split (u₁ := [x]) (u₂ := q) d2
  obtain ⟨rfl, rfl⟩ := List.append_eq_nil_iff.1 ew.symm
  refine hl (pre.flatMap h ++ p) x (q ++ post.flatMap h) (by simp [e]) ?_
    (derives_iff_der.2 d3) b hx
  exact derives_iff_der.2 (by simpa using k1.append d)

theorem productive_new (hu : Unfolds h g g') : ∀ x < g'.numSyms,
    (∀ y ∈ h x, Productive g.prod g.Term y) → Productive g'.prod g'.Term x :=
  hu.induct (fun x hx k => (hu.productive_iff hx).2 (k x (by rw [hu.old x hx]; simp)))
    fun x α _ hp e _ ih k => productive_closed hp fun y hy => ih y hy fun z hz => k z (by
      rw [← e]; exact List.mem_flatMap.2 ⟨y, hy, hz⟩)

theorem enters_iff (hu : Unfolds h g g') {r r' : CfgRule} (hr : r ∈ g.rules) (hr' : r' ∈ g'.rules)
    (hlhs : r'.lhs = r.lhs) (he : r'.rhs.flatMap h = r.rhs)
    (hp : ∀ s ∈ r.rhs, Productive g.prod g.Term s) (hl : LeadsEmpty g.prod g.Term r.rhs) {a : Sym} :
    Enters g' r' a ↔ Enters g r a := by
  have hb := (hu.wf' r' hr').2
  rw [Verif.enters_iff hu.wf hr hp hl, Verif.enters_iff hu.wf' hr' ?_ ?_, hu.first_string hb,
    derives_iff_der, hu.null_string hb, he, hlhs, hu.follow_iff (hu.wf r hr).1, derives_iff_der]
  · intro s hs
    exact hu.productive_new s (hb s hs) fun y hy => hp y (by
      rw [← he]; exact List.mem_flatMap.2 ⟨s, hs, hy⟩)
  · exact hu.leadsEmpty hb (by rw [he]; exact hl)

end Cfg.Unfolds

section

variable {g : Cfg} (hwf : g.WF) {limit : Option Nat} (hlim : ∀ n, limit = some n → 2 ≤ n) {g' : Cfg}
  (hg : g.limitRhsLen limit = .ok g')
include hwf hlim hg

/-- **C144, in part.** Both tables can be computed. For an old symbol with plain rules, each cell
names the same alternatives of the symbol before and after splitting; a new symbol has at most one
rule in each cell. -/
theorem C144_cells_partial :
    ∃ t t', g.llParseTable = .ok t ∧ g'.llParseTable = .ok t' ∧
      (∀ A < g.numSyms, g.PlainRules A → ∀ a,
        ((t'.get? (A, a)).getD []).map (g'.rank A) = ((t.get? (A, a)).getD []).map (g.rank A)) ∧
      ∀ A, g.numSyms ≤ A → ∀ a, ((t'.get? (A, a)).getD []).length ≤ 1 := by
  obtain ⟨h, hu, -⟩ := split_unfolds hwf hlim hg
  obtain ⟨t, h1, -, h2⟩ := llParseTable_spec hu.wf
  obtain ⟨t', k1, -, k2⟩ := llParseTable_spec hu.wf'
  refine ⟨t, t', h1, k1, fun A hA hpl a => ?_, fun A hA a => ?_⟩
  · obtain ⟨s1, s2⟩ := cell_ranks (h2 A a).1 (h2 A a).2
    obtain ⟨s3, s4⟩ := cell_ranks (k2 A a).1 (k2 A a).2
    refine sorted_ext s3 s1 fun k => (s4 k).trans (Iff.trans ?_ (s2 k).symm)
    have hal := hu.alts A hA
    have hpair : ∀ r r', (g.alternatives A)[k]? = some r → (g'.alternatives A)[k]? = some r' →
        (Enters g' r' a ↔ Enters g r a) := by
      intro r r' e e'
      have hm : r ∈ g.rules ∧ r.lhs = A := by
        simpa [Cfg.alternatives] using List.mem_of_getElem? e
      have hm' : r' ∈ g'.rules ∧ r'.lhs = A := by
        simpa [Cfg.alternatives] using List.mem_of_getElem? e'
      obtain ⟨b1, c1⟩ := List.getElem?_eq_some_iff.1 e
      obtain ⟨b2, c2⟩ := List.getElem?_eq_some_iff.1 e'
      have := (hal.get b1 b2).2
      simp only [List.get_eq_getElem, c1, c2] at this
      exact hu.enters_iff hm.1 hm'.1 (hm'.2.trans hm.2.symm) this (hpl r hm.1 hm.2).1
        (hpl r hm.1 hm.2).2
    have hlen := hal.length_eq
    constructor
    · rintro ⟨r', e', hE⟩
      obtain ⟨b2, c2⟩ := List.getElem?_eq_some_iff.1 e'
      have e := List.getElem?_eq_getElem (l := g.alternatives A) (i := k) (by omega)
      exact ⟨_, e, (hpair _ _ e e').1 hE⟩
    · rintro ⟨r, e, hE⟩
      obtain ⟨b2, c2⟩ := List.getElem?_eq_some_iff.1 e
      have e' := List.getElem?_eq_getElem (l := g'.alternatives A) (i := k) (by omega)
      exact ⟨_, e', (hpair _ _ e e').2 hE⟩
  · obtain ⟨s3, s4⟩ := cell_ranks (k2 A a).1 (k2 A a).2
    by_cases hA' : A < g'.numSyms
    · obtain ⟨-, r, e, -⟩ := hu.new A hA hA'
      rw [← List.length_map (f := g'.rank A)]
      change ((t'.cell (A, a)).map (g'.rank A)).length ≤ 1
      have hz : ∀ k ∈ (t'.cell (A, a)).map (g'.rank A), k = 0 := by
        intro k hk
        obtain ⟨r', e', -⟩ := (s4 k).1 hk
        rw [e] at e'
        cases k with
        | zero => rfl
        | succ k => simp at e'
      generalize (t'.cell (A, a)).map (g'.rank A) = l at s3 hz
      match l, s3, hz with
      | [], _, _ => simp
      | [_], _, _ => simp
      | x :: y :: l, s3, hz =>
        have h1 := hz x (by simp)
        have h2 := hz y (by simp)
        have := (List.pairwise_cons.1 s3).1 y (by simp)
        omega
    · have : t'.cell (A, a) = [] := by
        refine List.eq_nil_iff_forall_not_mem.2 fun i hi => ?_
        obtain ⟨r, e, e2, -⟩ := ((k2 A a).2 i).1 hi
        have := (hu.wf' r (List.mem_of_getElem? e)).1
        omega
      change (t'.cell (A, a)).length ≤ 1
      rw [this]
      simp

/-- **C144, in part.** If the rules of all symbols are plain, splitting long rules does not change
the class of any old symbol. -/
theorem C144_classes_partial (hpl : ∀ A < g.numSyms, g.PlainRules A) :
    ∃ t t' c c', g.llParseTable = .ok t ∧ g'.llParseTable = .ok t' ∧
      g.llClassify t = .ok c ∧ g'.llClassify t' = .ok c' ∧ ∀ A < g.numSyms, c' A = c A := by
  obtain ⟨h, hu, -⟩ := split_unfolds hwf hlim hg
  obtain ⟨t, t', h1, h2, h3, h4⟩ := C144_cells_partial hwf hlim hg
  obtain ⟨t1, c, k1, k2, k3⟩ := C76_classes hu.wf
  obtain ⟨t1', c', m1, m2, m3⟩ := C76_classes hu.wf'
  cases k1.symm.trans h1
  cases m1.symm.trans h2
  refine ⟨t, t', c, c', h1, h2, k2, m2, fun A hA => ?_⟩
  have hlen : ∀ B < g.numSyms, ∀ a,
      ((t'.get? (B, a)).getD []).length = ((t.get? (B, a)).getD []).length := fun B hB a => by
    have := congrArg List.length (h3 B hB (hpl B hB) a)
    simpa using this
  have hnil : ∀ a, ((t'.get? (A, a)).getD [] = []) ↔ ((t.get? (A, a)).getD [] = []) := fun a => by
    rw [← List.length_eq_zero_iff, hlen A hA, List.length_eq_zero_iff]
  have e1 : c' A = none ↔ c A = none := by
    rw [(m3 A).1, (k3 A).1]; exact forall_congr' hnil
  have hb : ∀ {g₁ : Cfg}, g₁.WF → ∀ {t₁ : LlTable}, g₁.llParseTable = .ok t₁ → ∀ {B a},
      2 ≤ ((t₁.get? (B, a)).getD []).length → B < g₁.numSyms := by
    intro g₁ w t₁ e B a hl
    obtain ⟨t₂, e₂, -, hc⟩ := llParseTable_spec w
    rw [Res.ok.inj (e₂.symm.trans e)] at hc
    obtain ⟨i, hi⟩ := List.exists_mem_of_length_pos (l := t₁.cell (B, a)) (by
      change 0 < ((t₁.get? (B, a)).getD []).length; omega)
    obtain ⟨r, k, rfl, -⟩ := ((hc B a).2 i).1 hi
    exact (w r (List.mem_of_getElem? k)).1
  have e2 : c' A = some .contextFree ↔ c A = some .contextFree := by
    rw [(m3 A).2.1, (k3 A).2.1]
    refine and_congr (exists_congr fun a => not_congr (hnil a)) ?_
    constructor
    · rintro ⟨B, a, hR, hl⟩
      by_cases hB : B < g.numSyms
      · exact ⟨B, a, (hu.reaches_iff hA hB).1 hR, by rwa [← hlen B hB]⟩
      · have := h4 B (by omega) a
        omega
    · rintro ⟨B, a, hR, hl⟩
      have hB := hb hu.wf h1 hl
      exact ⟨B, a, (hu.reaches_iff hA hB).2 hR, by rwa [hlen B hB]⟩
  cases hc : c A with
  | none => exact e1.2 hc
  | some x =>
    cases x with
    | contextFree => exact e2.2 hc
    | ll1 =>
      cases hc' : c' A with
      | none => rw [e1.1 hc'] at hc; cases hc
      | some y =>
        cases y with
        | ll1 => rfl
        | contextFree => rw [e2.1 hc'] at hc; cases hc

end

/-! ## Examples -/

theorem exLlTrees_plain : ∀ A < exLlTrees.numSyms, exLlTrees.PlainRules A := by
  have ht : ∀ a, exLlTrees.Term a → Productive exLlTrees.prod exLlTrees.Term a := fun a h =>
    ⟨[a], derives_iff_der.2 (.refl _), by simpa using h⟩
  have h1 : Productive exLlTrees.prod exLlTrees.Term 1 :=
    productive_closed (α := []) (by decide) (by simp)
  intro A _ r hr _
  simp only [exLlTrees, List.mem_cons, List.not_mem_nil, or_false] at hr
  rcases hr with rfl | rfl | rfl | rfl
  · refine ⟨fun s hs => ?_, leadsEmpty_term (term_not_nullable (by decide))⟩
    simp only [List.mem_cons, List.not_mem_nil, or_false] at hs
    rcases hs with rfl | rfl | rfl
    · exact ht _ (by decide)
    · exact h1
    · exact ht _ (by decide)
  · refine ⟨fun s hs => ?_, leadsEmpty_term (term_not_nullable (by decide))⟩
    simp only [List.mem_cons, List.not_mem_nil, or_false] at hs
    subst hs
    exact ht _ (by decide)
  · refine ⟨fun s hs => ?_, leadsEmpty_term (term_not_nullable (by decide))⟩
    simp only [List.mem_cons, List.not_mem_nil, or_false] at hs
    rcases hs with rfl | rfl
    · exact ht _ (by decide)
    · exact h1
  · refine ⟨by simp, ?_⟩
    intro pre s post e
    simp at e

/-- `exLlTrees` meets the hypotheses of both theorems: all its rules are plain, and splitting
replaces `S ::= a X c` by `H ::= a X`, `S ::= H c`, so the rules of the cells have other indices. -/
example : exLlTrees.WF ∧ (∀ n, some 2 = some n → 2 ≤ n) ∧
    (∀ A < exLlTrees.numSyms, exLlTrees.PlainRules A) ∧
    (fun g' => g'.rules.map fun r => (r.lhs, r.rhs)) <$> exLlTrees.limitRhsLen (some 2) =
      .ok [(6, [2, 1]), (0, [6, 4]), (0, [5]), (1, [3, 1]), (1, [])] ∧
    (fun t => [(0, 2), (0, 5), (1, 3), (1, 4)].map (LlTable.get? t)) <$> exLlTrees.llParseTable =
      .ok [some [0], some [1], some [2], some [3]] ∧
    (fun t => [(0, 2), (0, 5), (1, 3), (1, 4)].map (LlTable.get? t)) <$>
      (exLlTrees.limitRhsLen (some 2)).bind Cfg.llParseTable =
      .ok [some [1], some [2], some [3], some [4]] :=
  ⟨by decide +kernel, by rintro n ⟨⟩; decide, exLlTrees_plain, rfl, by decide +kernel,
    by decide +kernel⟩

/-- `S ::= N a b | a`, `N ::= n | ε`; symbols `S N a b n = 0 .. 4`. -/
def exLlSplit : Cfg :=
  { src := ⟨5, [none, none, none, none, none]⟩
    rules := [⟨0, [1, 2, 3], {}⟩, ⟨0, [2], {}⟩, ⟨1, [4], {}⟩, ⟨1, [], {}⟩]
    roots := [0] }

/-- **C144 does not hold.** Both alternatives of `S` can begin with `a`, but the cell of `S` and `a`
holds only the second and `S` is classified as `Ll1`. After splitting rules longer than two symbols
the cell holds both, and `S` is classified as `ContextFree`. -/
theorem C144_violated : exLlSplit.WF ∧
    (do let t ← exLlSplit.llParseTable
        let c ← exLlSplit.llClassify t
        .ok (t.get? (0, 2), c 0)) = .ok (some [1], some .ll1) ∧
    (do let g' ← exLlSplit.limitRhsLen (some 2)
        let t ← g'.llParseTable
        let c ← g'.llClassify t
        .ok (g'.rules.map fun (r : CfgRule) => (r.lhs, r.rhs), t.get? (0, 2), c 0)) =
      .ok ([(5, [1, 2]), (0, [5, 3]), (0, [2]), (1, [4]), (1, [])], some [1, 2],
        some .contextFree) :=
  ⟨by decide +kernel, by decide +kernel, by decide +kernel⟩

end Verif
