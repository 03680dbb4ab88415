import Verif.Props.Binarize
import Verif.Props.Generate

/-! # Property C134: generation from a grammar whose long rules are split -/

namespace Verif

open Cfg

/-! ### Split grammars unfold to the grammars they come from -/

/-- The new symbols of `g'` abbreviate strings (`h`), each by one rule; the alternatives of the old
symbols are those of `g`, in order and with their weights, up to abbreviations. -/
structure Cfg.Unfolds (h : Sym → List Sym) (g g' : Cfg) : Prop where
  wf : g.WF
  wf' : g'.WF
  le : g.numSyms ≤ g'.numSyms
  old : ∀ x < g.numSyms, h x = [x]
  alts : ∀ A < g.numSyms, List.Forall₂ (fun r r' => r.millis = r'.millis ∧ r'.rhs.flatMap h = r.rhs)
    (g.alternatives A) (g'.alternatives A)
  new : ∀ x, g.numSyms ≤ x → x < g'.numSyms → 2 ≤ (h x).length ∧
    ∃ r, g'.alternatives x = [r] ∧ r.rhs.flatMap h = h x ∧ 2 ≤ r.rhs.length
  part : ∀ x, g.numSyms ≤ x → x < g'.numSyms → ∃ r ∈ g.rules, h x <+: r.rhs

theorem Cfg.Chain.unfold {n : Nat} (hn : 2 ≤ n) {lhs : Sym} {f : Nat} {rhs : List Sym}
    {rs : List CfgRule} (hc : Chain n lhs f rhs rs) : ∀ h₀ : Sym → List Sym, (∀ x ∈ rhs, x < f) →
    (∀ x < f, 1 ≤ (h₀ x).length) → ∃ (k : Sym → List Sym) (init : List CfgRule) (last : CfgRule),
      (∀ x, x < f → k x = h₀ x) ∧
      rs = init ++ [last] ∧ last.lhs = lhs ∧ last.rhs.flatMap k = rhs.flatMap h₀ ∧
      ∀ (i : Nat) r, init[i]? = some r → r.lhs = f + i ∧ r.rhs.flatMap k = k (f + i) ∧
        2 ≤ r.rhs.length ∧ 2 ≤ (k (f + i)).length ∧ k (f + i) <+: rhs.flatMap h₀ := by
  induction hc with
  | @last f rhs r _ e1 e2 =>
    intro h₀ _ _
    exact ⟨h₀, [], r, fun _ _ => rfl, rfl, e1, by rw [e2], by simp⟩
  | @more f rhs r rs hlt e1 e2 _ ih =>
    intro h₀ hr h1
    have hlen : ∀ l : List Sym, (∀ x ∈ l, x < f) → l.length ≤ (l.flatMap h₀).length := by
      intro l
      induction l with
      | nil => simp
      | cons a l ih =>
        intro hl
        have := h1 a (hl a (by simp))
        have := ih fun x hx => hl x (by simp [hx])
        simp only [List.length_cons, List.flatMap_cons, List.length_append]
        omega
    have htake := hlen (rhs.take n) fun x hx => hr x (List.mem_of_mem_take hx)
    rw [List.length_take] at htake
    obtain ⟨k, init, last, k1, k2, k3, k4, k5⟩ := ih
      (fun x => if x = f then (rhs.take n).flatMap h₀ else h₀ x) (by
      intro x hx
      rcases List.mem_cons.1 hx with rfl | hx
      · omega
      · have := hr x (List.mem_of_mem_drop hx); omega) (by
      intro x hx
      split
      · omega
      · exact h1 x (by omega))
    have hk : ∀ x, x < f → k x = h₀ x := by
      intro x hx
      rw [k1 x (by omega), if_neg (by omega)]
    have hkf : k f = (rhs.take n).flatMap h₀ := by rw [k1 f (by omega), if_pos rfl]
    have hall : (f :: rhs.drop n).flatMap
        (fun x => if x = f then (rhs.take n).flatMap h₀ else h₀ x) = rhs.flatMap h₀ := by
      rw [List.flatMap_cons, if_pos rfl]
      rw [flatMap_congr_mem (h' := h₀) (l := rhs.drop n) fun x hx => by
        rw [if_neg (by have := hr x (List.mem_of_mem_drop hx); omega)]]
      rw [← List.flatMap_append, List.take_append_drop]
    rw [hall] at k4 k5
    refine ⟨k, r :: init, last, hk, by rw [k2]; rfl, k3, k4, ?_⟩
    · intro i r' hi
      rcases i with _ | i
      · cases hi
        rw [Nat.add_zero, hkf]
        refine ⟨e1, ?_, by rw [e2, List.length_take]; omega, by omega, (rhs.drop n).flatMap h₀, by
          rw [← List.flatMap_append, List.take_append_drop]⟩
        rw [e2]
        exact flatMap_congr_mem fun x hx => hk x (hr x (List.mem_of_mem_take hx))
      · rw [List.getElem?_cons_succ] at hi
        have := k5 i r' hi
        rwa [show f + 1 + i = f + (i + 1) by omega] at this

theorem filter_numbered : ∀ (init : List CfgRule) (f : Nat),
    (∀ (i : Nat) r, init[i]? = some r → r.lhs = f + i) → ∀ (j : Nat) r, init[j]? = some r →
      init.filter (fun r => r.lhs = f + j) = [r]
  | [], _, _, _, _, h => by simp at h
  | a :: init, f, hl, j, r, h => by
    have h0 := hl 0 a rfl
    have hl' : ∀ (i : Nat) r, init[i]? = some r → r.lhs = f + 1 + i := fun i r hi => by
      have := hl (i + 1) r (by simpa using hi)
      omega
    rcases j with _ | j
    · cases h
      rw [List.filter_cons, if_pos (by simpa using h0), List.filter_eq_nil_iff.2]
      intro r hr
      obtain ⟨i, hi⟩ := List.mem_iff_getElem?.1 hr
      have := hl' i r hi
      simp
      omega
    · rw [List.getElem?_cons_succ] at h
      rw [List.filter_cons, if_neg (by simp; omega), ← filter_numbered init (f + 1) hl' j r h]
      congr 1
      funext r
      rw [show f + (j + 1) = f + 1 + j by omega]

theorem Cfg.Unfolds.append {h : Sym → List Sym} {g g' : Cfg} (hu : Unfolds h g g') {n : Nat}
    (hn : 2 ≤ n) {rule : CfgRule} (hl : rule.lhs < g.numSyms) (hr : ∀ x ∈ rule.rhs, x < g.numSyms)
    {rs : List CfgRule} (hc : Chain n rule.lhs g'.numSyms rule.rhs rs)
    (hw : ∀ r ∈ rs, r.millis = rule.millis) :
    ∃ k, Unfolds k (g.pushRule rule) (g'.appended rs (rs.length - 1)) := by
  have hle := hu.le
  have hnum : (g'.appended rs (rs.length - 1)).numSyms = g'.numSyms + (rs.length - 1) := rfl
  have hnum0 : (g.pushRule rule).numSyms = g.numSyms := rfl
  obtain ⟨k, init, last, k1, k2, k3, k4, k5⟩ := hc.unfold hn h
    (fun x hx => by have := hr x hx; omega) (fun x hx => by
      by_cases hx' : x < g.numSyms
      · rw [hu.old x hx']; simp
      · have := (hu.new x (by omega) hx).1; omega)
  have hinit : rs.length - 1 = init.length := by rw [k2]; simp
  have hilhs : ∀ r ∈ init, g'.numSyms ≤ r.lhs := by
    intro r hr
    obtain ⟨i, hi⟩ := List.mem_iff_getElem?.1 hr
    have := (k5 i r hi).1
    omega
  have hrules : ∀ A, (g'.appended rs (rs.length - 1)).alternatives A =
      g'.alternatives A ++ (init.filter (fun r => r.lhs = A) ++
        if rule.lhs = A then [last] else []) := by
    intro A
    unfold Cfg.alternatives Cfg.appended
    rw [k2]
    simp only [List.filter_append, List.filter_cons, List.filter_nil, k3, decide_eq_true_eq]
  have hcong : ∀ r ∈ g'.rules, r.rhs.flatMap k = r.rhs.flatMap h := fun r hr' =>
    flatMap_congr_mem fun x hx => k1 x ((hu.wf' r hr').2 x hx)
  refine ⟨k, ?_, ?_, by omega, fun x hx => ?_, fun A hA => ?_, fun x h1 h2 => ?_,
    fun x h1 h2 => ?_⟩
  · intro r hrm
    rcases List.mem_append.1 hrm with hrm | hrm
    · exact hu.wf r hrm
    · rw [List.mem_singleton] at hrm
      subst hrm
      exact ⟨hl, hr⟩
  · intro r hrm
    rw [hnum]
    rcases List.mem_append.1 hrm with hrm | hrm
    · obtain ⟨h1, h2⟩ := hu.wf' r hrm
      exact ⟨by omega, fun s hs => by have := h2 s hs; omega⟩
    · exact (hc.bounds _ (Nat.le_refl _) (by omega) (fun x hx => by
        have := hr x hx; omega) r hrm).2
  · rw [hnum0] at hx
    rw [k1 x (by omega), hu.old x hx]
  · rw [hnum0] at hA
    rw [hrules, (List.filter_eq_nil_iff (l := init)).2 (by
      intro r hr
      have h3 := hilhs r hr
      have : r.lhs ≠ A := by omega
      simpa using this), List.nil_append]
    have he : (g.pushRule rule).alternatives A = g.alternatives A ++
        if rule.lhs = A then [rule] else [] := by
      unfold Cfg.alternatives Cfg.pushRule
      simp only [List.filter_append, List.filter_cons, List.filter_nil, decide_eq_true_eq]
    rw [he]
    refine List.rel_append ?_ ?_
    · have := hu.alts A hA
      refine (List.forall₂_iff_get.2 ?_)
      obtain ⟨e1, e2⟩ := List.forall₂_iff_get.1 this
      refine ⟨e1, fun i h1 h2 => ?_⟩
      have := e2 i h1 h2
      refine ⟨this.1, ?_⟩
      rw [← this.2]
      exact hcong _ (mem_alternatives.1 (List.get_mem _ _)).1
    · split
      · refine .cons ⟨(hw last (by rw [k2]; simp)).symm, ?_⟩ .nil
        rw [k4, flatMap_single_of_lt hu.old hr]
      · exact .nil
  · rw [hnum0] at h1
    rw [hnum, hinit] at h2
    rw [hrules, if_neg (by omega), List.append_nil]
    by_cases hx : x < g'.numSyms
    · obtain ⟨a1, r, a2, a3, a4⟩ := hu.new x h1 hx
      rw [k1 x hx]
      refine ⟨a1, r, ?_, ?_, a4⟩
      · rw [a2, (List.filter_eq_nil_iff (l := init)).2]
        · rfl
        · intro r hr
          have h3 := hilhs r hr
          have : r.lhs ≠ x := by omega
          simpa using this
      · rw [hcong r (mem_alternatives.1 (show r ∈ g'.alternatives x by rw [a2]; simp)).1, a3]
    · obtain ⟨j, rfl⟩ : ∃ j, x = g'.numSyms + j := ⟨x - g'.numSyms, by omega⟩
      have hj : j < init.length := by omega
      obtain ⟨b1, b2, b3, b4, -⟩ := k5 j init[j] (List.getElem?_eq_getElem hj)
      refine ⟨b4, init[j], ?_, b2, b3⟩
      rw [filter_numbered init g'.numSyms (fun i r hi => (k5 i r hi).1) j init[j]
        (List.getElem?_eq_getElem hj)]
      have : g'.alternatives (g'.numSyms + j) = [] := by
        refine List.filter_eq_nil_iff.2 fun r hr => ?_
        have := (hu.wf' r hr).1
        simp
        omega
      rw [this]
      rfl
  · rw [hnum0] at h1
    rw [hnum, hinit] at h2
    by_cases hx : x < g'.numSyms
    · obtain ⟨r, hr, hp⟩ := hu.part x h1 hx
      exact ⟨r, List.mem_append_left _ hr, by rw [k1 x hx]; exact hp⟩
    · obtain ⟨j, rfl⟩ : ∃ j, x = g'.numSyms + j := ⟨x - g'.numSyms, by omega⟩
      have hj : j < init.length := by omega
      have := (k5 j init[j] (List.getElem?_eq_getElem hj)).2.2.2.2
      rw [flatMap_single_of_lt hu.old hr] at this
      exact ⟨rule, List.mem_append_right _ (by simp), this⟩

/-- The parts of a split rule have its weight. -/
theorem HistSpec.millis {rule : CfgRule} {n parts : Nat} {rs : List CfgRule}
    (h : HistSpec rule n parts rs) : ∀ r ∈ rs, r.millis = rule.millis := by
  intro r hr
  obtain ⟨i, hi⟩ := List.mem_iff_getElem?.1 hr
  have := h i r hi
  unfold CfgRule.millis
  split at this
  · rw [this]
  · unfold processLinked History.binarize at this
    dsimp only at this
    split at this
    · split at this
      · rw [← Res.ok.inj this]
      · split at this <;> rw [← Res.ok.inj this]
    · split at this
      · cases this
      · rw [← Res.ok.inj this]

theorem addRules_unfolds (limit : Option Nat) (hlim : ∀ n, limit = some n → 2 ≤ n) :
    ∀ (rules : List CfgRule) (g g' : Cfg) (h : Sym → List Sym), g'.rhsLenInvariant = limit →
      Unfolds h g g' → (∀ r ∈ rules, r.lhs < g.numSyms ∧ ∀ x ∈ r.rhs, x < g.numSyms) →
      ∃ g'' k, addRules g' rules = .ok g'' ∧ Unfolds k { g with rules := g.rules ++ rules } g''
  | [], g, g', h, _, hu, _ => ⟨g', h, rfl, by rw [List.append_nil]; exact hu⟩
  | rule :: rules, g, g', h, hl, hu, hw => by
    obtain ⟨g1, k, e, hi, hu1⟩ : ∃ g1 k, (∃ m, g'.addRule rule = .ok (g1, m)) ∧
        g1.rhsLenInvariant = limit ∧ Unfolds k (g.pushRule rule) g1 := by
      have hw1 := hw rule (by simp)
      cases limit with
      | none =>
        refine ⟨_, ?_, ⟨1, addRule_none g' rule hl⟩, hl, ?_⟩
        · exact (hu.append (n := rule.rhs.length + 2) (by omega) hw1.1 hw1.2
            (rs := [rule]) (.last (by omega) rfl rfl) (by simp)).choose
        · exact (hu.append (n := rule.rhs.length + 2) (by omega) hw1.1 hw1.2
            (rs := [rule]) (.last (by omega) rfl rfl) (by simp)).choose_spec
      | some n =>
        have h2 := hlim n rfl
        obtain ⟨rs, a1, a2, -, a4⟩ := addRule_spec g' rule n h2 hl
        obtain ⟨k, hk⟩ := hu.append h2 hw1.1 hw1.2 a2 (HistSpec.millis a4)
        exact ⟨_, k, ⟨_, a1⟩, hl, hk⟩
    obtain ⟨m, e⟩ := e
    obtain ⟨g2, k2, e2, hu2⟩ := addRules_unfolds limit hlim rules (g.pushRule rule) g1 k hi hu1
      (fun r hr => hw r (by simp [hr]))
    refine ⟨g2, k2, ?_, ?_⟩
    · unfold addRules at e2 ⊢
      rw [List.foldlM_cons, e]
      exact e2
    · simpa [Cfg.pushRule] using hu2

/-- `limit_rhs_len` gives a grammar that unfolds to the one before. -/
theorem limitRhsLen_unfolds {g : Cfg} (hwf : g.WF) {limit : Option Nat}
    (hlim : ∀ n, limit = some n → 2 ≤ n) :
    ∃ g' h, g.limitRhsLen limit = .ok g' ∧ Unfolds h g g' := by
  obtain ⟨g', h, e, hu⟩ := addRules_unfolds limit hlim g.rules { g with rules := [] }
    { g with rhsLenInvariant := limit, rules := [] } (fun x => [x]) rfl
    ⟨(by intro r hr; cases hr), (by intro r hr; cases hr), Nat.le_refl _, fun _ _ => rfl,
      fun _ _ => .nil, fun x h1 h2 => absurd h2 (Nat.not_lt.2 h1),
      fun x h1 h2 => absurd h2 (Nat.not_lt.2 h1)⟩ hwf
  exact ⟨g', h, e, by simpa using hu⟩

/-! ### Runs on both grammars -/

theorem get_terminalSymbols {g : Cfg} (hwf : g.WF) : ∃ T, g.terminalSymbols = .ok T ∧
    ∀ s < g.numSyms, BitSet.get T s = .ok (decide (g.alternatives s = [])) := by
  obtain ⟨T, hT1, hT2, hT3⟩ := BitSet.terminal_spec hwf
  refine ⟨T, hT1, fun s hs => ?_⟩
  unfold BitSet.get
  rw [Res.index_lt (by rw [hT2]; exact hs)]
  congr 1
  have := hT3 s
  unfold Has at this
  rw [List.getElem?_eq_getElem (by rw [hT2]; exact hs), Option.some.injEq] at this
  rw [Bool.eq_iff_iff, this, decide_eq_true_eq]
  unfold Cfg.Term Cfg.alternatives
  rw [List.filter_eq_nil_iff]
  simp [hs]

section

variable {R W : Type} [Zero W] [Add W] [LinearOrder W]

/-- States to return to that agree up to abbreviations. -/
structure BackAgree (h : Sym → List Sym) (n : Nat) (b b' : BacktrackState R) : Prop where
  forbidden : b.forbidden = b'.forbidden
  rng : b.rng = b'.rng
  resultLen : b.resultLen = b'.resultLen
  prevWork : b.prevWork = b'.prevWork.flatMap h
  lt : ∀ x ∈ b'.prevWork, x < n

/-- States of `random` that agree up to abbreviations. -/
structure StateAgree (h : Sym → List Sym) (n : Nat) (st st' : GenState R) : Prop where
  work : st.work = st'.work.flatMap h
  lt : ∀ x ∈ st'.work, x < n
  result : st.result = st'.result
  string : st.string = st'.string
  rng : st.rng = st'.rng
  attempts : st.attempts = st'.attempts
  backs : ∀ p, List.Forall₂ (BackAgree h n) (st.backtracking p) (st'.backtracking p)

/-- Outcomes of a turn that agree up to abbreviations. -/
def TurnAgree (h : Sym → List Sym) (n : Nat) (x x' : Res (Except RandomGenError (GenState R))) :
    Prop :=
  (x = .panic ∧ x' = .panic) ∨ (x = .diverge ∧ x' = .diverge) ∨
  (∃ e, x = .ok (.error e) ∧ x' = .ok (.error e)) ∨
  ∃ st st', x = .ok (.ok st) ∧ x' = .ok (.ok st') ∧ StateAgree h n st st'

omit [Zero W] [Add W] [LinearOrder W] in
theorem backtrack_agree (src : GenRange R W) {h : Sym → List Sym} {n : Nat}
    {bs bs' : List (BacktrackState R)} (hb : List.Forall₂ (BackAgree h n) bs bs') :
    ∀ {st st' : GenState R}, StateAgree h n st st' →
      TurnAgree h n (GenState.backtrack src bs st) (GenState.backtrack src bs' st') := by
  induction hb with
  | nil =>
    intro st st' hs
    exact .inr (.inr (.inr ⟨st, st', rfl, rfl, hs⟩))
  | @cons b b' bs bs' h1 _ ih =>
    intro st st' hs
    unfold GenState.backtrack
    rw [← h1.forbidden, ← h1.rng, ← h1.resultLen, ← hs.string, ← hs.attempts, ← hs.result]
    by_cases hf : b.forbidden <:+ st.string
    · rw [if_pos hf, if_pos hf]
      dsimp only
      cases hat : st.attempts (st.string.take (st.string.length - b.forbidden.length)).length with
      | none => exact .inl ⟨rfl, rfl⟩
      | some a =>
        dsimp only
        by_cases ha : a + 1 > 256 * 64
        · rw [if_pos ha, if_pos ha]
          exact .inr (.inr (.inl ⟨_, rfl, rfl⟩))
        · rw [if_neg ha, if_neg ha]
          exact ih ⟨h1.prevWork, h1.lt, rfl, rfl, rfl, rfl, hs.backs⟩
    · rw [if_neg hf, if_neg hf]
      exact ih hs

/-- A choice from split alternatives is the split choice. -/
theorem pick_agree (search : BinarySearch W) (ofMillis : Nat → W) (src : GenRange R W)
    {h : Sym → List Sym} {g g' : Cfg} (hu : Unfolds h g g') {A : Sym} (hA : A < g.numSyms)
    (hne : g.alternatives A ≠ []) (rng : R) :
    ((g.weighted ofMillis).pickRhs search src A rng = .panic ∧
      (g'.weighted ofMillis).pickRhs search src A rng = .panic) ∨
    ((g.weighted ofMillis).pickRhs search src A rng = .diverge ∧
      (g'.weighted ofMillis).pickRhs search src A rng = .diverge) ∨
    ∃ α rng', (g.weighted ofMillis).pickRhs search src A rng = .ok (α.flatMap h, rng') ∧
      (g'.weighted ofMillis).pickRhs search src A rng = .ok (α, rng') ∧
      ∀ x ∈ α, x < g'.numSyms := by
  have ha := hu.alts A hA
  have hlen := ha.length_eq
  have hne' : g'.alternatives A ≠ [] := by
    intro e
    rw [e, List.length_nil, List.length_eq_zero_iff] at hlen
    exact hne hlen
  have hcum : ∀ k, cumulative ofMillis (g.alternatives A) k =
      cumulative ofMillis (g'.alternatives A) k := by
    intro k
    unfold cumulative
    congr 1
    have : (g.alternatives A).map CfgRule.millis = (g'.alternatives A).map CfgRule.millis := by
      generalize g.alternatives A = l at ha
      generalize g'.alternatives A = l' at ha
      induction ha with
      | nil => rfl
      | cons h1 _ ih => rw [List.map_cons, List.map_cons, h1.1, ih]
    have h2 := congrArg (fun l => (l.take k).map ofMillis) this
    simpa [List.map_take, List.map_map, Function.comp_def] using h2
  have hlt : ∀ r' ∈ g'.alternatives A, ∀ x ∈ r'.rhs, x < g'.numSyms := fun r' hr' =>
    (hu.wf' r' (mem_alternatives.1 hr').1).2
  obtain ⟨r, e1, e2⟩ | ⟨e1, e2⟩ := pickRhs_spec search src ofMillis g A rng hne
  · obtain ⟨r', f1, f2⟩ | ⟨f1, f2⟩ := pickRhs_spec search src ofMillis g' A rng hne'
    · rw [e1, f1] at ha
      cases ha with
      | cons h1 _ =>
        refine .inr (.inr ⟨r'.rhs, rng, by rw [e2, h1.2], f2, hlt r' (by rw [f1]; simp)⟩)
    · rw [e1] at hlen
      simp at hlen
      omega
  · obtain ⟨r', f1, f2⟩ | ⟨f1, f2⟩ := pickRhs_spec search src ofMillis g' A rng hne'
    · rw [f1] at hlen
      simp at hlen
      omega
    · rw [hlen, show cumulative ofMillis (g.alternatives A) = cumulative ofMillis (g'.alternatives A)
        from funext hcum] at e2
      rw [e2, f2]
      cases hgen : src.generate rng
          (cumulative ofMillis (g'.alternatives A) (g'.alternatives A).length) with
      | panic => exact .inl ⟨rfl, rfl⟩
      | diverge => exact .inr (.inl ⟨rfl, rfl⟩)
      | ok x =>
        simp only [Res.bind_ok]
        generalize search.idx ((List.range (g'.alternatives A).length).map
          (cumulative ofMillis (g'.alternatives A))) x.1 - 1 = i
        by_cases hi : i < (g'.alternatives A).length
        · rw [Res.index_lt hi, Res.index_lt (show i < (g.alternatives A).length by omega)]
          have hrel := (List.forall₂_iff_get.1 ha).2 i (by omega) hi
          simp only [List.get_eq_getElem] at hrel
          refine .inr (.inr ⟨(g'.alternatives A)[i].rhs, x.2, ?_, rfl, hlt _ (List.getElem_mem _)⟩)
          rw [hrel.2]
          rfl
        · rw [Res.index_panic (by omega), Res.index_panic (by omega)]
          exact .inl ⟨rfl, rfl⟩

theorem negativeMap_new {neg : List NegativeRule} {n : Nat} (hneg : ∀ m ∈ neg, m.sym < n) {x : Sym}
    (hx : n ≤ x) : negativeMap neg x = none := by
  unfold negativeMap
  rw [List.find?_eq_none.2]
  · rfl
  · intro m hm
    have := hneg m (List.mem_reverse.1 hm)
    simp
    omega

/-- A turn for an old symbol. -/
theorem step_agree (search : BinarySearch W) (ofMillis : Nat → W) (src : GenRange R W)
    (limit : Option Limits) (neg : List NegativeRule) (toChar : Sym → R → Option Char × R)
    {h : Sym → List Sym} {g g' : Cfg} (hu : Unfolds h g g') {T T' : BitSet}
    (hT : ∀ s < g.numSyms, BitSet.get T s = .ok (decide (g.alternatives s = [])))
    (hT' : ∀ s < g'.numSyms, BitSet.get T' s = .ok (decide (g'.alternatives s = [])))
    {A : Sym} (hA : A < g.numSyms) {st st' : GenState R} (hs : StateAgree h g'.numSyms st st') :
    TurnAgree h g'.numSyms (st.step search src limit neg toChar T (g.weighted ofMillis) A)
      (st'.step search src limit neg toChar T' (g'.weighted ofMillis) A) := by
  have hle := hu.le
  unfold GenState.step
  rw [hT A hA, hT' A (by omega), Res.bind_ok, Res.bind_ok]
  have hiff : g'.alternatives A = [] ↔ g.alternatives A = [] := by
    have := (hu.alts A hA).length_eq
    rw [← List.length_eq_zero_iff, ← List.length_eq_zero_iff, this]
  simp only [hiff, decide_eq_true_eq]
  by_cases ht : g.alternatives A = []
  · rw [if_pos ht, if_pos ht]
    unfold GenState.terminal
    dsimp only
    rw [← hs.result, ← hs.string, ← hs.rng]
    split
    · exact .inr (.inr (.inl ⟨_, rfl, rfl⟩))
    · exact backtrack_agree src (hs.backs _) ⟨hs.work, hs.lt, rfl, rfl, rfl, hs.attempts, hs.backs⟩
  · rw [if_neg ht, if_neg ht]
    cases hn : negativeMap neg A with
    | some f =>
      refine .inr (.inr (.inr ⟨_, _, rfl, rfl, hs.work, hs.lt, hs.result, hs.string, hs.rng, ?_, ?_⟩))
      · unfold GenState.negative
        dsimp only
        rw [hs.string, hs.attempts]
      · intro p
        unfold GenState.negative
        dsimp only
        rw [hs.string]
        split
        · refine List.rel_append (hs.backs p) (.cons ⟨rfl, hs.rng, ?_, hs.work, hs.lt⟩ .nil)
          rw [hs.result]
        · exact hs.backs p
    | none =>
      dsimp only
      rw [← hs.rng]
      rcases pick_agree search ofMillis src hu hA ht st.rng with ⟨e, e'⟩ | ⟨e, e'⟩ |
        ⟨α, rng', e, e', hlt⟩
      · rw [e, e']; exact .inl ⟨rfl, rfl⟩
      · rw [e, e']; exact .inr (.inl ⟨rfl, rfl⟩)
      · rw [e, e']
        refine .inr (.inr (.inr ⟨_, _, rfl, rfl, ?_, ?_, hs.result, hs.string, rfl, hs.attempts,
          hs.backs⟩))
        · rw [List.flatMap_append, hs.work]
        · intro x hx
          rcases List.mem_append.1 hx with hx | hx
          · exact hlt x hx
          · exact hs.lt x hx

/-- A turn for a new symbol replaces it and does nothing else. -/
theorem run_new (search : BinarySearch W) (ofMillis : Nat → W) (src : GenRange R W)
    (limit : Option Limits) {neg : List NegativeRule} (toChar : Sym → R → Option Char × R)
    {h : Sym → List Sym} {g g' : Cfg} (hu : Unfolds h g g')
    (hneg : ∀ m ∈ neg, m.sym < g.numSyms) {T' : BitSet}
    (hT' : ∀ s < g'.numSyms, BitSet.get T' s = .ok (decide (g'.alternatives s = [])))
    {x : Sym} (h1 : g.numSyms ≤ x) (h2 : x < g'.numSyms) {st' : GenState R} {rest : List Sym}
    (hw : st'.work = x :: rest) :
    ∃ α : List Sym, α.flatMap h = h x ∧ 2 ≤ α.length ∧ (∀ y ∈ α, y < g'.numSyms) ∧
      ∀ fuel, GenState.run search src limit neg toChar T' (g'.weighted ofMillis) (fuel + 1) st' =
        GenState.run search src limit neg toChar T' (g'.weighted ofMillis) fuel
          { st' with work := α ++ rest } := by
  obtain ⟨-, r, a1, a2, a3⟩ := hu.new x h1 h2
  refine ⟨r.rhs, a2, a3, (hu.wf' r (mem_alternatives.1 (show r ∈ g'.alternatives x by
    rw [a1]; simp)).1).2, fun fuel => ?_⟩
  conv_lhs => unfold GenState.run
  rw [hw]
  dsimp only
  unfold GenState.step
  rw [hT' x h2, Res.bind_ok, negativeMap_new hneg h1]
  simp only [a1, List.cons_ne_nil, decide_false, Bool.false_eq_true, if_false]
  rw [C61_single search src ofMillis g' x _ r a1]
  rfl

omit [Zero W] [Add W] in
theorem run_cons (search : BinarySearch W) (src : GenRange R W) (limit : Option Limits)
    (neg : List NegativeRule) (toChar : Sym → R → Option Char × R) (T : BitSet)
    (m : WeightedRhsByLhs W) (M : Nat) {st : GenState R} {x : Sym} {rest : List Sym}
    (hw : st.work = x :: rest) :
    GenState.run search src limit neg toChar T m (M + 1) st =
      (GenState.step search src limit neg toChar T m x { st with work := rest } >>= fun r =>
        match r with
        | .error e => .ok (.error e)
        | .ok st => GenState.run search src limit neg toChar T m M st) := by
  conv_lhs => unfold GenState.run
  rw [hw]
  rfl

/-- Turns for new symbols bring an old symbol to the front. -/
theorem run_front_old (search : BinarySearch W) (ofMillis : Nat → W) (src : GenRange R W)
    (limit : Option Limits) {neg : List NegativeRule} (toChar : Sym → R → Option Char × R)
    {h : Sym → List Sym} {g g' : Cfg} (hu : Unfolds h g g')
    (hneg : ∀ m ∈ neg, m.sym < g.numSyms) {T' : BitSet}
    (hT' : ∀ s < g'.numSyms, BitSet.get T' s = .ok (decide (g'.alternatives s = []))) :
    ∀ (n : Nat) (x : Sym) (rest : List Sym) (st' : GenState R), (h x).length ≤ n → x < g'.numSyms →
      st'.work = x :: rest → ∃ (k : Nat) (s : Sym) (β : List Sym), s < g.numSyms ∧
        h x = s :: β.flatMap h ∧ (∀ y ∈ β, y < g'.numSyms) ∧
        ∀ fuel, GenState.run search src limit neg toChar T' (g'.weighted ofMillis) (fuel + k) st' =
          GenState.run search src limit neg toChar T' (g'.weighted ofMillis) fuel
            { st' with work := s :: (β ++ rest) } := by
  have hpos : ∀ y < g'.numSyms, 1 ≤ (h y).length := by
    intro y hy
    by_cases hyo : y < g.numSyms
    · rw [hu.old y hyo]; simp
    · have := (hu.new y (by omega) hy).1; omega
  intro n
  induction n with
  | zero =>
    intro x rest st' h1 h2
    have := hpos x h2
    omega
  | succ n ih =>
    intro x rest st' h1 h2 hw
    by_cases hxo : x < g.numSyms
    · refine ⟨0, x, [], hxo, hu.old x hxo, by simp, fun fuel => ?_⟩
      rw [List.nil_append, ← hw]
      rfl
    · obtain ⟨α, a1, a2, a3, a4⟩ := run_new search ofMillis src limit toChar hu hneg hT'
        (by omega) h2 hw
      rcases α with _ | ⟨y, α⟩
      · simp at a2
      · rcases α with _ | ⟨z, α⟩
        · simp at a2
        · have hz := hpos z (a3 z (by simp))
          rw [List.flatMap_cons, List.flatMap_cons] at a1
          have hl := congrArg List.length a1
          simp only [List.length_append] at hl
          obtain ⟨k, s, β, b1, b2, b3, b4⟩ := ih y (z :: α ++ rest)
            { st' with work := y :: (z :: α ++ rest) } (by omega) (a3 y (by simp)) rfl
          refine ⟨k + 1, s, β ++ (z :: α), b1, ?_, ?_, fun fuel => ?_⟩
          · rw [← a1, b2, List.flatMap_append, List.flatMap_cons]
            simp only [List.cons_append]
          · intro w hw
            rcases List.mem_append.1 hw with hw | hw
            · exact b3 w hw
            · exact a3 w (List.mem_cons_of_mem _ hw)
          · rw [← Nat.add_assoc, a4]
            have := b4 fuel
            simp only [List.append_assoc, List.cons_append] at this ⊢
            exact this

theorem run_agree (search : BinarySearch W) (ofMillis : Nat → W) (src : GenRange R W)
    (limit : Option Limits) {neg : List NegativeRule} (toChar : Sym → R → Option Char × R)
    {h : Sym → List Sym} {g g' : Cfg} (hu : Unfolds h g g')
    (hneg : ∀ m ∈ neg, m.sym < g.numSyms) {T T' : BitSet}
    (hT : ∀ s < g.numSyms, BitSet.get T s = .ok (decide (g.alternatives s = [])))
    (hT' : ∀ s < g'.numSyms, BitSet.get T' s = .ok (decide (g'.alternatives s = []))) :
    (∀ (N : Nat) (st st' : GenState R), StateAgree h g'.numSyms st st' →
      GenState.run search src limit neg toChar T' (g'.weighted ofMillis) N st' ≠ .diverge →
      ∃ M, GenState.run search src limit neg toChar T (g.weighted ofMillis) M st =
        GenState.run search src limit neg toChar T' (g'.weighted ofMillis) N st') := by
  intro N
  induction N with
  | zero => intro st st' _ hd; exact absurd rfl hd
  | succ N ih =>
    intro st st' hs hd
    cases hw : st'.work with
    | nil =>
      refine ⟨1, ?_⟩
      have := hs.work
      rw [hw] at this
      unfold GenState.run
      rw [hw, this]
      simp only [List.flatMap_nil]
      rw [hs.result, hs.string]
    | cons x rest =>
      have hx := hs.lt x (by rw [hw]; simp)
      by_cases hxo : x < g.numSyms
      · have hst : st.work = x :: rest.flatMap h := by
          rw [hs.work, hw, List.flatMap_cons, hu.old x hxo]; rfl
        have hag := step_agree search ofMillis src limit neg toChar hu hT hT' hxo
          (st := { st with work := rest.flatMap h }) (st' := { st' with work := rest })
          ⟨rfl, fun y hy => hs.lt y (by rw [hw]; simp [hy]), hs.result, hs.string, hs.rng,
            hs.attempts, hs.backs⟩
        have hr := fun M => run_cons search src limit neg toChar T (g.weighted ofMillis) M hst
        have hr' := run_cons search src limit neg toChar T' (g'.weighted ofMillis) N hw
        rw [hr'] at hd ⊢
        rcases hag with ⟨e, e'⟩ | ⟨e, e'⟩ | ⟨err, e, e'⟩ | ⟨s1, s1', e, e', hs1⟩
        · exact ⟨1, by rw [hr, e, e']; rfl⟩
        · rw [e'] at hd; exact absurd rfl hd
        · exact ⟨1, by rw [hr, e, e']; rfl⟩
        · rw [e', Res.bind_ok] at hd
          obtain ⟨M, hM⟩ := ih s1 s1' hs1 hd
          exact ⟨M + 1, by rw [hr, e, e']; exact hM⟩
      · obtain ⟨α, b1, b2, b3, b4⟩ := run_new search ofMillis src limit toChar hu hneg hT'
          (by omega) hx hw
        rw [b4 N] at hd ⊢
        refine ih st _ ⟨?_, ?_, hs.result, hs.string, hs.rng, hs.attempts, hs.backs⟩ hd
        · rw [hs.work, hw, List.flatMap_append, b1]; rfl
        · intro y hy
          rcases List.mem_append.1 hy with hy | hy
          · exact b3 y hy
          · exact hs.lt y (by rw [hw]; simp [hy])

theorem run_agree' (search : BinarySearch W) (ofMillis : Nat → W) (src : GenRange R W)
    (limit : Option Limits) {neg : List NegativeRule} (toChar : Sym → R → Option Char × R)
    {h : Sym → List Sym} {g g' : Cfg} (hu : Unfolds h g g')
    (hneg : ∀ m ∈ neg, m.sym < g.numSyms) {T T' : BitSet}
    (hT : ∀ s < g.numSyms, BitSet.get T s = .ok (decide (g.alternatives s = [])))
    (hT' : ∀ s < g'.numSyms, BitSet.get T' s = .ok (decide (g'.alternatives s = []))) :
    (∀ (N : Nat) (st st' : GenState R), StateAgree h g'.numSyms st st' →
      GenState.run search src limit neg toChar T (g.weighted ofMillis) N st ≠ .diverge →
      ∃ M, GenState.run search src limit neg toChar T' (g'.weighted ofMillis) M st' =
        GenState.run search src limit neg toChar T (g.weighted ofMillis) N st) := by
  intro N
  induction N with
  | zero => intro st st' _ hd; exact absurd rfl hd
  | succ N ih =>
    intro st st' hs hd
    cases hw : st'.work with
    | nil =>
      refine ⟨1, ?_⟩
      have := hs.work
      rw [hw] at this
      unfold GenState.run
      rw [hw, this]
      simp only [List.flatMap_nil]
      rw [hs.result, hs.string]
    | cons x rest =>
      have hx := hs.lt x (by rw [hw]; simp)
      obtain ⟨k, s, β, b1, b2, b3, b4⟩ := run_front_old search ofMillis src limit toChar hu hneg hT' _ x
        rest st' (Nat.le_refl _) hx hw
      have hst : st.work = s :: (β ++ rest).flatMap h := by
        rw [hs.work, hw, List.flatMap_cons, b2, List.flatMap_append]; rfl
      have hag := step_agree search ofMillis src limit neg toChar hu hT hT' b1
        (st := { st with work := (β ++ rest).flatMap h }) (st' := { st' with work := β ++ rest })
        ⟨rfl, fun y hy => by
            rcases List.mem_append.1 hy with hy | hy
            · exact b3 y hy
            · exact hs.lt y (by rw [hw]; simp [hy]), hs.result, hs.string, hs.rng,
          hs.attempts, hs.backs⟩
      have hr := run_cons search src limit neg toChar T (g.weighted ofMillis) N hst
      have hr' := fun M => run_cons search src limit neg toChar T' (g'.weighted ofMillis) M
        (st := { st' with work := s :: (β ++ rest) }) rfl
      rw [hr] at hd ⊢
      rcases hag with ⟨e, e'⟩ | ⟨e, e'⟩ | ⟨err, e, e'⟩ | ⟨s1, s1', e, e', hs1⟩
      · exact ⟨1 + k, by rw [b4, hr', e, e']; rfl⟩
      · rw [e] at hd; exact absurd rfl hd
      · exact ⟨1 + k, by rw [b4, hr', e, e']; rfl⟩
      · rw [e, Res.bind_ok] at hd
        obtain ⟨M, hM⟩ := ih s1 s1' hs1 hd
        exact ⟨M + 1 + k, by rw [b4, hr', e, e']; exact hM⟩

end

/-- **C134.** Splitting long rules does not change what is generated: for every random source, limit
and set of negative rules on symbols of the grammar, generation from the split grammar has the same
outcome (the same symbols and text, the same error, or a panic) as generation from the grammar, with
the same random numbers; it runs for ever if generation from the grammar does. -/
theorem C134_same_outcome {g : Cfg} (hwf : g.WF) {limit : Option Nat}
    (hlim : ∀ n, limit = some n → 2 ≤ n) :
    ∃ g', g.limitRhsLen limit = .ok g' ∧ ∀ {R W : Type} [Zero W] [Add W] [LinearOrder W]
      (search : BinarySearch W) (ofMillis : Nat → W) (src : GenRange R W) (start : Sym)
      (lim : Option Limits) (rng : R) (neg : List NegativeRule)
      (toChar : Sym → R → Option Char × R), start < g.numSyms →
      (∀ m ∈ neg, m.sym < g.numSyms) → ∀ outcome, outcome ≠ .diverge →
        ((∃ N, g'.random search ofMillis src start lim rng neg toChar N = outcome) ↔
          ∃ N, g.random search ofMillis src start lim rng neg toChar N = outcome) := by
  obtain ⟨g', h, e, hu⟩ := limitRhsLen_unfolds hwf hlim
  refine ⟨g', e, ?_⟩
  intro R W _ _ _ search ofMillis src start lim rng neg toChar hstart hneg outcome ho
  obtain ⟨T, hT1, hT⟩ := get_terminalSymbols hu.wf
  obtain ⟨T', hT1', hT'⟩ := get_terminalSymbols hu.wf'
  have hs : StateAgree h g'.numSyms
      ({ work := [start], result := [], string := [], rng := rng
         backtracking := fun _ => [], attempts := fun _ => none } : GenState R)
      { work := [start], result := [], string := [], rng := rng
        backtracking := fun _ => [], attempts := fun _ => none } := by
    refine ⟨?_, ?_, rfl, rfl, rfl, rfl, fun _ => .nil⟩
    · simp [hu.old start hstart]
    · intro x hx
      rw [List.mem_singleton] at hx
      subst hx
      have := hu.le
      omega
  unfold Cfg.random
  rw [hT1, hT1']
  simp only [Res.bind_ok]
  constructor
  · rintro ⟨N, hN⟩
    obtain ⟨M, hM⟩ := run_agree search ofMillis src lim toChar hu hneg hT hT' N _ _ hs
      (by rw [hN]; exact ho)
    exact ⟨M, hM.trans hN⟩
  · rintro ⟨N, hN⟩
    obtain ⟨M, hM⟩ := run_agree' search ofMillis src lim toChar hu hneg hT hT' N _ _ hs
      (by rw [hN]; exact ho)
    exact ⟨M, hM.trans hN⟩

/-- Balanced parentheses, split to right sides of two symbols, from the same bytes. -/
example : exParens.WF ∧ ((fun g' => (g'.rules.map fun r => (r.lhs, r.rhs),
    match g'.random (firstSearch ℚ) (fun m => (m : ℚ) / 1000)
        (ByteSource.genRange fun b l => b * l / 255) 0 (some ⟨4, 0⟩) ⟨[1, 2, 200, 250, 251], []⟩ []
        (fun s r => (if s = 1 then some '(' else some ')', r)) 20 with
      | .ok (.ok x) => some x
      | _ => none)) <$> exParens.limitRhsLen (some 2)) =
    .ok ([(3, [1, 0]), (4, [3, 2]), (0, [4, 0]), (0, [])], some ([1, 1, 2, 2], ['(', '(', ')', ')']))
    := by decide +kernel

end Verif
