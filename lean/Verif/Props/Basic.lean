import Verif.Proofs.Basic

/-!
# Properties of reversing, sorting, wrapping and inspecting a grammar (C18–C22)
-/

namespace Verif

/-- Example grammar: `0 ::= 0 1 2 | 3 ; 1 ::= 3 4` with root 0 and a duplicate rule. -/
def exBasic : Cfg :=
  { src := ⟨5, [none, none, none, none, none]⟩
    roots := [0]
    rules := [⟨1, [3, 4], {}⟩, ⟨0, [0, 1, 4], {}⟩, ⟨1, [3, 4], {origin := 7}⟩, ⟨0, [3], {}⟩] }

/-! ## C18 -/

/-- **C18**: after `reverse()` each symbol derives exactly the reversals of the strings it
derived before. -/
theorem C18_reverse (g : Cfg) (A : Sym) (w : List Sym) :
    (Derives g.reverse.prod [A] w ↔ Derives g.prod [A] w.reverse) ∧
    (g.reverse.Lang A w ↔ g.Lang A w.reverse) ∧
    g.reverse.roots = g.roots ∧ g.reverse.numSyms = g.numSyms := by
  have key : Derives g.reverse.prod [A] w ↔ Derives g.prod [A] w.reverse := by
    constructor
    · intro d
      have := g.reverse.derives_reverse d
      rwa [Cfg.reverse_reverse, List.reverse_singleton] at this
    · intro d
      have := g.derives_reverse d
      rwa [List.reverse_singleton, List.reverse_reverse] at this
  refine ⟨key, ?_, rfl, rfl⟩
  unfold Cfg.Lang InLang
  rw [key]
  simp only [Cfg.term_reverse, List.mem_reverse]

/-- **C18**: reversing twice restores the grammar. -/
theorem C18_involutive (g : Cfg) : g.reverse.reverse = g := g.reverse_reverse

/-- `exBasic` derives `3 3 4 4` from 0, and the reversed grammar its reversal. -/
example : exBasic.reverse.Lang 0 [4, 4, 3, 3] := by
  rw [(C18_reverse _ _ _).2.1]
  refine ⟨?_, by decide⟩
  refine .head (b := [0, 1, 4]) ⟨0, [0, 1, 4], [], [], by decide, rfl, rfl⟩ ?_
  refine .head (b := [3, 1, 4]) ⟨0, [3], [], [1, 4], by decide, rfl, rfl⟩ ?_
  exact .single ⟨1, [3, 4], [3], [4], by decide, rfl, rfl⟩

/-! ## C19 -/

/-- **C19**: `sort()` permutes the rules into (left side, right side) order and keeps rules with
the same sides in their old order. -/
theorem C19_sort (g : Cfg) :
    g.sort.rules.Perm g.rules ∧ g.sort.rules.Pairwise RuleLe ∧
    (∀ A α, g.sort.rules.filter (fun r => r.lhs = A ∧ r.rhs = α) =
      g.rules.filter (fun r => r.lhs = A ∧ r.rhs = α)) ∧
    ∀ A w, g.sort.Lang A w ↔ g.Lang A w := by
  refine ⟨g.sort_perm, g.sort_sorted, g.sort_stable, fun A w => ?_⟩
  refine Cfg.lang_congr (g := g.sort) (g' := g) rfl (fun A α => ?_) A w
  unfold Cfg.prod
  simp only [(g.sort_perm).mem_iff]

/-- **C19**: `dedup()` keeps every production and the language, in the old order; after `sort()`
no two remaining rules have the same sides. -/
theorem C19_dedup (g : Cfg) :
    g.dedup.rules.Sublist g.rules ∧ (∀ A α, g.dedup.prod A α ↔ g.prod A α) ∧
    (∀ A w, g.dedup.Lang A w ↔ g.Lang A w) ∧
    g.sort.dedup.rules.Pairwise (fun r s => ¬ (r.lhs = s.lhs ∧ r.rhs = s.rhs)) ∧
    (∀ A α, g.sort.dedup.prod A α ↔ g.prod A α) ∧
    g.sort.dedup.rules.Pairwise RuleLe := by
  have key : ∀ g : Cfg, ∀ A α, g.dedup.prod A α ↔ g.prod A α := by
    intro g A α
    constructor
    · rintro ⟨r, hr, e⟩
      exact ⟨r, (Cfg.dedupRules_spec g.rules).1.subset hr, e⟩
    · rintro ⟨r, hr, rfl, rfl⟩
      obtain ⟨r', h1, h2, h3⟩ := (Cfg.dedupRules_spec g.rules).2 r hr
      exact ⟨r', h1, h2, h3⟩
  refine ⟨(Cfg.dedupRules_spec g.rules).1, key g, Cfg.lang_congr rfl (key g),
    Cfg.dedupRules_nodup _ g.sort_sorted, fun A α => ?_,
    g.sort_sorted.sublist (Cfg.dedupRules_spec g.sort.rules).1⟩
  rw [key]
  unfold Cfg.prod
  simp only [(g.sort_perm).mem_iff]

/-- **C19**: of several rules with the same sides, `dedup()` after `sort()` keeps the first one
(with its history). -/
theorem C19_dedup_first (g : Cfg) (r : CfgRule) (hr : r ∈ g.sort.dedup.rules) :
    (g.rules.filter (fun s => s.lhs = r.lhs ∧ s.rhs = r.rhs)).head? = some r := by
  rw [← Cfg.sort_stable]
  have key : ∀ (rs : List CfgRule) (last : CfgRule), (last :: rs).Pairwise RuleLe →
      ∀ r ∈ last :: Cfg.dedupRules.go last rs,
      ((last :: rs).filter (fun s => s.lhs = r.lhs ∧ s.rhs = r.rhs)).head? = some r := by
    intro rs last h r hr
    fun_induction Cfg.dedupRules.go last rs with
    | case1 => simp only [List.mem_singleton] at hr; subst hr; simp
    | case2 last r' rs e ih =>
      have h' : (last :: rs).Pairwise RuleLe := by
        rw [List.pairwise_cons, List.pairwise_cons] at h
        exact List.pairwise_cons.2 ⟨fun s hs => h.1 s (by simp [hs]), h.2.2⟩
      have := ih h' hr
      rw [List.filter_cons] at this ⊢
      split
      · rename_i hc; rw [if_pos hc] at this; simpa using this
      · rename_i hc
        rw [if_neg hc] at this
        rw [List.filter_cons, if_neg (by rw [e.1, e.2]; exact hc)]
        exact this
    | case3 last r' rs e ih =>
      rcases List.mem_cons.1 hr with rfl | hr'
      · simp
      · have nd := Cfg.dedup_go_nodup last (r' :: rs) h
        rw [Cfg.dedupRules.go, if_neg e, List.pairwise_cons] at nd
        have := nd.1 r hr'
        rw [List.filter_cons, if_neg (by simpa using this)]
        exact ih (List.pairwise_cons.1 h).2 hr'
  have hs := g.sort_sorted
  unfold Cfg.dedup at hr
  generalize g.sort.rules = l at hs hr
  cases l with
  | nil => simp [Cfg.dedupRules] at hr
  | cons last rs => exact key rs last hs r hr

/-- **C19**: `extend` yields the rules of both grammars, the other grammar's last, and changes
nothing else. -/
theorem C19_extend (g other : Cfg) :
    (∀ A α, (g.extend other).prod A α ↔ g.prod A α ∨ other.prod A α) ∧
    (∀ A w, Derives g.prod [A] w → Derives (g.extend other).prod [A] w) ∧
    (∀ A w, Derives other.prod [A] w → Derives (g.extend other).prod [A] w) ∧
    (g.extend other).rules = g.rules ++ other.rules ∧
    (g.extend other).roots = g.roots ∧ (g.extend other).numSyms = g.numSyms := by
  have key : ∀ A α, (g.extend other).prod A α ↔ g.prod A α ∨ other.prod A α := by
    intro A α
    unfold Cfg.prod Cfg.extend
    simp only [List.mem_append, or_and_right, exists_or]
  exact ⟨key, fun A w => Derives.mono fun A α h => (key A α).2 (.inl h),
    fun A w => Derives.mono fun A α h => (key A α).2 (.inr h), rfl, rfl, rfl⟩

example : exBasic.sort.rules.map (fun r => (r.lhs, r.rhs, r.history.origin)) =
    [(0, [0, 1, 4], 0), (0, [3], 0), (1, [3, 4], 0), (1, [3, 4], 7)] := by decide +kernel
example : ∃ r ∈ exBasic.sort.dedup.rules, r.rhs = [3, 4] ∧ r.history.origin = 0 := by
  decide +kernel

/-! ## C20 -/

/-- **C20**: `wrap_input()` succeeds; the new roots are exactly the recorded wrapped roots, one
per old root and in the same order; all roots and markers are distinct new symbols; the markers
are terminals; a new root derives exactly `start_of_input · u · end_of_input` for the strings
`u` the old root derived; the language of every old symbol is unchanged. -/
theorem C20_wrap_input (g : Cfg) (hwf : g.WF) (hlim : ∀ n, g.rhsLenInvariant = some n → 2 ≤ n)
    (hroots : ∀ r ∈ g.roots, r < g.numSyms) :
    ∃ g', g.wrapInput = .ok g' ∧ g'.WF ∧
      g'.wrappedRoots.map (·.innerRoot) = g.roots ∧
      g'.roots = g'.wrappedRoots.map (·.root) ∧
      (g'.wrappedRoots.flatMap fun w => [w.root, w.startOfInput, w.endOfInput]).Nodup ∧
      (∀ s ∈ g'.wrappedRoots.flatMap fun w => [w.root, w.startOfInput, w.endOfInput],
        g.numSyms ≤ s ∧ s < g'.numSyms) ∧
      (∀ A, A < g.numSyms → ∀ w, g'.Lang A w ↔ g.Lang A w) ∧
      ∀ wr ∈ g'.wrappedRoots, g'.Term wr.startOfInput ∧ g'.Term wr.endOfInput ∧
        ∀ w, g'.Lang wr.root w ↔
          ∃ u, g.Lang wr.innerRoot u ∧ w = [wr.startOfInput] ++ u ++ [wr.endOfInput] := by
  obtain ⟨g', h1, h2⟩ := g.wrapInput_inv hwf hlim hroots
  exact ⟨g', h1, h2.wf, h2.inner, h2.roots, h2.nodup, h2.fresh, h2.old, h2.new⟩

example : exBasic.WF ∧ exBasic.roots = [0] ∧ (∀ r ∈ exBasic.roots, r < exBasic.numSyms) := by
  decide +kernel
example : (fun g : Cfg => (g.roots, g.wrappedRoots)) <$>
    ({ exBasic with rhsLenInvariant := some 2 }).wrapInput = .ok ([5], [⟨6, 0, 7, 5⟩]) := by
  decide +kernel

/-! ## C21 -/

/-- **C21** fails under a length limit of 2: the wrapping rule is split and the fresh symbol's
rule makes the grammar count as non-empty although the user added no rule. -/
theorem C21_violated_limit :
    ∃ g : Cfg, g.rules = [] ∧ g.WF ∧ g.rhsLenInvariant = some 2 ∧
      Cfg.isEmpty <$> g.wrapInput = .ok false :=
  ⟨{ src := ⟨1, [none]⟩, roots := [0], rhsLenInvariant := some 2 }, by decide +kernel⟩

/-- **C21** fails in the other direction as well: a rule that the user gives to a wrapped root
is not counted. -/
theorem C21_violated_root_rule :
    ∃ g : Cfg, g.rules = [] ∧ g.WF ∧
      Cfg.isEmpty <$> (g.wrapInput >>= fun g => (·.1) <$> g.addRule ⟨1, [0, 0], {}⟩) =
        .ok true :=
  ⟨{ src := ⟨1, [none]⟩, roots := [0] }, by decide +kernel⟩

/-- Wrapping without splitting appends exactly one rule per root. -/
private theorem wrapOne_rules (g : Cfg) (hl : ∀ n, g.rhsLenInvariant = some n → 3 ≤ n) (r : Sym) :
    ∃ g', g.wrapOne r = .ok g' ∧ g'.rules = g.rules ++ [g.wrapRule r] ∧
      g'.roots = g.roots ++ [g.numSyms] ∧ g'.numSyms = g.numSyms + 3 ∧
      g'.rhsLenInvariant = g.rhsLenInvariant ∧ g'.wrappedRoots ≠ [] := by
  cases e : g.rhsLenInvariant with
  | none =>
    refine ⟨_, by rw [Cfg.wrapOne_eq, Cfg.addRule_none g.wrapSyms _ e]; rfl, ?_⟩
    exact ⟨rfl, rfl, rfl, e, by simp [Cfg.wrapRecord]⟩
  | some n =>
    have hn := hl n e
    obtain ⟨rs, h1, -, h3, -⟩ := Cfg.addRule_spec g.wrapSyms (g.wrapRule r) n (by omega) e
    have := h3 (by simp [Cfg.wrapRule]; omega)
    subst this
    refine ⟨_, by rw [Cfg.wrapOne_eq, h1]; rfl, ?_⟩
    exact ⟨rfl, rfl, rfl, e, by simp [Cfg.wrapRecord]⟩

/-- **C21** (what holds): without a limit, or with a limit of at least 3, `is_empty` after
wrapping tells whether the grammar had no rules before wrapping. Missing: limit 2, and rules
given to a wrapped root afterwards (see the two theorems above). -/
theorem C21_is_empty_partial (g : Cfg) (hwf : g.WF)
    (hl : ∀ n, g.rhsLenInvariant = some n → 3 ≤ n) :
    ∃ g', g.wrapInput = .ok g' ∧ (g'.isEmpty = true ↔ g.rules = []) := by
  have key : ∀ (rs : List Sym) (g₁ : Cfg), g.numSyms ≤ g₁.numSyms →
      (∀ n, g₁.rhsLenInvariant = some n → 3 ≤ n) → (∀ r ∈ g₁.roots, g.numSyms ≤ r) →
      ∃ g' extra, rs.foldlM Cfg.wrapOne g₁ = .ok g' ∧ g'.rules = g₁.rules ++ extra ∧
        (∀ r ∈ extra, r.lhs ∈ g'.roots) ∧ (∀ r ∈ g'.roots, g.numSyms ≤ r) ∧
        (∀ r ∈ g₁.roots, r ∈ g'.roots) ∧ (rs ≠ [] → g'.wrappedRoots ≠ []) ∧
        (rs = [] → g' = g₁) := by
    intro rs
    induction rs with
    | nil =>
      intro g₁ _ _ h
      exact ⟨g₁, [], rfl, by simp, by simp, h, fun _ h => h, by simp, fun _ => rfl⟩
    | cons r rs ih =>
      intro g₁ h1 h2 h3
      obtain ⟨g₂, e1, e2, e3, e4, e5, e6⟩ := wrapOne_rules g₁ h2 r
      obtain ⟨g', extra, a1, a2, a3, a4, a5, a6, a7⟩ := ih g₂ (by omega) (by rw [e5]; exact h2)
        (by rw [e3]; intro r hr
            rcases List.mem_append.1 hr with hr | hr
            · exact h3 r hr
            · simp at hr; omega)
      refine ⟨g', g₁.wrapRule r :: extra, by rw [List.foldlM_cons, e1]; exact a1,
        by rw [a2, e2]; simp, ?_, a4, fun r hr => a5 r (by rw [e3]; simp [hr]), fun _ => ?_,
        by simp⟩
      · intro r' hr'
        rcases List.mem_cons.1 hr' with rfl | hr'
        · exact a5 _ (by rw [e3]; simp [Cfg.wrapRule])
        · exact a3 r' hr'
      · by_cases hrs : rs = []
        · rw [a7 hrs]; exact e6
        · exact a6 hrs
  obtain ⟨g', extra, a1, a2, a3, a4, -, a6, a7⟩ := key g.roots
    { g with wrappedRoots := [], roots := [] } (Nat.le_refl _) hl (by simp)
  refine ⟨g', a1, ?_⟩
  by_cases hr : g.roots = []
  · rw [a7 hr]
    simp [Cfg.isEmpty]
  · have hw := a6 hr
    unfold Cfg.isEmpty
    rw [if_neg (by simpa using hw)]
    simp only [List.all_eq_true, List.contains_iff_mem, a2, List.mem_append]
    constructor
    · intro h
      by_contra hne
      obtain ⟨r, hr⟩ := List.exists_mem_of_ne_nil _ hne
      have h1 := a4 _ (h r (.inl hr))
      have h2 := (hwf r hr).1
      omega
    · rintro h r (hr | hr)
      · rw [h] at hr; simp at hr
      · exact a3 r hr

example : exBasic.WF ∧ Cfg.isEmpty <$> exBasic.wrapInput = .ok false ∧
    Cfg.isEmpty <$> exBasic.clearRules.wrapInput = .ok true := by decide +kernel

/-! ## C22 -/

/-- **C22**: `column(c)` has one entry per rule in rule order; its pre-dot symbol is the one just
before position `c` and its post-dot symbol the one at position `c`, where they exist. The
hypotheses on sizes hold on every 64-bit machine. -/
theorem C22_column (g : Cfg) (c : Nat) (hc : c < 2 ^ 64)
    (hlen : ∀ r ∈ g.rules, r.rhs.length < 2 ^ 64 - 1) :
    (g.column c).length = g.rules.length ∧
    ∀ (i : Nat) r, g.rules[i]? = some r → ∃ d, (g.column c)[i]? = some d ∧ d.lhs = r.lhs ∧
      (∀ s, d.postdot = some s ↔ ∃ pre post, r.rhs = pre ++ s :: post ∧ pre.length = c) ∧
      (∀ s, d.predot = some s ↔ ∃ pre post, r.rhs = pre ++ s :: post ∧ pre.length + 1 = c) ∧
      (c ≤ 2 → d.earley = some (r.history.dot c)) := by
  have at_iff : ∀ (l : List Sym) (n : Nat) s, l[n]? = some s ↔
      ∃ pre post, l = pre ++ s :: post ∧ pre.length = n := by
    intro l n s
    constructor
    · intro h
      obtain ⟨hn, rfl⟩ := List.getElem?_eq_some_iff.1 h
      exact ⟨l.take n, l.drop (n + 1), by rw [List.getElem_cons_drop, List.take_append_drop],
        by simp; omega⟩
    · rintro ⟨pre, post, rfl, rfl⟩; simp
  refine ⟨by simp [Cfg.column], fun i r hr => ?_⟩
  refine ⟨_, by rw [Cfg.column, List.getElem?_map, hr]; rfl, rfl, fun s => at_iff _ _ _, fun s => ?_,
    fun _ => rfl⟩
  show r.rhs[Cfg.wrappingPred c]? = some s ↔ _
  have hl := hlen r (List.mem_of_getElem? hr)
  cases c with
  | zero =>
    have : Cfg.wrappingPred 0 = 2 ^ 64 - 1 := rfl
    rw [this, List.getElem?_eq_none (by omega)]
    simp
  | succ c =>
    have : Cfg.wrappingPred (c + 1) = c := by unfold Cfg.wrappingPred; omega
    rw [this, at_iff]
    simp

example : (exBasic.column 2).map (fun d => (d.lhs, d.predot, d.postdot)) =
    [(1, some 4, none), (0, some 1, some 4), (1, some 4, none), (0, none, none)] := by
  decide +kernel

end Verif
