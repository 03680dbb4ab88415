import Verif.Proofs.Useful

/-! # Properties C28 – C33: derivation matrices and usefulness -/

namespace Verif

open BitMatrix

/-- `S ::= A b | U A`, `A ::= a | ε`, `U ::= U A`, `N ::= b`; symbols `S A U N a b z = 0 .. 6`,
root `S`. The symbol `z` is unused. -/
def exUseful : Cfg :=
  { src := ⟨7, [none, none, none, none, none, none, none]⟩
    rules := [⟨0, [1, 5], {}⟩, ⟨0, [2, 1], {}⟩, ⟨1, [4], {}⟩, ⟨1, [], {}⟩, ⟨2, [2, 1], {}⟩,
      ⟨3, [5], {}⟩]
    roots := [0] }

theorem exUseful_wf : exUseful.WF := by decide +kernel

/-- **C28.** The usefulness analysis of a well-formed grammar marks a symbol productive exactly
when it derives some string of terminals. -/
theorem C28_productivity {g : Cfg} (hwf : g.WF) :
    ∃ u, Usefulness.new g = .ok u ∧
      ∀ s, s < g.numSyms → ∃ b, BitSet.get u.productivity s = .ok b ∧
        (b = true ↔ Productive g.prod g.Term s) := by
  obtain ⟨u, h, hi⟩ := usefulness_new_spec hwf
  refine ⟨u, h, fun s hs => ⟨_, get_has (by rw [hi.lenP]; exact hs), ?_⟩⟩
  rw [decide_eq_true_iff, hi.prod]

example : (fun u : Usefulness => u.productivity) <$> Usefulness.new exUseful =
    .ok [true, true, false, true, true, true, true] := by decide +kernel

/-- **C29.** After `reachable` was called, any number of times, a symbol that occurs in a rule
is marked reachable exactly when it occurs in some string derivable from one of the given
symbols. -/
theorem C29_reachable {g : Cfg} (hwf : g.WF) (calls : List (List Sym))
    (hr : ∀ roots ∈ calls, ∀ s ∈ roots, s < g.numSyms) :
    ∃ u, (do calls.foldlM Usefulness.reachable (← Usefulness.new g)) = .ok u ∧
      ∀ s, g.Used s → ∃ b, BitSet.get u.reachableSyms s = .ok b ∧
        (b = true ↔ ∃ roots ∈ calls, ∃ root ∈ roots, Reaches g.prod root s) := by
  obtain ⟨u₀, h, hi⟩ := usefulness_new_spec hwf
  have key : ∀ (calls : List (List Sym)) (roots : List Sym) (u₀ : Usefulness),
      (∀ roots ∈ calls, ∀ s ∈ roots, s < g.numSyms) → UsefulInfo g roots u₀ →
      ∃ u, calls.foldlM Usefulness.reachable u₀ = .ok u ∧
        UsefulInfo g (roots ++ calls.flatten) u := by
    intro calls
    induction calls with
    | nil => intro roots u₀ _ hi; exact ⟨u₀, rfl, by simpa using hi⟩
    | cons c calls ih =>
      intro roots u₀ hr hi
      obtain ⟨b, h1, h2⟩ := hi.fold hwf c roots (hr c (by simp))
      obtain ⟨u, h3, h4⟩ := ih _ _ (fun roots h => hr roots (by simp [h])) h2
      refine ⟨u, ?_, by simpa using h4⟩
      rw [List.foldlM_cons]
      have : u₀.reachable c = .ok { u₀ with reachableSyms := b } := by
        rw [Usefulness.reachable, h1]; rfl
      rw [this]
      exact h3
  obtain ⟨u, h1, h2⟩ := key calls [] u₀ hr hi
  refine ⟨u, by rw [h]; exact h1, fun s hs => ?_⟩
  have hlt : s < g.numSyms := by
    obtain ⟨r, hr, rfl | h⟩ := hs
    · exact (hwf r hr).1
    · exact (hwf r hr).2 s h
  refine ⟨_, get_has (by rw [h2.lenR]; exact hlt), ?_⟩
  rw [decide_eq_true_iff, h2.reachable]
  simp only [hs, not_true, and_false, or_false, ReachableFrom, List.nil_append, List.mem_flatten]
  constructor
  · rintro ⟨root, ⟨l, hl, h⟩, hR⟩; exact ⟨l, hl, root, h, hR⟩
  · rintro ⟨l, hl, root, h, hR⟩; exact ⟨root, ⟨l, hl, h⟩, hR⟩

example : (fun u : Usefulness => u.reachableSyms) <$>
    (do [[1], [2]].foldlM Usefulness.reachable (← Usefulness.new exUseful)) =
    .ok [false, true, true, false, true, false, true] := by decide +kernel

/-- **C30.** `all_useful` holds exactly when no rule is reported as useless; and the rules
reported are exactly the ones that are not reachable or not productive. -/
theorem C30_all_useful {g : Cfg} (hwf : g.WF) (roots : List Sym)
    (hr : ∀ s ∈ roots, s < g.numSyms) :
    ∃ u l, g.usefulnessWithRoots roots = .ok u ∧ u.uselessRules g.rules = .ok l ∧
      (u.allUseful = true ↔ l = []) ∧
      ∀ r, r ∈ l ↔ r ∈ g.rules ∧ ¬ UsefulRule g.prod g.Term roots r.lhs r.rhs := by
  obtain ⟨u, h, hi⟩ := usefulness_spec hwf roots hr
  obtain ⟨l, h1, h2⟩ := hi.uselessRules hwf g.rules fun _ h => h
  refine ⟨u, l, h, h1, ?_, h2⟩
  rw [hi.allUseful hwf, List.eq_nil_iff_forall_not_mem]
  constructor
  · intro hU r hr
    exact ((h2 r).1 hr).2 (hU r ((h2 r).1 hr).1)
  · intro hn r hr
    by_contra hh
    exact hn r ((h2 r).2 ⟨hr, hh⟩)

example : (do (← exUseful.usefulnessWithRoots [0]).uselessRules exUseful.rules) =
    .ok [⟨0, [2, 1], {}⟩, ⟨2, [2, 1], {}⟩, ⟨3, [5], {}⟩] := by decide +kernel
example : (do (← exUseful.usefulnessWithRoots [0, 3]).uselessRules exUseful.rules) =
    .ok [⟨0, [2, 1], {}⟩, ⟨2, [2, 1], {}⟩] := by decide +kernel

/-- **C31.** `remove_useless_rules` returns; every root (in fact every symbol reachable from a
root) derives the same strings of terminals of the original grammar as before. If the root is
productive, then also the terminals of the new grammar give the same language. (A root that
derives no terminal string loses all its rules and so becomes a terminal itself.) -/
theorem C31_language {g : Cfg} (hwf : g.WF) (roots : List Sym)
    (hr : ∀ s ∈ roots, s < g.numSyms) :
    ∃ u g', g.usefulnessWithRoots roots = .ok u ∧ u.removeUselessRules g = .ok g' ∧
      (∀ root ∈ roots, ∀ w, InLang g'.prod g.Term root w ↔ InLang g.prod g.Term root w) ∧
      ∀ root ∈ roots, Productive g.prod g.Term root → ∀ w, g'.Lang root w ↔ g.Lang root w := by
  classical
  obtain ⟨u, h, hi⟩ := usefulness_spec hwf roots hr
  refine ⟨u, _, h, hi.remove hwf, fun root hroot w => ?_, fun root hroot hp w => ?_⟩
  · rw [(cleaned_filter g roots).inLang]
    exact inLang_useful ⟨root, hroot, .refl _⟩
  · exact (cleaned_filter g roots).lang ⟨root, hroot, .refl _⟩ hp w

/-- **C31.** The same for `make_proper`. -/
theorem C31_make_proper {g : Cfg} (hwf : g.WF) (hr : ∀ s ∈ g.roots, s < g.numSyms) :
    ∃ g' b, g.makeProper = .ok (g', b) ∧ g'.roots = g.roots ∧
      (∀ root ∈ g.roots, ∀ w, InLang g'.prod g.Term root w ↔ InLang g.prod g.Term root w) ∧
      ∀ root ∈ g.roots, Productive g.prod g.Term root → ∀ w, g'.Lang root w ↔ g.Lang root w := by
  obtain ⟨g', b, h, hc, hroots, -⟩ := makeProper_spec hwf hr
  refine ⟨g', b, h, hroots, fun root hroot w => ?_, fun root hroot hp w => ?_⟩
  · rw [hc.inLang]
    exact inLang_useful ⟨root, hroot, .refl _⟩
  · exact hc.lang ⟨root, hroot, .refl _⟩ hp w

example : (fun p : Cfg × Bool => (p.1.rules, p.2)) <$> exUseful.makeProper =
    .ok ([⟨0, [1, 5], {}⟩, ⟨1, [4], {}⟩, ⟨1, [], {}⟩], false) := by decide +kernel
example : exUseful.Lang 0 [4, 5] :=
  ⟨(Derives.prod (by decide +kernel : exUseful.prod 0 [1, 5])).trans
    (.single ⟨1, [4], [], [5], by decide +kernel, rfl, rfl⟩), by decide +kernel⟩

/-- `S ::= U A | a`, `A ::= a`, `U ::= U`; symbols `S A U a = 0 .. 3`. -/
def exOnePass : Cfg :=
  { src := ⟨4, [none, none, none, none]⟩
    rules := [⟨0, [2, 1], {}⟩, ⟨0, [3], {}⟩, ⟨1, [3], {}⟩, ⟨2, [2], {}⟩]
    roots := [0] }

/-- **C32 is violated.** One pass does not suffice: the rule `A ::= a` of `exOnePass`, reachable
only through a removed rule, stays although it is no longer reachable. -/
theorem C32_violated_one_pass :
    exOnePass.WF ∧ ∃ g', exOnePass.makeProper = .ok (g', false) ∧
      ∃ r ∈ g'.rules, ¬ UsefulRule g'.prod g'.Term g'.roots r.lhs r.rhs := by
  refine ⟨by decide +kernel, { exOnePass with rules := [⟨0, [3], {}⟩, ⟨1, [3], {}⟩] },
    by decide +kernel, ⟨1, [3], {}⟩, by decide +kernel, ?_⟩
  rintro ⟨⟨root, h1, h2⟩, -⟩
  obtain rfl : root = 0 := by simpa [exOnePass] using h1
  rw [reaches_iff] at h2
  have key : ∀ b, Relation.ReflTransGen (fun a b => ∃ α,
      Cfg.prod { exOnePass with rules := [⟨0, [3], {}⟩, ⟨1, [3], {}⟩] } a α ∧ b ∈ α) 0 b →
      b = 0 ∨ b = 3 := by
    intro b hb
    induction hb with
    | refl => exact .inl rfl
    | tail _ h _ =>
      obtain ⟨α, ⟨r, hr, -, rfl⟩, hb⟩ := h
      rcases List.mem_cons.1 hr with rfl | hr
      · exact .inr (by simpa using hb)
      · obtain rfl := List.mem_singleton.1 hr
        exact .inr (by simpa using hb)
  rcases key 1 h2 with h | h <;> omega

/-- **C32, the report.** `make_proper` returns true exactly when it removes nothing, and exactly
when every rule was useful before. -/
theorem C32_report {g : Cfg} (hwf : g.WF) (hr : ∀ s ∈ g.roots, s < g.numSyms) :
    ∃ g' b, g.makeProper = .ok (g', b) ∧ (b = true ↔ g'.rules = g.rules) ∧
      (b = true ↔ ∀ r ∈ g.rules, UsefulRule g.prod g.Term g.roots r.lhs r.rhs) := by
  obtain ⟨g', b, h, hc, -, hb⟩ := makeProper_spec hwf hr
  refine ⟨g', b, h, ?_, hb⟩
  rw [hb]
  constructor
  · intro hU
    refine hc.sub.eq_of_length_le ?_
    by_contra hlt
    have hss := hc.sub
    have : g'.rules = g.rules := by
      have h2 : ∀ r ∈ g.rules, r ∈ g'.rules := fun r hr => (hc.rules r).2 ⟨hr, hU r hr⟩
      obtain ⟨u, hu, hi⟩ := usefulness_spec hwf g.roots hr
      have hu' : g.usefulness = .ok u := hu
      have e := (hi.allUseful hwf).2 hU
      rw [Cfg.makeProper, hu'] at h
      simp [e] at h
      rw [h.1]
    rw [this] at hlt
    exact hlt (Nat.le_refl _)
  · intro e r hr
    rw [← e] at hr
    exact ((hc.rules r).1 hr).2

/-- **C32, partial: productivity.** In the resulting grammar every symbol of every rule is
productive. -/
theorem C32_productive_partial {g : Cfg} (hwf : g.WF) (hr : ∀ s ∈ g.roots, s < g.numSyms) :
    ∃ g' b, g.makeProper = .ok (g', b) ∧
      ∀ r ∈ g'.rules, Productive g'.prod g'.Term r.lhs ∧
        ∀ s ∈ r.rhs, Productive g'.prod g'.Term s := by
  obtain ⟨g', b, h, hc, -⟩ := makeProper_spec hwf hr
  exact ⟨g', b, h, fun r hr => hc.productive hr⟩

/-- **C32, partial: grammars without unproductive symbols.** If every symbol on a right side is
productive, then one pass leaves only useful rules. -/
theorem C32_useful_partial {g : Cfg} (hwf : g.WF) (hr : ∀ s ∈ g.roots, s < g.numSyms)
    (hp : ∀ r ∈ g.rules, ∀ s ∈ r.rhs, Productive g.prod g.Term s) :
    ∃ g' b, g.makeProper = .ok (g', b) ∧
      ∀ r ∈ g'.rules, UsefulRule g'.prod g'.Term g'.roots r.lhs r.rhs := by
  obtain ⟨g', b, h, hc, hroots, -⟩ := makeProper_spec hwf hr
  exact ⟨g', b, h, fun r hr => by rw [hroots]; exact hc.useful hp hr⟩

/-- **C32, partial: two passes.** Two passes always suffice: afterwards every rule is useful,
and a third call reports true and changes nothing. -/
theorem C32_two_passes_partial {g : Cfg} (hwf : g.WF) (hr : ∀ s ∈ g.roots, s < g.numSyms) :
    ∃ g₁ b₁ g₂ b₂, g.makeProper = .ok (g₁, b₁) ∧ g₁.makeProper = .ok (g₂, b₂) ∧
      (∀ r ∈ g₂.rules, UsefulRule g₂.prod g₂.Term g₂.roots r.lhs r.rhs) ∧
      g₂.makeProper = .ok (g₂, true) := by
  obtain ⟨g₁, b₁, h1, hc1, hroots1, -⟩ := makeProper_spec hwf hr
  have hwf1 := hc1.wf hwf
  have hr1 : ∀ s ∈ g₁.roots, s < g₁.numSyms := by rw [hroots1, hc1.numSyms]; exact hr
  obtain ⟨g₂, b₂, h2, hc2, hroots2, -⟩ := makeProper_spec hwf1 hr1
  have hU : ∀ r ∈ g₂.rules, UsefulRule g₂.prod g₂.Term g₂.roots r.lhs r.rhs := by
    intro r hr
    rw [hroots2]
    exact hc2.useful (fun r hr => (hc1.productive hr).2) hr
  have hwf2 := hc2.wf hwf1
  have hr2 : ∀ s ∈ g₂.roots, s < g₂.numSyms := by rw [hroots2, hc2.numSyms]; exact hr1
  refine ⟨g₁, b₁, g₂, b₂, h1, h2, hU, ?_⟩
  obtain ⟨u, hu, hi⟩ := usefulness_spec hwf2 g₂.roots hr2
  have hu' : g₂.usefulness = .ok u := hu
  have e := (hi.allUseful hwf2).2 hU
  simp [Cfg.makeProper, hu', e]

example : (do let (g₁, _) ← exOnePass.makeProper; let (g₂, b) ← g₁.makeProper; .ok (g₂.rules, b)) =
    .ok ([⟨0, [3], {}⟩], false) := by decide +kernel

/-- **C33.** The reachability matrix holds at `(a, b)` exactly when `b` occurs in a string
derivable from `a` in one or more steps. -/
theorem C33_reachability {g : Cfg} (hwf : g.WF) :
    ∃ m, g.reachabilityMatrix = .ok m ∧ ∀ a b, a < g.numSyms → b < g.numSyms →
      ∃ x, m.get a b = .ok x ∧ (x = true ↔ ReachesPlus g.prod a b) := by
  obtain ⟨m, h1, h2, h3⟩ := Cfg.reachability_spec hwf
  refine ⟨m, h1, fun a b ha hb => ?_⟩
  obtain ⟨x, h4, h5⟩ := get_spec h2 ha hb
  exact ⟨x, h4, h5.trans (h3 a b)⟩

/-- **C33.** The direct derivation matrix holds at `(a, b)` exactly when some rule for `a` has
`b` on its right side. -/
theorem C33_direct {g : Cfg} (hwf : g.WF) :
    ∃ m, g.directDerivationMatrix = .ok m ∧ ∀ a b, a < g.numSyms → b < g.numSyms →
      ∃ x, m.get a b = .ok x ∧ (x = true ↔ ∃ α, g.prod a α ∧ b ∈ α) := by
  obtain ⟨m, h1, h2, h3⟩ := Cfg.directDerivation_spec hwf
  refine ⟨m, h1, fun a b ha hb => ?_⟩
  obtain ⟨x, h4, h5⟩ := get_spec h2 ha hb
  exact ⟨x, h4, h5.trans (h3 a b)⟩

/-- **C33.** The unit-derivation matrix holds at `(a, b)` exactly when a chain of one-symbol
rules between different symbols leads from `a` to `b`. -/
theorem C33_unit {g : Cfg} (hwf : g.WF) :
    ∃ m, g.unitDerivationMatrix = .ok m ∧ ∀ a b, a < g.numSyms → b < g.numSyms →
      ∃ x, m.get a b = .ok x ∧ (x = true ↔ UnitChain g.prod a b) := by
  obtain ⟨m, h1, h2, h3⟩ := Cfg.unitDerivation_spec hwf
  refine ⟨m, h1, fun a b ha hb => ?_⟩
  obtain ⟨x, h4, h5⟩ := get_spec h2 ha hb
  exact ⟨x, h4, h5.trans (h3 a b)⟩

/-- A unit chain is a derivation of the single symbol `b` from `a`. -/
theorem C33_unit_derives {P : Productions} {a b : Sym} (h : UnitChain P a b) :
    DerivesPlus P [a] [b] := by
  induction h with
  | single h => exact .single ⟨_, _, [], [], h.1, rfl, by simp⟩
  | tail _ h ih => exact ih.tail ⟨_, _, [], [], h.1, rfl, by simp⟩

example : exUseful.reachabilityMatrix.bind (fun m => m.get 0 4) = .ok true := by decide +kernel
example : exUseful.reachabilityMatrix.bind (fun m => m.get 1 5) = .ok false := by decide +kernel
example : exUseful.unitDerivationMatrix.bind (fun m => m.get 1 4) = .ok true := by decide +kernel
example : exOnePass.unitDerivationMatrix.bind (fun m => m.get 2 2) = .ok false := by
  decide +kernel

end Verif
