import Verif.Proofs.Remap

/-! # Properties C55, C56, C84, C85: symbol renumbering -/

namespace Verif

/-! ## C84, C55 -/

/-- **C84.** `reorder_symbols` on a grammar within its length limit: one bijection `σ` renames
rules, roots, wrapped roots and names; `σ` follows the comparison, with ties in the old order; each
renamed symbol derives exactly the renamed strings; the mapping's two directions stay inverse to
each other and are composed with `σ`. -/
theorem C84_reorder_symbols (r : Remap) {f : Sym → Sym → Ordering} (hf : TotalCmp f)
    (hwf : r.g.WF) (hroots : r.g.RootsIn (· < r.g.numSyms)) (hlim : r.g.Limited)
    (hnames : r.g.src.names.length ≤ r.g.numSyms) (hm : r.mapping.Consistent)
    (hsize : r.g.numSyms ≤ r.mapping.toExternal.length) :
    ∃ r' σ, r.reorderSymbols f = .ok r' ∧ r'.g.numSyms = r.g.numSyms ∧
      Cfg.Renaming (· < r.g.numSyms) σ r.g r'.g ∧
      Cfg.SameLang (· < r.g.numSyms) σ r.g r'.g ∧
      (∀ a b, a < r.g.numSyms → b < r.g.numSyms →
        (σ a < σ b ↔ f a b = .lt ∨ (f a b = .eq ∧ a < b))) ∧
      r'.g.WF ∧ r'.g.RootsIn (· < r'.g.numSyms) ∧ r'.g.src.names.length ≤ r'.g.numSyms ∧
      r'.mapping.Consistent ∧ r'.mapping.toExternal.length = r.g.numSyms ∧
      (∀ e i : Nat, r'.mapping.toInternal[e]? = some (some i) ↔
        ∃ k < r.g.numSyms, r.mapping.toInternal[e]? = some (some k) ∧ i = σ k) := by
  obtain ⟨r', σ, h1, h2, h3, h4, h5, h6, h7, h8⟩ :=
    r.reorderSymbols_spec hf hwf hroots hlim hnames hm hsize
  refine ⟨r', σ, h1, h2, h3, h3.lang hwf (fun _ h => h), h5, h3.wf hwf, ?_, by omega, h6, h7, h8⟩
  constructor
  · rw [h3.roots]
    intro x hx
    obtain ⟨a, ha, rfl⟩ := List.mem_map.1 hx
    exact (h3.onto _).2 ⟨a, hroots.1 a ha, rfl⟩
  · rw [h3.wrappedRoots]
    intro x hx
    obtain ⟨w, hw, rfl⟩ := List.mem_map.1 hx
    obtain ⟨w1, w2, w3, w4⟩ := hroots.2 w hw
    exact ⟨(h3.onto _).2 ⟨_, w1, rfl⟩, (h3.onto _).2 ⟨_, w2, rfl⟩, (h3.onto _).2 ⟨_, w3, rfl⟩,
      (h3.onto _).2 ⟨_, w4, rfl⟩⟩

/-- The mapping of a new `Remap` meets the hypotheses of `C84_reorder_symbols`. -/
theorem C84_new_mapping (g : Cfg) :
    (Remap.new g).g = g ∧ (Remap.new g).mapping.Consistent ∧
      (Remap.new g).mapping.toExternal.length = g.numSyms ∧
      ∀ a, a < g.numSyms → (Remap.new g).mapping.toInternal[a]? = some (some a) := by
  refine ⟨rfl, ?_, by simp [Remap.new], ?_⟩
  · intro e i
    simp only [Remap.new, List.getElem?_map]
    by_cases he : e < g.numSyms <;> by_cases hi : i < g.numSyms <;>
      simp [he, hi, eq_comm] <;> omega
  · intro a ha
    simp [Remap.new, ha]

/-- A grammar with a wrapped root, names and a limit, for which the hypotheses are met. -/
def remapSample : Cfg :=
  { src := ⟨5, [some "a", none, some "c", some "d", none]⟩
    rules := [⟨3, [0, 1], {}⟩, ⟨0, [0], {}⟩, ⟨1, [], {}⟩]
    roots := [3], wrappedRoots := [⟨0, 1, 4, 3⟩], rhsLenInvariant := some 2 }

example : remapSample.WF ∧ remapSample.RootsIn (· < remapSample.numSyms) ∧
    remapSample.src.names.length ≤ remapSample.numSyms := by decide +kernel

example : remapSample.Limited := by
  intro n hn
  cases hn
  decide +kernel

example : TotalCmp (fun a b => compare (a % 2) (b % 2)) := by
  constructor
  · intro a b; exact Nat.compare_swap _ _ |>.symm
  · intro a b c
    simp only [ne_eq, Nat.compare_eq_gt]
    omega

example : Remap.g <$> (Remap.new remapSample).reorderSymbols (fun a b => compare (a % 2) (b % 2)) =
    .ok { src := ⟨5, [some "a", some "c", none, none, some "d"]⟩
          rules := [⟨0, [0], {}⟩, ⟨4, [0, 3], {}⟩, ⟨3, [], {}⟩]
          roots := [4], wrappedRoots := [⟨0, 3, 2, 4⟩], rhsLenInvariant := some 2 } := by
  decide +kernel

/-- **C55, the part that holds**: the grammar is within its length limit. Not covered: grammars
with longer rules, which `extend` can make (`C55_violated_limit`). -/
theorem C55_reorder_symbols_partial (g : Cfg) {f : Sym → Sym → Ordering} (hf : TotalCmp f)
    (hwf : g.WF) (hroots : g.RootsIn (· < g.numSyms)) (hlim : g.Limited)
    (hnames : g.src.names.length ≤ g.numSyms) :
    ∃ r' σ, (Remap.new g).reorderSymbols f = .ok r' ∧
      Cfg.Renaming (· < g.numSyms) σ g r'.g ∧ Cfg.SameLang (· < g.numSyms) σ g r'.g ∧
      (∀ a b, a < g.numSyms → b < g.numSyms →
        (σ a < σ b ↔ f a b = .lt ∨ (f a b = .eq ∧ a < b))) ∧
      (∀ e i : Nat, r'.mapping.toInternal[e]? = some (some i) ↔
        r'.mapping.toExternal[i]? = some e) ∧
      ∀ a, a < g.numSyms → r'.mapping.toInternal[a]? = some (some (σ a)) := by
  obtain ⟨n1, n2, n3, n4⟩ := C84_new_mapping g
  obtain ⟨r', σ, h1, h2, h3, h4, h5, h6, h7, h8, h9, h10, h11⟩ :=
    C84_reorder_symbols (Remap.new g) hf hwf hroots hlim hnames n2 (by rw [n3]; exact Nat.le_refl _)
  exact ⟨r', σ, h1, h3, h4, h5, h9, fun a ha => (h11 a (σ a)).2 ⟨a, ha, n4 a ha, rfl⟩⟩

/-- **C55 fails** for a grammar with a length limit that was extended with a longer rule: adding
the renamed rule splits it and makes a fresh symbol, for which the renumbering has no entry, so
`reorder_symbols` panics. -/
theorem C55_violated_limit :
    ∃ g other : Cfg, g.Limited ∧ (g.extend other).WF ∧
      (g.extend other).RootsIn (· < g.numSyms) ∧
      (g.extend other).src.names.length = (g.extend other).numSyms ∧
      TotalCmp (fun a b => compare b a) ∧
      (Remap.new (g.extend other)).reorderSymbols (fun a b => compare b a) = .panic := by
  refine ⟨{ src := ⟨2, [none, none]⟩, roots := [0], rhsLenInvariant := some 2 },
    { src := ⟨2, [none, none]⟩, rules := [⟨0, [1, 1, 1], {}⟩] }, ?_, by decide +kernel,
    by decide +kernel, rfl, ?_, by decide +kernel⟩
  · intro n hn
    cases hn
    decide +kernel
  · constructor
    · intro a b; exact Nat.compare_swap _ _ |>.symm
    · intro a b c
      simp only [ne_eq, Nat.compare_eq_gt]
      omega

/-! ## C85, C56 -/

/-- **C85.** `remove_unused_symbols` on a grammar with a rule, within its length limit: exactly the
used symbols are left, numbered from 0 in their old order, with their names; the rules are the
renamed rules, and each used symbol derives the renamed strings; the mapping sends each used symbol
to its new number and back. If the roots are used, they are symbols of the result. -/
theorem C85_remove_unused_symbols (g : Cfg) (hwf : g.WF) (hroots : g.RootsIn (· < g.numSyms))
    (hlim : g.Limited) (hnames : g.src.names.length ≤ g.numSyms) (hne : g.rules ≠ []) :
    ∃ r' σ, (Remap.new g).removeUnusedSymbols = .ok r' ∧
      r'.g.numSyms = ((List.range g.numSyms).filter (fun a => decide (g.Used a))).length ∧
      Cfg.Renaming g.Used σ g r'.g ∧ Cfg.SameLang g.Used σ g r'.g ∧
      (∀ a b, g.Used a → g.Used b → (σ a < σ b ↔ a < b)) ∧
      r'.g.WF ∧ (∀ x, x < r'.g.numSyms → r'.g.Used x) ∧
      r'.g.src.names.length ≤ r'.g.numSyms ∧
      (g.RootsIn g.Used → r'.g.RootsIn (· < r'.g.numSyms)) ∧
      (∀ a, g.Used a → r'.mapping.toInternal[a]? = some (some (σ a)) ∧
        r'.mapping.toExternal[σ a]? = some a) := by
  obtain ⟨b, b1, b2, b3⟩ := BitSet.unused_spec hwf
  obtain ⟨n1, n2, n3, n4⟩ := C84_new_mapping g
  obtain ⟨r', σ, h1, h2, h3, h4, h5, h6, h7, h8⟩ := (Remap.new g).reorderSymbols_spec
    (cmpUnused_total b) hwf hroots hlim hnames n2 (by rw [n3]; exact Nat.le_refl _)
  change r'.g.numSyms = g.numSyms at h2
  change Cfg.Renaming (· < g.numSyms) σ g r'.g at h3
  change r'.g.src.names.length ≤ g.numSyms at h4
  set n := g.numSyms with hn
  have hU : ∀ a, g.Used a → a < n := by
    rintro a ⟨q, hq, rfl | ha⟩
    · exact (hwf q hq).1
    · exact (hwf q hq).2 a ha
  have hget : ∀ a, a < n → b.getD a false = !decide (g.Used a) := by
    intro a ha
    have := b3 a
    unfold Has at this
    rw [List.getD_eq_getElem?_getD, List.getElem?_eq_getElem (by omega)] at *
    simp only [Option.getD_some, Option.some.injEq] at this ⊢
    by_cases hu : g.Used a
    · simpa [hu] using this
    · simp [hu, this, ha]
  have hord : ∀ x y, x < n → y < n → g.Used x → ¬ g.Used y → σ x < σ y := by
    intro x y hx hy h1 h2
    refine (h5 x y hx hy).2 (.inl ?_)
    unfold cmpUnused
    rw [hget x hx, hget y hy]
    simp [h1, h2]
    rfl
  have hmono : ∀ x y, g.Used x → g.Used y → (σ x < σ y ↔ x < y) := by
    intro x y h1 h2
    rw [h5 x y (hU x h1) (hU y h2)]
    unfold cmpUnused
    rw [hget x (hU x h1), hget y (hU y h2)]
    simp [h1, h2]
  have honto : ∀ x, x < n ↔ ∃ a, a < n ∧ σ a = x := fun x => h2 ▸ h3.onto x
  have hfirst := used_first (U := g.Used) honto h3.inj hord
  have hk := iter_length_unused (b := b) (n := n) (U := g.Used) b3
  set k := ((List.range n).filter (fun a => decide (g.Used a))).length with hkdef
  have hkpos : k ≠ 0 := by
    obtain ⟨q, hq⟩ := List.exists_mem_of_ne_nil _ hne
    have hu : g.Used q.lhs := ⟨q, hq, .inl rfl⟩
    have : q.lhs ∈ (List.range n).filter (fun a => decide (g.Used a)) := by
      simp [hu, hU _ hu]
    intro h0
    rw [hkdef, List.length_eq_zero_iff] at h0
    rw [h0] at this
    simp at this
  have hkn : k ≤ n := by
    have := List.length_filter_le (fun a => decide (g.Used a)) (List.range n)
    simpa using this
  have hrun : (Remap.new g).removeUnusedSymbols =
      .ok { r' with g := { r'.g with src := ⟨k, r'.g.src.names.take k⟩ } } := by
    unfold Remap.removeUnusedSymbols
    have e : (Remap.new g).g.unusedSymbols = .ok b := b1
    rw [e, Res.bind_ok, h1]
    simp only [Res.bind_ok, h2, hk, SymbolSource.truncate, if_neg hkpos]
  have hren : Cfg.Renaming g.Used σ g { r'.g with src := ⟨k, r'.g.src.names.take k⟩ } := by
    refine ⟨fun x => ?_, fun x y h1 h2 => h3.inj x y (hU x h1) (hU y h2), h3.rules, h3.roots,
      h3.wrappedRoots, h3.limit, fun a ha => ?_⟩
    · show x < k ↔ _
      constructor
      · intro hx
        obtain ⟨a, ha, rfl⟩ := (honto x).1 (by omega)
        exact ⟨a, (hfirst a ha).1 hx, rfl⟩
      · rintro ⟨a, ha, rfl⟩
        exact (hfirst a (hU a ha)).2 ha
    · rw [← h3.names a (hU a ha)]
      unfold SymbolSource.originalNameOf
      show (match (r'.g.src.names.take k)[σ a]? with | some v => v | none => none) = _
      rw [List.getElem?_take_of_lt ((hfirst a (hU a ha)).2 ha)]
      rfl
  have hrules : ∀ q ∈ g.rules, g.Used q.lhs ∧ ∀ a ∈ q.rhs, g.Used a :=
    fun q hq => ⟨⟨q, hq, .inl rfl⟩, fun a ha => ⟨q, hq, .inr ha⟩⟩
  refine ⟨_, σ, hrun, rfl, hren, hren.lang hrules hU, hmono, hren.wf hrules, ?_, ?_, ?_, ?_⟩
  · intro x hx
    obtain ⟨a, ⟨q, hq, ha⟩, rfl⟩ := (hren.onto x).1 hx
    refine ⟨q.rename σ, hren.rules.mem_iff.2 (List.mem_map_of_mem hq), ?_⟩
    rcases ha with rfl | ha
    · exact .inl rfl
    · exact .inr (List.mem_map_of_mem ha)
  · show (r'.g.src.names.take k).length ≤ k
    simp only [List.length_take]
    omega
  · rintro ⟨u1, u2⟩
    constructor
    · rw [hren.roots]
      intro x hx
      obtain ⟨a, ha, rfl⟩ := List.mem_map.1 hx
      exact (hren.onto _).2 ⟨a, u1 a ha, rfl⟩
    · rw [hren.wrappedRoots]
      intro x hx
      obtain ⟨w, hw, rfl⟩ := List.mem_map.1 hx
      obtain ⟨w1, w2, w3, w4⟩ := u2 w hw
      exact ⟨(hren.onto _).2 ⟨_, w1, rfl⟩, (hren.onto _).2 ⟨_, w2, rfl⟩,
        (hren.onto _).2 ⟨_, w3, rfl⟩, (hren.onto _).2 ⟨_, w4, rfl⟩⟩
  · intro a ha
    have : r'.mapping.toInternal[a]? = some (some (σ a)) :=
      (h8 a (σ a)).2 ⟨a, hU a ha, n4 a (hU a ha), rfl⟩
    exact ⟨this, (h6 a (σ a)).1 this⟩

/-- A grammar with a used root and two unused symbols. -/
def removeSample : Cfg :=
  { src := ⟨5, [some "a", none, some "c", some "d", none]⟩
    rules := [⟨3, [1, 1], {}⟩, ⟨3, [4], {}⟩], roots := [3] }

example : removeSample.WF ∧ removeSample.RootsIn (· < removeSample.numSyms) ∧
    removeSample.RootsIn removeSample.Used ∧
    removeSample.src.names.length ≤ removeSample.numSyms ∧ removeSample.rules ≠ [] := by
  decide +kernel

example : removeSample.Limited := fun _ h => by cases h

example : Remap.g <$> (Remap.new removeSample).removeUnusedSymbols =
    .ok { src := ⟨3, [none, some "d", none]⟩
          rules := [⟨1, [0, 0], {}⟩, ⟨1, [2], {}⟩], roots := [1] } := by
  decide +kernel

/-- **C56, the part that holds**: there is a rule, the roots are used, and the grammar is within
its length limit. Not covered: no rules (`C56_violated_no_rules`), unused roots
(`C56_violated_root`). -/
theorem C56_remove_unused_partial (g : Cfg) (hwf : g.WF) (hroots : g.RootsIn g.Used)
    (hlim : g.Limited) (hnames : g.src.names.length ≤ g.numSyms) (hne : g.rules ≠ []) :
    ∃ r' σ, (Remap.new g).removeUnusedSymbols = .ok r' ∧
      (∀ x, x < r'.g.numSyms ↔ ∃ a, g.Used a ∧ σ a = x) ∧
      (∀ a b, g.Used a → g.Used b → (σ a < σ b ↔ a < b)) ∧
      Cfg.SameLang g.Used σ g r'.g ∧
      r'.g.roots = g.roots.map σ ∧ r'.g.WF ∧ r'.g.RootsIn (· < r'.g.numSyms) := by
  have hU : ∀ a, g.Used a → a < g.numSyms := by
    rintro a ⟨q, hq, rfl | ha⟩
    · exact (hwf q hq).1
    · exact (hwf q hq).2 a ha
  obtain ⟨r', σ, h1, h2, h3, h4, h5, h6, h7, h8, h9, h10⟩ := C85_remove_unused_symbols g hwf
    ⟨fun a ha => hU a (hroots.1 a ha), fun w hw => by
      obtain ⟨w1, w2, w3, w4⟩ := hroots.2 w hw
      exact ⟨hU _ w1, hU _ w2, hU _ w3, hU _ w4⟩⟩ hlim hnames hne
  exact ⟨r', σ, h1, h3.onto, h5, h4, h3.roots, h6, h9 hroots⟩

/-- **C56 fails without rules**: the call panics for every grammar without rules whose names
and roots are in order. -/
theorem C56_violated_no_rules (g : Cfg) (hroots : g.RootsIn (· < g.numSyms))
    (hlim : ∀ n, g.rhsLenInvariant = some n → 2 ≤ n)
    (hnames : g.src.names.length ≤ g.numSyms) (hne : g.rules = []) :
    (Remap.new g).removeUnusedSymbols = .panic := by
  have hwf : g.WF := by intro r hr; rw [hne] at hr; simp at hr
  obtain ⟨b, b1, b2, b3⟩ := BitSet.unused_spec hwf
  obtain ⟨n1, n2, n3, n4⟩ := C84_new_mapping g
  obtain ⟨r', σ, h1, h2, -⟩ := (Remap.new g).reorderSymbols_spec
    (cmpUnused_total b) hwf hroots
    (fun n hn => ⟨hlim n hn, by intro r hr; simp [Remap.new, hne] at hr⟩) hnames n2
    (by rw [n3]; exact Nat.le_refl _)
  have hk := iter_length_unused (b := b) (n := g.numSyms) (U := g.Used) b3
  have h0 : (List.range g.numSyms).filter (fun a => decide (g.Used a)) = [] := by
    simp [Cfg.Used, hne]
  rw [h0, List.length_nil] at hk
  change r'.g.numSyms = g.numSyms at h2
  unfold Remap.removeUnusedSymbols
  have e : (Remap.new g).g.unusedSymbols = .ok b := b1
  rw [e, Res.bind_ok, h1]
  simp only [Res.bind_ok, h2, hk, SymbolSource.truncate, if_true]
  rfl

example : (Remap.new { src := ⟨1, [some "start"]⟩, roots := [0] }).removeUnusedSymbols = .panic :=
  C56_violated_no_rules _ (by decide +kernel) (fun _ h => by cases h) (by decide) rfl

/-- **C56 fails for an unused root**: the root becomes a number beyond the grammar's symbols. -/
theorem C56_violated_root :
    ∃ (g : Cfg) (r' : Remap), g.WF ∧ g.RootsIn (· < g.numSyms) ∧ g.rules ≠ [] ∧
      (Remap.new g).removeUnusedSymbols = .ok r' ∧ ∃ x ∈ r'.g.roots, r'.g.numSyms ≤ x := by
  refine ⟨{ src := ⟨3, [none, none, none]⟩, rules := [⟨1, [2], {}⟩], roots := [0] },
    ⟨{ src := ⟨2, [none, none]⟩, rules := [⟨0, [1], {}⟩], roots := [2] },
      ⟨[some 2, some 0, some 1], [1, 2, 0]⟩⟩, by decide +kernel, by decide +kernel,
    by simp, by decide +kernel, 2, by simp, by decide⟩

end Verif
