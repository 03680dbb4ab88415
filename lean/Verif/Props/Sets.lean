import Verif.Proofs.Closure

/-!
# Properties of symbol sets and property propagation (C07–C10, C23)
-/

namespace Verif

/-- A small grammar used in the examples: `0 ::= 1 2 | ε ; 1 ::= 0 ; 2 ::= 1 1 | 3`,
symbol 3 is a terminal and symbol 4 is unused. -/
def exSets : Cfg :=
  { src := ⟨5, [none, none, none, none, none]⟩
    rules := [⟨0, [1, 2], {}⟩, ⟨0, [], {}⟩, ⟨1, [0], {}⟩, ⟨2, [1, 1], {}⟩, ⟨2, [3], {}⟩] }

/-! ## C07 -/

/-- **C07**: `terminal_symbols` returns exactly the symbols that are no left side. -/
theorem C07_terminal (g : Cfg) (h : g.WF) :
    ∃ b, g.terminalSymbols = .ok b ∧ b.length = g.numSyms ∧
      ∀ s, Has b s ↔ s < g.numSyms ∧ ∀ r ∈ g.rules, r.lhs ≠ s :=
  BitSet.terminal_spec h

/-- **C07**: `nulling_symbols` returns exactly the symbols with an empty rule. -/
theorem C07_nulling (g : Cfg) (h : g.WF) :
    ∃ b, g.nullingSymbols = .ok b ∧ b.length = g.numSyms ∧
      ∀ s, Has b s ↔ ∃ r ∈ g.rules, r.lhs = s ∧ r.rhs = [] := by
  obtain ⟨b, h1, h2, h3⟩ := BitSet.nulling_spec h (BitSet.reset g.src)
    (BitSet.length_reset g.src)
  refine ⟨b, h1, h2, fun s => ?_⟩
  rw [h3]
  have : ¬ Has (BitSet.reset g.src) s := by
    unfold Has
    rw [BitSet.getElem?_reset]
    split <;> simp
  simp only [this, false_or]
  rfl

/-- **C07**: `SymbolBitSet::used` collects exactly the symbols occurring in a rule. -/
theorem C07_used (g : Cfg) (h : g.WF) :
    ∃ b, BitSet.used g = .ok b ∧ b.length = g.numSyms ∧
      ∀ s, Has b s ↔ ∃ r ∈ g.rules, r.lhs = s ∨ s ∈ r.rhs :=
  BitSet.used_spec h

/-- **C07**: `unused_symbols` returns exactly the symbols that occur in no rule. -/
theorem C07_unused (g : Cfg) (h : g.WF) :
    ∃ b, g.unusedSymbols = .ok b ∧ b.length = g.numSyms ∧
      ∀ s, Has b s ↔ s < g.numSyms ∧ ¬ ∃ r ∈ g.rules, r.lhs = s ∨ s ∈ r.rhs :=
  BitSet.unused_spec h

/-- **C07**: iterating yields each member once, in increasing order. -/
theorem C07_iter (b : BitSet) :
    (BitSet.iter b).Pairwise (· < ·) ∧ ∀ s, s ∈ BitSet.iter b ↔ Has b s :=
  ⟨BitSet.iter_sorted b, fun _ => BitSet.mem_iter⟩

/-- **C07**: union and negation are the set operations. -/
theorem C07_union_negate (a b : BitSet) (h : a.length = b.length) :
    (∃ c, BitSet.union a b = .ok c ∧ c.length = a.length ∧
      ∀ s, Has c s ↔ Has a s ∨ Has b s) ∧
    (BitSet.negate a).length = a.length ∧
    ∀ s, Has (BitSet.negate a) s ↔ s < a.length ∧ ¬ Has a s :=
  ⟨BitSet.union_spec h, by simp [BitSet.negate], fun _ => BitSet.has_negate⟩

/-- A union of sets of different sizes is refused. -/
theorem C07_union_panics (a b : BitSet) (h : a.length ≠ b.length) :
    BitSet.union a b = .panic := by
  simp [BitSet.union, h]

/-- **C07**: setting a symbol changes only that symbol; an unknown symbol is refused. -/
theorem C07_set (b : BitSet) (s : Sym) (v : Bool) :
    (s < b.length → ∃ b', BitSet.set b s v = .ok b' ∧ b'.length = b.length ∧
      (Has b' s ↔ v = true) ∧ ∀ t, t ≠ s → (Has b' t ↔ Has b t)) ∧
    (b.length ≤ s → BitSet.set b s v = .panic) := by
  constructor
  · intro h
    refine ⟨List.set b s v, BitSet.set_ok h v, by simp, ?_, ?_⟩
    · unfold Has; simp [h]
    · intro t ht
      unfold Has
      rw [List.getElem?_set_ne (fun e => ht e.symm)]
  · intro h
    simp [BitSet.set, Nat.not_lt.2 h]

/-- **C07**: `productive` and `subtract_productive` on a set that has room for the left sides of
the rules, from this grammar or another: the first adds exactly the left sides, the second takes
exactly them away. On a set without room they start with no symbols and with all symbols. -/
theorem C07_productive (b : BitSet) (g : Cfg) (h : ∀ r ∈ g.rules, r.lhs < b.length)
    (hb : b.length = 0 → g.numSyms = 0) :
    (∃ b', BitSet.productive b g = .ok b' ∧ b'.length = b.length ∧
      ∀ s, Has b' s ↔ Has b s ∨ ∃ r ∈ g.rules, r.lhs = s) ∧
    ∃ b', BitSet.subtractProductive b g = .ok b' ∧ b'.length = b.length ∧
      ∀ s, Has b' s ↔ Has b s ∧ ¬ ∃ r ∈ g.rules, r.lhs = s := by
  constructor
  · have e0 : (if b.length = 0 then BitSet.reset g.src else b) = b := by
      by_cases e : b.length = 0
      · rw [if_pos e]
        have := hb e
        unfold Cfg.numSyms at this
        rw [List.length_eq_zero_iff.1 e]
        simp [BitSet.reset, this]
      · rw [if_neg e]
    obtain ⟨b', h1, h2, h3⟩ := BitSet.fold_lhs_spec true g.rules b h
    refine ⟨b', by unfold BitSet.productive; rw [e0]; exact h1, h2, fun s => ?_⟩
    rw [Has, h3 s]
    by_cases e : ∃ r ∈ g.rules, r.lhs = s
    · rw [if_pos e]; simp [e]
    · rw [if_neg e]; simp [e, Has]
  · obtain ⟨b', h1, h2, h3⟩ := BitSet.subtractProductive_spec h hb
    refine ⟨b', h1, h2, fun s => ?_⟩
    rw [h3]
    push Not
    rfl

/-- **C07**: on a new set, `productive` finds the nonterminals and `subtract_productive` the
terminals. -/
theorem C07_productive_new (g : Cfg) (h : g.WF) :
    (∃ b', BitSet.productive [] g = .ok b' ∧ b'.length = g.numSyms ∧
      ∀ s, Has b' s ↔ ∃ r ∈ g.rules, r.lhs = s) ∧
    ∃ b', BitSet.subtractProductive [] g = .ok b' ∧ b'.length = g.numSyms ∧
      ∀ s, Has b' s ↔ g.Term s := by
  constructor
  · obtain ⟨b', h1, h2, h3⟩ := BitSet.fold_lhs_spec true g.rules (BitSet.reset g.src)
      (fun r hr => by rw [BitSet.length_reset]; exact (h r hr).1)
    refine ⟨b', h1, by rw [h2, BitSet.length_reset]; rfl, fun s => ?_⟩
    rw [Has, h3 s, BitSet.getElem?_reset]
    by_cases e : ∃ r ∈ g.rules, r.lhs = s
    · rw [if_pos e]; simp [e]
    · rw [if_neg e]; split <;> simp [e]
  · exact BitSet.terminal_spec h

/-- **C07**: `reserve` makes room and adds no members. -/
theorem C07_reserve (b : BitSet) (n : Nat) :
    (BitSet.reserve b n).length = max b.length n ∧ ∀ s, Has (BitSet.reserve b n) s ↔ Has b s := by
  unfold BitSet.reserve
  refine ⟨by simp; omega, fun s => ?_⟩
  unfold Has
  by_cases h : s < b.length
  · rw [List.getElem?_append_left h]
  · rw [List.getElem?_append_right (by omega), List.getElem?_replicate,
      List.getElem?_eq_none (l := b) (by omega)]
    split <;> simp

example : (∀ r ∈ exSets.rules, r.lhs < List.length [false, false, false, true, false, true]) ∧
    BitSet.productive [false, false, false, true, false, true] exSets =
      .ok [true, true, true, true, false, true] ∧
    BitSet.subtractProductive [true, false, true, true, false, true] exSets =
      .ok [false, false, false, true, false, true] := by decide

/-- The hypotheses hold for a grammar with terminals, nulling, used and unused symbols. -/
example : exSets.WF ∧
    exSets.terminalSymbols = .ok [false, false, false, true, true] ∧
    exSets.nullingSymbols = .ok [true, false, false, false, false] ∧
    exSets.unusedSymbols = .ok [false, false, false, false, true] ∧
    BitSet.iter [true, false, true] = [0, 2] := by decide

/-! ## C08 -/

/-- **C08** is violated: `is_empty` answers `true` for a set with a member and `false` for a
set without members. -/
theorem C08_violated_is_empty :
    BitSet.isEmpty [false, true] = true ∧ Has [false, true] 1 ∧
    BitSet.isEmpty [false, false] = false ∧ ¬ ∃ s, Has [false, false] s := by
  refine ⟨rfl, rfl, rfl, ?_⟩
  rintro ⟨s, hs⟩
  unfold Has at hs
  rcases s with _ | _ | s <;> simp at hs

/-- **C08**, what holds instead: `is_empty` returns `true` exactly when the set is *not*
empty, for every set. -/
theorem C08_is_empty_partial (b : BitSet) : BitSet.isEmpty b = true ↔ ∃ s, Has b s := by
  unfold BitSet.isEmpty Has
  rw [List.any_eq_true]
  constructor
  · rintro ⟨x, hx, rfl⟩
    obtain ⟨i, hi⟩ := List.getElem?_of_mem hx
    exact ⟨i, hi⟩
  · rintro ⟨s, hs⟩
    exact ⟨true, List.mem_of_getElem? hs, rfl⟩

/-- **C08**: `all` is right: it returns `true` exactly when every symbol is in the set. -/
theorem C08_all_partial (b : BitSet) :
    BitSet.all b = true ↔ ∀ s, s < b.length → Has b s := by
  unfold BitSet.all Has
  rw [List.all_eq_true]
  constructor
  · intro h s hs
    rw [List.getElem?_eq_getElem hs, h _ (List.getElem_mem hs)]
  · intro h x hx
    obtain ⟨i, hi, rfl⟩ := List.getElem_of_mem hx
    have := h i hi
    rw [List.getElem?_eq_getElem hi] at this
    simpa using this

example : BitSet.all [true, true] = true ∧ BitSet.all [true, false] = false := by decide

/-! ## C09 -/

/-- **C09**, All mode: the result is the least superset closed under "all symbols of a
non-empty right side". The computation terminates without panicking. -/
theorem C09_all (g : Cfg) (h : g.WF) (b : BitSet) (hb : b.length = g.numSyms) :
    ∃ b', g.rhsClosureForAll b = .ok b' ∧ b'.length = g.numSyms ∧
      IsLeast (ClosedAll g.prod) (Has b) (Has b') :=
  closureAll_spec h b hb

/-- **C09**, Any mode: the same for "some symbol of the right side". -/
theorem C09_any (g : Cfg) (h : g.WF) (b : BitSet) (hb : b.length = g.numSyms) :
    ∃ b', g.rhsClosureForAny b = .ok b' ∧ b'.length = g.numSyms ∧
      IsLeast (ClosedAny g.prod) (Has b) (Has b') :=
  closureAny_spec h b hb

example : exSets.WF ∧ [false, false, false, true, false].length = exSets.numSyms ∧
    exSets.rhsClosureForAll [false, false, false, true, false]
      = .ok [false, false, true, true, false] ∧
    exSets.rhsClosureForAny [false, false, false, true, false]
      = .ok [true, true, true, true, false] := by decide +kernel

/-! ## C10 -/

theorem ext_has {a b : BitSet} (hl : a.length = b.length) (h : ∀ s, Has a s ↔ Has b s) :
    a = b := by
  apply List.ext_getElem hl
  intro i h1 h2
  have := h i
  unfold Has at this
  rw [List.getElem?_eq_getElem h1, List.getElem?_eq_getElem h2] at this
  cases e1 : a[i] <;> cases e2 : b[i] <;> simp_all

/-- **C10**: two grammars over the same symbols with the same set of rules (in any order, with
any repetitions and histories) give the same closure, in both modes. -/
theorem C10_order_independent (g₁ g₂ : Cfg) (h₁ : g₁.WF) (h₂ : g₂.WF)
    (hn : g₁.numSyms = g₂.numSyms) (hp : ∀ A α, g₁.prod A α ↔ g₂.prod A α)
    (mode : RhsPropertyMode) (b : BitSet) (hb : b.length = g₁.numSyms) :
    ∃ b', g₁.rhsClosure mode b = .ok b' ∧ g₂.rhsClosure mode b = .ok b' := by
  obtain ⟨b₁, r₁, l₁, e₁, c₁, m₁⟩ := rhsClosure_spec (mode := mode) h₁ b hb
  obtain ⟨b₂, r₂, l₂, e₂, c₂, m₂⟩ := rhsClosure_spec (mode := mode) h₂ b (hn ▸ hb)
  have hcl : ∀ S, Closed mode g₁.rules S ↔ Closed mode g₂.rules S := by
    intro S
    have : g₁.prod = g₂.prod := by funext A α; exact propext (hp A α)
    cases mode
    · rw [closed_all_iff, closed_all_iff, this]
    · rw [closed_any_iff, closed_any_iff, this]
  have : b₁ = b₂ := ext_has (by omega) fun s =>
    ⟨m₁ _ e₂ ((hcl _).2 c₂) s, m₂ _ e₁ ((hcl _).1 c₁) s⟩
  exact ⟨b₁, r₁, this ▸ r₂⟩

example : ∃ g₁ g₂ : Cfg, g₁.WF ∧ g₂.WF ∧ g₁.rules ≠ g₂.rules ∧ g₁.numSyms = g₂.numSyms ∧
    ∀ A α, g₁.prod A α ↔ g₂.prod A α := by
  refine ⟨{ exSets with rules := [⟨0, [1, 2], {}⟩, ⟨1, [], {}⟩] },
    { exSets with rules := [⟨1, [], {}⟩, ⟨0, [1, 2], {}⟩, ⟨1, [], {}⟩] },
    by decide, by decide, by decide, rfl, fun A α => ?_⟩
  simp only [Cfg.prod, List.mem_cons, List.not_mem_nil, or_false]
  constructor
  · rintro ⟨r, rfl | rfl, h⟩
    exacts [⟨_, .inr (.inl rfl), h⟩, ⟨_, .inl rfl, h⟩]
  · rintro ⟨r, rfl | rfl | rfl, h⟩
    exacts [⟨_, .inr rfl, h⟩, ⟨_, .inl rfl, h⟩, ⟨_, .inr rfl, h⟩]

/-! ## C23 -/

/-- **C23**: propagating the nulling symbols with `rhs_closure_for_all` marks exactly the
symbols that derive the empty string. -/
theorem C23_nullable (g : Cfg) (h : g.WF) :
    ∃ b b', g.nullingSymbols = .ok b ∧ g.rhsClosureForAll b = .ok b' ∧
      b'.length = g.numSyms ∧ ∀ s, Has b' s ↔ Nullable g.prod s := by
  obtain ⟨b, h1, h2, h3⟩ := C07_nulling g h
  obtain ⟨b', h4, h5, h6⟩ := closureAll_spec h b h2
  exact ⟨b, b', h1, h4, h5, least_nullable h3 h6⟩

example : exSets.WF ∧ (exSets.nullingSymbols >>= exSets.rhsClosureForAll)
    = .ok [true, true, true, false, false] := by decide +kernel

end Verif
