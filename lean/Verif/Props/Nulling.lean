import Verif.Proofs.Nulling

/-! # Properties C24 – C27: elimination of nulling rules

`g.binarizeAndEliminateNulling = .ok (g', res)`: the call changes the grammar to `g'` and
returns `res`. -/

namespace Verif

/-- `S ::= A b A c`, `A ::= ε | a A`, `N ::= ε`, `M ::= N N`; symbols
`S A N M a b c = 0 .. 6`. -/
def exNulling : Cfg :=
  { src := ⟨7, [none, none, none, none, none, none, none]⟩
    rules := [⟨0, [1, 5, 1, 6], {}⟩, ⟨1, [], {}⟩, ⟨1, [4, 1], {}⟩, ⟨2, [], {}⟩, ⟨3, [2, 2], {}⟩]
    roots := [0] }

theorem exNulling_wf : exNulling.WF := by decide +kernel

/-- **C24.** The elimination returns for every well-formed grammar; every original symbol
derives the same non-empty strings of original terminals as before, and no symbol derives the
empty string any more. -/
theorem C24_language {g : Cfg} (hwf : g.WF) :
    ∃ g' res, g.binarizeAndEliminateNulling = .ok (g', res) ∧
      (∀ A w, A < g.numSyms → w ≠ [] → (InLang g'.prod g.Term A w ↔ InLang g.prod g.Term A w)) ∧
      ∀ A, ¬ Nullable g'.prod A := by
  obtain ⟨g₁, g', res, h, hs⟩ := elim_spec hwf
  refine ⟨g', res, h, fun A w hA hw => ?_, ?_⟩
  · have ht : ∀ a, g₁.Term a ↔ g.Term a := fun a => by
      rw [hs.inv.term, Cfg.term_iff_prod]
    have h2 : ∀ A α, g₁.prod A α → α.length ≤ 2 := by
      rintro A α ⟨r, hr, rfl, rfl⟩; exact hs.len r hr
    rw [inLang_iff, inLang_iff]
    refine and_congr_left fun hT => ?_
    have hlt : ∀ x ∈ w, x < g.numSyms := fun x hx => (hT x hx).1
    have h1 := hs.inv.derives hA hlt
    rw [derives_iff_der, derives_iff_der] at h1
    rw [← h1]
    rcases hs.prods with ⟨-, rfl⟩ | ⟨-, hp⟩
    · rfl
    · rw [der_productive hp (fun a ha => (ht a).2 (hT a ha)), derives_elim h2 A hw]
  · intro A
    rcases hs.prods with ⟨hno, rfl⟩ | ⟨-, hp⟩
    · exact hno A
    · exact not_nullable_of_nonempty (fun A hA => ((hp A []).1 hA).1.2 rfl) A

/-- **C25.** Every rule is left with one or two symbols on the right. -/
theorem C25_binary {g : Cfg} (hwf : g.WF) :
    ∃ g' res, g.binarizeAndEliminateNulling = .ok (g', res) ∧
      ∀ r ∈ g'.rules, 1 ≤ r.rhs.length ∧ r.rhs.length ≤ 2 := by
  obtain ⟨g₁, g', res, h, hs⟩ := elim_spec hwf
  refine ⟨g', res, h, fun r hr => ?_⟩
  rcases hs.prods with ⟨hno, rfl⟩ | ⟨-, hp⟩
  · refine ⟨?_, hs.len r hr⟩
    by_contra hh
    have e : r.rhs = [] := List.length_eq_zero_iff.1 (by omega)
    exact hno r.lhs (derives_iff_der.2 (.prod ⟨r, hr, rfl, e⟩))
  · obtain ⟨⟨h1, hne⟩, -⟩ := (hp r.lhs r.rhs).1 ⟨r, hr, rfl, rfl⟩
    refine ⟨List.length_pos_iff.2 hne, ?_⟩
    rcases h1 with ⟨r', hr', -, e⟩ | ⟨α, -, a, b, -, h | h⟩
    · rw [← e]; exact hs.len r' hr'
    · rw [h.1]; simp
    · rw [h.1]; simp

/-- **C26.** In the returned grammar a symbol derives the empty string exactly when it did in
the original grammar; and all its rules have only such symbols on the right. -/
theorem C26_nulling_grammar {g : Cfg} (hwf : g.WF) :
    ∃ g' res, g.binarizeAndEliminateNulling = .ok (g', res) ∧
      (∀ s, s < g.numSyms → (Nullable res.prod s ↔ Nullable g.prod s)) ∧
      ∀ r ∈ res.rules, Nullable res.prod r.lhs ∧ ∀ s ∈ r.rhs, Nullable res.prod s := by
  obtain ⟨g₁, g', res, h, hs⟩ := elim_spec hwf
  have e : res.prod = nullProds g₁.prod := by funext A α; exact propext (hs.nulling A α)
  refine ⟨g', res, h, fun s hlt => ?_, fun r hr => ?_⟩
  · rw [e, nullable_nullProds]
    exact hs.inv.derives hlt (w := []) (by simp)
  · rw [e]
    simp only [nullable_nullProds]
    have hp := (hs.nulling r.lhs r.rhs).1 ⟨r, hr, rfl, rfl⟩
    exact ⟨derives_iff_der.2 (Der.single_iff.2 (.inr ⟨r.rhs, hp.1, der_nil_of_nullable hp.2⟩)),
      hp.2⟩

/-- **C27** fails: in `S ::= N a`, `N ::= ε` the rule `S ::= N a` stays although `N` has lost its
only rule, so `N` has become a terminal of the grammar, and `N a` a string of its language. -/
theorem C27_violated_nulling_only :
    ∃ g : Cfg, g.WF ∧ (∃ r ∈ g.rules, r.lhs = 1) ∧
      (fun p : Cfg × Cfg => (p.1.rules.map fun r => (r.lhs, r.rhs)))
          <$> g.binarizeAndEliminateNulling
        = .ok [(0, [1, 2]), (0, [2])] :=
  ⟨{ src := ⟨3, [none, none, none]⟩, rules := [⟨0, [1, 2], {}⟩, ⟨1, [], {}⟩] }, by decide +kernel⟩

/-- **C27** (what holds): a symbol with rules that derives a non-empty string of terminals keeps
a rule, and a terminal stays a terminal; if some symbol was nullable, the symbols that derive no
non-empty string of terminals lose all their rules. Missing: those symbols may still occur on the
right of other rules (see above), where they then count as terminals. -/
theorem C27_terminals_partial {g : Cfg} (hwf : g.WF) :
    ∃ g' res, g.binarizeAndEliminateNulling = .ok (g', res) ∧
      (∀ s, g.Term s → g'.Term s) ∧
      (∀ s, s < g.numSyms → (∃ r ∈ g.rules, r.lhs = s) → (∃ w, w ≠ [] ∧ g.Lang s w) →
        ∃ r ∈ g'.rules, r.lhs = s) ∧
      ((∃ s, s < g.numSyms ∧ Nullable g.prod s) → ∀ s, s < g.numSyms →
        (∃ r ∈ g'.rules, r.lhs = s) → ∃ w, w ≠ [] ∧ g.Lang s w) := by
  obtain ⟨g₁, g', res, h, hs⟩ := elim_spec hwf
  obtain ⟨g'', res', h', hlang, hno⟩ := C24_language hwf
  rw [h] at h'
  cases h'
  refine ⟨g', res, h, fun s hsT => ?_, fun s hlt hr hw => ?_, fun hnull s hlt hr => ?_⟩
  · have h1 : g₁.Term s := by rw [hs.inv.term, ← Cfg.term_iff_prod]; exact hsT
    refine ⟨by rw [hs.syms.1]; exact h1.1, fun r hr e => ?_⟩
    rw [Cfg.term_iff_prod] at h1
    rcases hs.prods with ⟨-, rfl⟩ | ⟨-, hp⟩
    · exact h1.2 r.rhs ⟨r, hr, e, rfl⟩
    · obtain ⟨⟨h2 | ⟨α, h2, -⟩, -⟩, -⟩ := (hp s r.rhs).1 ⟨r, hr, e, rfl⟩
      · exact h1.2 _ h2
      · exact h1.2 _ h2
  · obtain ⟨w, hne, hw⟩ := hw
    have := (hlang s w hlt hne).2 hw
    obtain ⟨d, hT⟩ := inLang_iff.1 this
    rcases Der.single_iff.1 d with rfl | ⟨α, ⟨r, hr, e, -⟩, -⟩
    · obtain ⟨r, hr, e⟩ := hr
      exact ((hT s (by simp)).2 r hr e).elim
    · exact ⟨r, hr, e⟩
  · obtain ⟨t, ht, hnull⟩ := hnull
    obtain ⟨r, hr, e⟩ := hr
    rcases hs.prods with ⟨hno', rfl⟩ | ⟨-, hp⟩
    · exact (hno' t ((hs.inv.derives ht (w := []) (by simp)).2 hnull)).elim
    · obtain ⟨-, w, hd, hT⟩ := (hp s r.rhs).1 ⟨r, hr, e, rfl⟩
      have hne : w ≠ [] := by
        rintro rfl
        exact not_nullable_of_nonempty (fun A h => h.2 rfl) s hd
      have hT' : ∀ a ∈ w, g.Term a := fun a ha => by
        rw [Cfg.term_iff_prod, ← hs.inv.term]; exact hT a ha
      refine ⟨w, hne, (hlang s w hlt hne).1 (inLang_iff.2 ⟨?_, hT'⟩)⟩
      exact (der_productive hp hT).2 (derives_iff_der.1 hd)

/-- The example meets the hypotheses of all four theorems, and every case of the elimination
occurs in it. -/
example : exNulling.WF ∧ (∃ s, s < exNulling.numSyms ∧ Nullable exNulling.prod s) ∧
    (fun p : Cfg × Cfg => (p.1.rules.map fun r => (r.lhs, r.rhs), p.2.rules.map fun r => (r.lhs, r.rhs)))
        <$> exNulling.binarizeAndEliminateNulling
      = .ok ([(7, [1, 5]), (8, [7, 1]), (0, [8, 6]), (1, [4, 1]), (7, [5]), (8, [7]), (1, [4])],
        [(1, []), (2, []), (3, [2, 2])]) :=
  ⟨exNulling_wf, ⟨1, by decide, derives_iff_der.2 (.prod (by decide +kernel))⟩, by decide +kernel⟩

/-- A grammar without nullable symbols is only binarized. -/
example : (fun p : Cfg × Cfg => (p.1.rules.map fun r => (r.lhs, r.rhs), p.2.rules.length))
    <$> (Cfg.binarizeAndEliminateNulling
      { src := ⟨2, [none, none]⟩, rules := [⟨0, [1, 0, 1], {}⟩, ⟨0, [1], {}⟩] })
      = .ok ([(2, [1, 0]), (0, [2, 1]), (0, [1])], 0) := by decide +kernel

end Verif
