import Verif.Proofs.Precedence

/-! # Properties C53, C54, C80, C81: precedenced rules -/

namespace Verif

/-- The terminals of the user: those of the grammar before, without the left side. -/
def UserTerm (g : Cfg) (lhs : Sym) (a : Sym) : Prop := g.Term a ∧ a ≠ lhs

/-- **C80.** Every old symbol generates exactly the strings that have a derivation in which each
occurrence of the left side within an alternative is filled by an alternative of an allowed level:
the leftmost (rightmost) one by the same level or tighter, the others by strictly tighter levels,
except that at the tightest level they are filled by the tightest level again; anything within a
`Group` alternative. -/
theorem C80_precedence_language {g : Cfg} (hwf : g.WF) (hlim : g.LimitOk) {lhs : Sym}
    (hlhs : lhs < g.numSyms) (calls : List PrecCall)
    (hc : ∀ x ∈ alternatives 0 .left calls, ∀ s ∈ x.rhs, s < g.numSyms) :
    ∃ g', g.precedencedRule lhs calls = .ok g' ∧ g'.WF ∧ g'.roots = g.roots ∧
      g.rules <+: g'.rules ∧
      ∀ A, A < g.numSyms → ∀ w,
        (InLang g'.prod (UserTerm g lhs) A w ↔
          Gen g.prod (UserTerm g lhs) lhs (loosestLevel calls) (fun n => max 1 n)
            (alternatives 0 .left calls) [.any A] w) := by
  obtain ⟨g', h1, h2, h3, h4, -, h6⟩ := precedencedRule_spec hwf hlim hlhs calls hc
  exact ⟨g', h1, h2, h3, h4, h6⟩

/-- **C81.** The terminals of the finalised grammar are the old ones without the left side, and the
fresh symbol of the tightest level if no alternative was given at that level. -/
theorem C81_precedence_terminals {g : Cfg} (hwf : g.WF) (hlim : g.LimitOk) {lhs : Sym}
    (hlhs : lhs < g.numSyms) (calls : List PrecCall)
    (hc : ∀ x ∈ alternatives 0 .left calls, ∀ s ∈ x.rhs, s < g.numSyms) :
    ∃ g', g.precedencedRule lhs calls = .ok g' ∧
      ∀ a, g'.Term a ↔ UserTerm g lhs a ∨
        (a = g.numSyms ∧ ∀ x ∈ alternatives 0 .left calls, x.level ≠ 0) := by
  obtain ⟨g', h1, -, -, -, h5, -⟩ := precedencedRule_spec hwf hlim hlhs calls hc
  exact ⟨g', h1, h5⟩

/-- **C53** for strings over the user's terminals: every old symbol generates only strings that it
generates when all the alternatives are productions of the left side. What is missing: strings with
the fresh symbol of an empty tightest level, for which it is false (`C53_violated`). -/
theorem C53_restricts_partial {g : Cfg} (hwf : g.WF) (hlim : g.LimitOk) {lhs : Sym}
    (hlhs : lhs < g.numSyms) (calls : List PrecCall)
    (hc : ∀ x ∈ alternatives 0 .left calls, ∀ s ∈ x.rhs, s < g.numSyms) :
    ∃ g', g.precedencedRule lhs calls = .ok g' ∧
      ∀ A, A < g.numSyms → ∀ w, InLang g'.prod (UserTerm g lhs) A w →
        InLang (Ambiguous g.prod lhs (alternatives 0 .left calls)) (UserTerm g lhs) A w := by
  obtain ⟨g', h1, -, -, -, -, h6⟩ := precedencedRule_spec hwf hlim hlhs calls hc
  refine ⟨g', h1, fun A hA w hw => ?_⟩
  have hg := (h6 A hA w).1 hw
  exact ⟨derives_iff_der.2 (by simpa [occSym] using hg.ambiguous), hw.2⟩

/-- **C53** when the tightest level has an alternative: the language is included in that of the
ambiguous grammar. -/
theorem C53_restricts_lang {g : Cfg} (hwf : g.WF) (hlim : g.LimitOk) {lhs : Sym}
    (hlhs : lhs < g.numSyms) (calls : List PrecCall)
    (hc : ∀ x ∈ alternatives 0 .left calls, ∀ s ∈ x.rhs, s < g.numSyms)
    (h0 : ∃ x ∈ alternatives 0 .left calls, x.level = 0) :
    ∃ g', g.precedencedRule lhs calls = .ok g' ∧
      ∀ A, A < g.numSyms → ∀ w, g'.Lang A w →
        InLang (Ambiguous g.prod lhs (alternatives 0 .left calls)) (UserTerm g lhs) A w := by
  obtain ⟨g', h1, h2⟩ := C53_restricts_partial hwf hlim hlhs calls hc
  obtain ⟨g₁, h1', h3⟩ := C81_precedence_terminals hwf hlim hlhs calls hc
  obtain rfl := Res.ok.inj (h1.symm.trans h1')
  refine ⟨g', h1, fun A hA w hw => h2 A hA w ⟨hw.1, fun a ha => ?_⟩⟩
  rcases (h3 a).1 (hw.2 a ha) with h | ⟨-, h⟩
  · exact h
  · obtain ⟨x, hx, e⟩ := h0
    exact absurd e (h x hx)

/-- Terminals 1 `n`, 2 `+`, 3 `(`, 4 `)`, 5 `*`; symbol 0 is the expression. -/
def precGrammar : Cfg :=
  { src := ⟨6, [none, none, none, none, none, none]⟩, rules := [], roots := [0] }

/-- `n`, `( E )` in a group; then `E * E`; then `E + E`. -/
def precCalls : List PrecCall :=
  [.rhs [1], .associativity .group, .rhs [3, 0, 4], .lowerPrecedence, .rhs [0, 5, 0],
    .lowerPrecedence, .associativity .right, .rhs [0, 2, 0]]

example : precGrammar.WF ∧ precGrammar.LimitOk ∧ 0 < precGrammar.numSyms ∧
    (∀ x ∈ alternatives 0 .left precCalls, ∀ s ∈ x.rhs, s < precGrammar.numSyms) ∧
    (∃ x ∈ alternatives 0 .left precCalls, x.level = 0) := by decide +kernel

/-- The grammar built: symbols 6, 7, 8 are the levels. -/
example : (fun g => g.rules.map fun r => (r.lhs, r.rhs)) <$> precGrammar.precedencedRule 0 precCalls
    = .ok [(6, [1]), (7, [6]), (7, [7, 5, 6]), (8, [7]), (8, [7, 2, 8]), (6, [3, 8, 4]), (0, [8])] := by
  decide +kernel

/-- **C53 is false** when no alternative is given at the tightest level: the left side generates a
string with an undefined fresh symbol, which the ambiguous grammar does not generate. -/
theorem C53_violated : ∃ (g : Cfg) (lhs : Sym) (calls : List PrecCall) (g' : Cfg) (w : List Sym),
    g.WF ∧ lhs < g.numSyms ∧ (∀ x ∈ alternatives 0 .left calls, ∀ s ∈ x.rhs, s < g.numSyms) ∧
    g.precedencedRule lhs calls = .ok g' ∧ g'.Lang lhs w ∧
    ¬ ∃ T, InLang (Ambiguous g.prod lhs (alternatives 0 .left calls)) T lhs w := by
  have hc : ∀ x ∈ alternatives 0 .left [.lowerPrecedence, .rhs [1]], ∀ s ∈ x.rhs,
      s < precGrammar.numSyms := by decide +kernel
  obtain ⟨g', h1, h2⟩ := C81_precedence_terminals (g := precGrammar) (lhs := 0)
    (by decide +kernel) (by decide +kernel) (by decide +kernel) [.lowerPrecedence, .rhs [1]] hc
  have e : (fun g : Cfg => g.rules.map fun r => (r.lhs, r.rhs)) <$>
      precGrammar.precedencedRule 0 [.lowerPrecedence, .rhs [1]] =
        .ok [(7, [6]), (7, [1]), (0, [7])] := by decide +kernel
  rw [h1] at e
  have e : g'.rules.map (fun r => (r.lhs, r.rhs)) = [(7, [6]), (7, [1]), (0, [7])] := Res.ok.inj e
  have hp : ∀ A α, (A, α) ∈ [(7, [6]), (7, [1]), (0, [7])] → g'.prod A α := by
    intro A α h
    rw [← e] at h
    obtain ⟨r, hr, e'⟩ := List.mem_map.1 h
    obtain ⟨e1, e2⟩ := Prod.mk.inj e'
    exact ⟨r, hr, e1, e2⟩
  refine ⟨precGrammar, 0, _, g', [6], by decide +kernel, by decide +kernel, hc, h1, ⟨?_, ?_⟩, ?_⟩
  · exact derives_iff_der.2 (.trans (.prod (hp 0 [7] (by simp))) (.prod (hp 7 [6] (by simp))))
  · simp only [List.mem_singleton, forall_eq]
    exact (h2 6).2 (.inr ⟨rfl, by decide⟩)
  · rintro ⟨T, h, -⟩
    rw [derives_iff_der, Der.single_iff] at h
    rcases h with h | ⟨α, hp, hd⟩
    · exact absurd h (by decide)
    · rcases hp with ⟨r, hr, -⟩ | ⟨-, x, hx, rfl⟩
      · exact absurd hr (by simp [precGrammar])
      · have hx' : x = ⟨1, .left, [1]⟩ := by simpa [alternatives] using hx
        subst hx'
        rw [Der.single_iff] at hd
        rcases hd with h | ⟨α, hp, -⟩
        · exact absurd h (by decide)
        · rcases hp with ⟨r, hr, -⟩ | ⟨h, -⟩
          · exact absurd hr (by simp [precGrammar])
          · exact absurd h (by decide)

/-- When the bound for the inner occurrences does not matter. -/
theorem marks_strict_eq {a : Alternative} {lhs : Sym} {m : Nat} {st st' : Nat → Nat}
    (h : a.assoc = .group ∨ a.rhs.count lhs ≤ 1 ∨ st a.level = st' a.level) :
    a.marks lhs m st = a.marks lhs m st' := by
  unfold Alternative.marks
  rcases h with h | h | h
  · rw [h]
  · apply List.ext_getElem
    · simp
    intro j h1 h2
    simp only [List.getElem_mapIdx]
    have hj : j < a.rhs.length := by simpa using h1
    by_cases e : a.rhs[j] = lhs
    · have hs : a.rhs = a.rhs.take j ++ a.rhs[j] :: a.rhs.drop (j + 1) := by simp
      have hcount : a.rhs.count lhs = (a.rhs.take j).count lhs + 1 + (a.rhs.drop (j + 1)).count lhs := by
        conv_lhs => rw [hs]
        rw [List.count_append, List.count_cons, e]
        simp
        omega
      have hA : lhs ∉ a.rhs.take j := by
        rw [← List.count_eq_zero]
        omega
      have hB : lhs ∉ a.rhs.drop (j + 1) := by
        rw [← List.count_eq_zero]
        omega
      simp only [if_pos e, if_neg hA, if_neg hB]
    · simp only [if_neg e]
  · rw [h]

theorem Gen.congr_strict {P : Productions} {T : Sym → Prop} {lhs : Sym} {m : Nat}
    {st st' : Nat → Nat} {alts : List Alternative}
    (h : ∀ a ∈ alts, a.marks lhs m st = a.marks lhs m st') {l : List Occ} {w : List Sym}
    (hg : Gen P T lhs m st alts l w) : Gen P T lhs m st' alts l w := by
  induction hg with
  | nil => exact .nil
  | term h _ ih => exact .term h ih
  | rule h _ _ ih1 ih2 => exact .rule h ih1 ih2
  | alt ha _ _ ih1 ih2 => rw [h _ ha] at ih1; exact .alt ha ih1 ih2
  | altBelow ha hb _ _ ih1 ih2 => rw [h _ ha] at ih1; exact .altBelow ha hb ih1 ih2

/-- **C54** when no alternative of the tightest level other than `Group` ones has two occurrences
of the left side: the derivations are exactly those in which an alternative contains, at its
recursive positions, the same level once, on the side of its associativity, and else strictly
tighter levels. What is missing: infix operators at the tightest level, for which it is false
(`C54_violated`). -/
theorem C54_levels_partial {g : Cfg} (hwf : g.WF) (hlim : g.LimitOk) {lhs : Sym}
    (hlhs : lhs < g.numSyms) (calls : List PrecCall)
    (hc : ∀ x ∈ alternatives 0 .left calls, ∀ s ∈ x.rhs, s < g.numSyms)
    (h0 : ∀ x ∈ alternatives 0 .left calls, x.level = 0 → x.assoc ≠ .group →
      x.rhs.count lhs ≤ 1) :
    ∃ g', g.precedencedRule lhs calls = .ok g' ∧
      ∀ A, A < g.numSyms → ∀ w,
        (InLang g'.prod (UserTerm g lhs) A w ↔
          Gen g.prod (UserTerm g lhs) lhs (loosestLevel calls) id
            (alternatives 0 .left calls) [.any A] w) := by
  obtain ⟨g', h1, -, -, -, h6⟩ := C80_precedence_language hwf hlim hlhs calls hc
  have hm : ∀ x ∈ alternatives 0 .left calls, x.marks lhs (loosestLevel calls) (fun n => max 1 n) =
      x.marks lhs (loosestLevel calls) id := by
    intro x hx
    apply marks_strict_eq
    by_cases hg : x.assoc = .group
    · exact .inl hg
    · by_cases hl : x.level = 0
      · exact .inr (.inl (h0 x hx hl hg))
      · refine .inr (.inr ?_)
        simp only [id]
        omega
  refine ⟨g', h1, fun A hA w => (h6 A hA w).trans ⟨?_, ?_⟩⟩
  · exact Gen.congr_strict hm
  · exact Gen.congr_strict fun x hx => (hm x hx).symm

example : ∀ x ∈ alternatives 0 .left precCalls, x.level = 0 → x.assoc ≠ .group →
    x.rhs.count 0 ≤ 1 := by decide +kernel

/-- The program of the example accepts `n + n * n`. -/
example : ∃ g', precGrammar.precedencedRule 0 precCalls = .ok g' ∧
    InLang g'.prod (UserTerm precGrammar 0) 0 [1, 2, 1, 5, 1] := by
  obtain ⟨g', h1, h2⟩ := C54_levels_partial (g := precGrammar) (lhs := 0) (by decide +kernel)
    (by decide +kernel) (by decide +kernel) precCalls (by decide +kernel) (by decide +kernel)
  refine ⟨g', h1, (h2 0 (by decide +kernel) _).2 ?_⟩
  have ht : ∀ a, a ∈ [1, 2, 5] → UserTerm precGrammar 0 a := by
    unfold UserTerm Cfg.Term
    decide +kernel
  have hn : ∀ b, 0 < b → Gen precGrammar.prod (UserTerm precGrammar 0) 0 (loosestLevel precCalls) id
      (alternatives 0 .left precCalls) [.below b] [1] := fun b hb =>
    .altBelow (a := ⟨0, .left, [1]⟩) (u := [1]) (v := []) (by decide +kernel) hb
      (.term (ht 1 (by simp)) .nil) .nil
  refine .alt (a := ⟨2, .right, [0, 2, 0]⟩) (u := [1, 2, 1, 5, 1]) (v := []) (by decide +kernel) ?_
    .nil
  refine Gen.append (l₁ := [.below 2]) (w₁ := [1]) (hn 2 (by omega)) ?_
  refine .term (ht 2 (by simp)) ?_
  refine .altBelow (a := ⟨1, .left, [0, 5, 0]⟩) (u := [1, 5, 1]) (v := []) (by decide +kernel)
    (by decide) ?_ .nil
  refine Gen.append (l₁ := [.below 2]) (w₁ := [1]) (hn 2 (by omega)) ?_
  exact .term (ht 5 (by simp)) (hn 1 (by omega))

/-- **C54 is false** at the tightest level: the left associative alternative `( E + E )` contains
itself on the right side, in `(n+(n+n))`. -/
theorem C54_violated : ∃ (g : Cfg) (lhs : Sym) (calls : List PrecCall) (g' : Cfg) (w : List Sym),
    g.WF ∧ lhs < g.numSyms ∧ (∀ x ∈ alternatives 0 .left calls, ∀ s ∈ x.rhs, s < g.numSyms) ∧
    g.precedencedRule lhs calls = .ok g' ∧ InLang g'.prod (UserTerm g lhs) lhs w ∧
    ¬ Gen g.prod (UserTerm g lhs) lhs (loosestLevel calls) id (alternatives 0 .left calls)
      [.any lhs] w := by
  let calls : List PrecCall := [.rhs [1], .rhs [3, 0, 2, 0, 4]]
  have hc : ∀ x ∈ alternatives 0 .left calls, ∀ s ∈ x.rhs, s < precGrammar.numSyms := by
    decide +kernel
  obtain ⟨g', h1, -, -, -, h2⟩ := C80_precedence_language (g := precGrammar) (lhs := 0)
    (by decide +kernel) (by decide +kernel) (by decide +kernel) calls hc
  refine ⟨precGrammar, 0, calls, g', [3, 1, 2, 3, 1, 2, 1, 4, 4], by decide +kernel,
    by decide +kernel, hc, h1, (h2 0 (by decide +kernel) _).2 ?_, ?_⟩
  · have ht : ∀ a, a ∈ [1, 2, 3, 4] → UserTerm precGrammar 0 a := by
      unfold UserTerm Cfg.Term
      decide +kernel
    have hn : Gen precGrammar.prod (UserTerm precGrammar 0) 0 (loosestLevel calls)
        (fun n => max 1 n) (alternatives 0 .left calls) [.below 1] [1] :=
      .altBelow (a := ⟨0, .left, [1]⟩) (u := [1]) (v := []) (by decide +kernel) (by decide)
        (.term (ht 1 (by simp)) .nil) .nil
    refine .alt (a := ⟨0, .left, [3, 0, 2, 0, 4]⟩) (u := [3, 1, 2, 3, 1, 2, 1, 4, 4]) (v := [])
      (by decide +kernel) ?_ .nil
    refine .term (ht 3 (by simp)) (Gen.append (l₁ := [.below 1]) (w₁ := [1]) hn ?_)
    refine .term (ht 2 (by simp)) ?_
    refine .altBelow (a := ⟨0, .left, [3, 0, 2, 0, 4]⟩) (u := [3, 1, 2, 1, 4]) (v := [4])
      (by decide +kernel) (by decide) ?_ (.term (ht 4 (by simp)) .nil)
    refine .term (ht 3 (by simp)) (Gen.append (l₁ := [.below 1]) (w₁ := [1]) hn ?_)
    refine .term (ht 2 (by simp)) (Gen.append (l₁ := [.below 1]) (w₁ := [1]) hn ?_)
    exact .term (ht 4 (by simp)) .nil
  · intro h
    have key : ∀ (l : List Occ) (w : List Sym), Gen precGrammar.prod (UserTerm precGrammar 0) 0
        (loosestLevel calls) id (alternatives 0 .left calls) l w → Occ.below 0 ∉ l := by
      intro l w h
      induction h with
      | nil => simp
      | term _ _ ih => simpa using ih
      | rule _ _ _ _ ih => simpa using ih
      | alt _ _ _ _ ih => simpa using ih
      | altBelow _ hb _ _ _ ih =>
        simp only [List.mem_cons, Occ.below.injEq, not_or]
        exact ⟨by omega, ih⟩
    generalize hw : ([3, 1, 2, 3, 1, 2, 1, 4, 4] : List Sym) = w at h
    cases h with
    | term _ h => cases h; simp at hw
    | rule hp _ _ => obtain ⟨r, hr, -⟩ := hp; exact absurd hr (by simp [precGrammar])
    | @alt a u _ v ha h1 h2 =>
      cases h2
      have ha' : a = ⟨0, .left, [1]⟩ ∨ a = ⟨0, .left, [3, 0, 2, 0, 4]⟩ := by
        simpa [alternatives, calls] using ha
      rcases ha' with rfl | rfl
      · have e : (⟨0, .left, [1]⟩ : Alternative).marks 0 (loosestLevel calls) id = [.any 1] := by
          decide
        rw [e] at h1
        cases h1 with
        | term _ h => cases h; simp at hw
        | rule hp _ _ => obtain ⟨r, hr, -⟩ := hp; exact absurd hr (by simp [precGrammar])
      · exact key _ _ h1 (by decide)

end Verif
