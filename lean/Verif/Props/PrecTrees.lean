import Verif.Proofs.OperatorsMixed
import Verif.Props.Precedence

/-! # Properties C103, C104: parse trees of precedenced rules -/

namespace Verif

/-- **C103.** For every old symbol and every string over the user's terminals, the parse trees of the
finalised grammar are as many as the trees over the old rules and the alternatives of the left side
that respect the precedence. -/
theorem C103_precedence_trees {g : Cfg} (hwf : g.WF) (hlim : g.LimitOk) {lhs : Sym}
    (hlhs : lhs < g.numSyms) (calls : List PrecCall)
    (hc : ∀ x ∈ alternatives 0 .left calls, ∀ s ∈ x.rhs, s < g.numSyms) :
    ∃ g', g.precedencedRule lhs calls = .ok g' ∧
      ∀ A, A < g.numSyms → ∀ w, (∀ a ∈ w, UserTerm g lhs a) →
        SameNumber (g'.Trees A w) { f : Forest //
          PrecForest g.pairs (UserTerm g lhs) lhs (loosestLevel calls) (fun n => max 1 n)
            (alternatives 0 .left calls) [.any A] f w } :=
  precedencedRule_trees hwf hlim hlhs calls hc

/-- **C103.** Trees that respect the precedence are parse trees of the grammar in which all the
alternatives are rules of the left side, so that grammar has at least as many. -/
theorem C103_ambiguous_trees {g : Cfg} (hwf : g.WF) (hlim : g.LimitOk) {lhs : Sym}
    (hlhs : lhs < g.numSyms) (calls : List PrecCall)
    (hc : ∀ x ∈ alternatives 0 .left calls, ∀ s ∈ x.rhs, s < g.numSyms) :
    ∃ g', g.precedencedRule lhs calls = .ok g' ∧
      ∀ A, A < g.numSyms → ∀ w, (∀ a ∈ w, UserTerm g lhs a) →
        ∃ φ : g'.Trees A w → { f : Forest // IsForest
            (g.pairs ++ (alternatives 0 .left calls).map fun a => (lhs, a.rhs)) (UserTerm g lhs) [A] f w },
          ∀ t t', φ t = φ t' → t = t' := by
  obtain ⟨g', h1, h2⟩ := precedencedRule_trees hwf hlim hlhs calls hc
  refine ⟨g', h1, fun A hA w hw => ?_⟩
  obtain ⟨e⟩ := h2 A hA w hw
  refine ⟨fun t => ⟨(e t).1, ?_⟩, fun t t' h => e.injective (Subtype.ext (congrArg (·.1) h))⟩
  refine (e t).2.isForest (fun r hr ht => ?_) fun h => h.2 rfl
  obtain ⟨r', hr', rfl⟩ := List.mem_map.1 hr
  exact ht.1.2 r' hr' rfl

/-- Trees for the example: `n` as alternative 0 at any level. -/
theorem precExample_atom {calls : List PrecCall} {m : Nat} {st : Nat → Nat}
    (h : (alternatives 0 .left calls)[0]? = some ⟨0, .left, [1]⟩) (b : Nat) (hb : 0 < b) :
    PrecForest precGrammar.pairs (UserTerm precGrammar 0) 0 m st (alternatives 0 .left calls)
      [.below b] (.node 0 (.leaf 1 .nil) .nil) [1] :=
  .altBelow (a := ⟨0, .left, [1]⟩) (j := 0) (u := [1]) (v := []) h hb
    (.leaf (by unfold UserTerm Cfg.Term; decide +kernel) .nil) .nil

/-- The string `n + n * n` has a tree that respects the precedence: the sum of `n` and a product. -/
example : PrecForest precGrammar.pairs (UserTerm precGrammar 0) 0 (loosestLevel precCalls)
    (fun n => max 1 n) (alternatives 0 .left precCalls) [.any 0]
    (.node 3 (.node 0 (.leaf 1 .nil) (.leaf 2 (.node 2
      (.node 0 (.leaf 1 .nil) (.leaf 5 (.node 0 (.leaf 1 .nil) .nil))) .nil))) .nil)
    [1, 2, 1, 5, 1] := by
  have ht : ∀ a, a ∈ [1, 2, 5] → UserTerm precGrammar 0 a := by
    unfold UserTerm Cfg.Term
    decide +kernel
  have hn := precExample_atom (calls := precCalls) (m := loosestLevel precCalls)
    (st := fun n => max 1 n) (by decide +kernel)
  refine .alt (j := 3) (a := ⟨2, .right, [0, 2, 0]⟩) (u := [1, 2, 1, 5, 1]) (v := [])
    (by decide +kernel) ?_ .nil
  refine PrecForest.append (l := [.below 2]) (w := [1]) (hn 2 (by omega)) (.leaf (ht 2 (by simp)) ?_)
  refine .altBelow (j := 2) (a := ⟨1, .left, [0, 5, 0]⟩) (u := [1, 5, 1]) (v := [])
    (by decide +kernel) (by decide) ?_ .nil
  exact PrecForest.append (l := [.below 2]) (w := [1]) (hn 2 (by omega))
    (.leaf (ht 5 (by simp)) (hn 1 (by omega)))

/-- The tree that makes the sum first is a tree of the ambiguous grammar and does not respect the
precedence. -/
example : ¬ PrecForest precGrammar.pairs (UserTerm precGrammar 0) 0 (loosestLevel precCalls)
    (fun n => max 1 n) (alternatives 0 .left precCalls) [.any 0]
    (.node 2 (.node 3 (.node 0 (.leaf 1 .nil) (.leaf 2 (.node 0 (.leaf 1 .nil) .nil)))
      (.leaf 5 (.node 0 (.leaf 1 .nil) .nil))) .nil)
    [1, 2, 1, 5, 1] := by
  have e : alternatives 0 .left precCalls =
      [⟨0, .left, [1]⟩, ⟨0, .group, [3, 0, 4]⟩, ⟨1, .left, [0, 5, 0]⟩, ⟨2, .right, [0, 2, 0]⟩] := by
    decide +kernel
  rw [e]
  intro h
  generalize [1, 2, 1, 5, 1] = w at h
  generalize hn : (2 : Nat) = n at h
  cases h with
  | rule h => simp [precGrammar, Cfg.pairs] at h
  | @alt j a c f u v l hj hc =>
    have hj2 : j = 2 := by simpa [precGrammar, Cfg.pairs] using hn.symm
    subst hj2
    obtain rfl : (⟨1, .left, [0, 5, 0]⟩ : Alternative) = a := Option.some.inj hj
    have em : (⟨1, .left, [0, 5, 0]⟩ : Alternative).marks 0 (loosestLevel precCalls)
        (fun n => max 1 n) = [.below 2, .any 5, .below 1] := by decide +kernel
    rw [em] at hc
    generalize hn : (3 : Nat) = n at hc
    cases hc with
    | @altBelow j b a c f u v l hj hl =>
      have hj2 : j = 3 := by simpa [precGrammar, Cfg.pairs] using hn.symm
      subst hj2
      obtain rfl : (⟨2, .right, [0, 2, 0]⟩ : Alternative) = a := Option.some.inj hj
      exact absurd hl (by decide)

/-- **C104** when each level associates to one side: an operator table is unambiguous. What is
missing: levels with operators of both kinds, for which it is false (`C104_violated`). -/
theorem C104_operators_unambiguous_partial {g : Cfg} (hwf : g.WF) (hlim : g.LimitOk) {lhs : Sym}
    (hlhs : lhs < g.numSyms) (hnew : ∀ r ∈ g.rules, r.lhs ≠ lhs) (calls : List PrecCall)
    (hc : ∀ x ∈ alternatives 0 .left calls, ∀ s ∈ x.rhs, s = lhs ∨ s < g.numSyms ∧ UserTerm g lhs s)
    (role : Sym → Role) (right : Nat → Prop)
    (htable : OperatorTable lhs role right (alternatives 0 .left calls))
    (h0 : ∃ x ∈ alternatives 0 .left calls, x.level = 0) :
    ∃ g', g.precedencedRule lhs calls = .ok g' ∧ g'.Unambiguous lhs := by
  have hc' : ∀ x ∈ alternatives 0 .left calls, ∀ s ∈ x.rhs, s < g.numSyms := by
    intro x hx s hs
    rcases hc x hx s hs with rfl | h
    · exact hlhs
    · exact h.1
  obtain ⟨g', h1, h2⟩ := precedencedRule_trees hwf hlim hlhs calls hc'
  obtain ⟨g₁, h1', h3⟩ := C81_precedence_terminals hwf hlim hlhs calls hc'
  obtain rfl := Res.ok.inj (h1.symm.trans h1')
  refine ⟨g', h1, fun w => ?_⟩
  by_cases hw : ∀ a ∈ w, UserTerm g lhs a
  · obtain ⟨e⟩ := h2 lhs hlhs w hw
    have hop : OpRules g.pairs (fun a => g.Term a ∧ a ≠ lhs) lhs role right
        (alternatives 0 .left calls) :=
      { table := htable
        hT := by
          intro r hr ht
          obtain ⟨r', hr', rfl⟩ := List.mem_map.1 hr
          exact ht.1.2 r' hr' rfl
        hl := fun h => h.2 rfl
        hno := by
          intro r hr
          obtain ⟨r', hr', rfl⟩ := List.mem_map.1 hr
          exact hnew r' hr'
        tokens := fun a ha s hs hne => ((hc a ha s hs).resolve_left hne).2 }
    have := hop.unambiguous (m := loosestLevel calls) w
    exact e.injective.subsingleton
  · refine ⟨fun t => absurd (fun a ha => ?_) hw⟩
    rcases (h3 a).1 (t.2.terminals a ha) with h | ⟨-, h⟩
    · exact h
    · obtain ⟨x, hx, e⟩ := h0
      exact absurd e (h x hx)

/-- **C104, exactly.** An operator table with an atom is unambiguous if and only if no level has both
an operator that associates to the left (infix or postfix) and one that associates to the right (infix
or prefix). -/
theorem C104_exact_partial {g : Cfg} (hwf : g.WF) (hlim : g.LimitOk) {lhs : Sym}
    (hlhs : lhs < g.numSyms) (hnew : ∀ r ∈ g.rules, r.lhs ≠ lhs) (calls : List PrecCall)
    (hc : ∀ x ∈ alternatives 0 .left calls, ∀ s ∈ x.rhs, s = lhs ∨ s < g.numSyms ∧ UserTerm g lhs s)
    (role : Sym → Role)
    (hform : ∀ a ∈ alternatives 0 .left calls, ∃ t, OpForm lhs role a t)
    (hdist : ∀ (i j : Nat) a b t, (alternatives 0 .left calls)[i]? = some a →
      (alternatives 0 .left calls)[j]? = some b → OpForm lhs role a t → OpForm lhs role b t → i = j)
    (hatom : ∃ as t, t ≠ lhs ∧ ⟨0, as, [t]⟩ ∈ alternatives 0 .left calls) :
    ∃ g', g.precedencedRule lhs calls = .ok g' ∧ (g'.Unambiguous lhs ↔
      ∀ a ∈ alternatives 0 .left calls, ∀ b ∈ alternatives 0 .left calls,
        Leftward lhs a → Rightward lhs b → a.level ≠ b.level) := by
  have hc' : ∀ x ∈ alternatives 0 .left calls, ∀ s ∈ x.rhs, s < g.numSyms := by
    intro x hx s hs
    rcases hc x hx s hs with rfl | h
    · exact hlhs
    · exact h.1
  obtain ⟨as, t, ht, hm⟩ := hatom
  obtain ⟨g', h1, h2⟩ := precedencedRule_trees hwf hlim hlhs calls hc'
  refine ⟨g', h1, fun hu a ha b hb hl hr hlev => ?_, fun hlev => ?_⟩
  · obtain ⟨k, hk⟩ := List.getElem?_of_mem hm
    obtain ⟨i, hi⟩ := List.getElem?_of_mem ha
    obtain ⟨j, hj⟩ := List.getElem?_of_mem hb
    obtain ⟨w, f, f', hne, hf, hf'⟩ := mixed_trees (rules := g.pairs) (T := UserTerm g lhs)
      (m := loosestLevel calls) hk ht hi hj hl hr hlev hform
      (fun a ha s hs hne => ((hc a ha s hs).resolve_left hne).2)
    obtain ⟨e⟩ := h2 lhs hlhs w hf.terminals
    have := hu w
    exact hne (congrArg (·.1) (e.symm.subsingleton.elim ⟨f, hf⟩ ⟨f', hf'⟩))
  · obtain ⟨g'', h1', h3⟩ := C104_operators_unambiguous_partial hwf hlim hlhs hnew calls hc role _
      (.of_forms hform hdist hlev) ⟨_, hm, rfl⟩
    obtain rfl := Res.ok.inj (h1.symm.trans h1')
    exact h3

/-- What the terminals of the example are used for. -/
def precRole (s : Sym) : Role :=
  match s with
  | 1 => .atom
  | 2 => .operator 2
  | 3 => .opening
  | 4 => .closing
  | _ => .operator 1

/-- The example is an operator table. -/
example : OperatorTable 0 precRole (· = 2) (alternatives 0 .left precCalls) := by
  have e : alternatives 0 .left precCalls =
      [⟨0, .left, [1]⟩, ⟨0, .group, [3, 0, 4]⟩, ⟨1, .left, [0, 5, 0]⟩, ⟨2, .right, [0, 2, 0]⟩] := by
    decide +kernel
  rw [e]
  refine ⟨fun a ha => ?_, distinct_of_keys (by decide)⟩
  simp only [List.mem_cons, List.not_mem_nil, or_false] at ha
  rcases ha with rfl | rfl | rfl | rfl
  · exact ⟨1, .atom (by decide) rfl⟩
  · exact ⟨3, .bracket (by decide) rfl (.expr (by decide) (.closing (by decide) rfl))⟩
  · exact ⟨5, .infixLeft (by decide) (by decide) rfl (by decide)⟩
  · exact ⟨2, .infixRight (by decide) (by decide) rfl rfl⟩

/-- A table with a prefix operator and a left associative infix operator on one level meets the
hypotheses of `C104_exact_partial`. -/
example : ∃ calls, alternatives 0 .left calls =
      [⟨0, .left, [1]⟩, ⟨1, .left, [0, 5, 0]⟩, ⟨1, .left, [2, 0]⟩] ∧
    (∀ x ∈ alternatives 0 .left calls, ∀ s ∈ x.rhs,
      s = 0 ∨ s < precGrammar.numSyms ∧ UserTerm precGrammar 0 s) ∧
    ∃ role, (∀ a ∈ alternatives 0 .left calls, ∃ t, OpForm 0 role a t) ∧
      ((alternatives 0 .left calls).map fun a => a.rhs.find? (· ≠ 0)).Nodup ∧
      ∃ a ∈ alternatives 0 .left calls, ∃ b ∈ alternatives 0 .left calls,
        Leftward 0 a ∧ Rightward 0 b ∧ a.level = b.level := by
  refine ⟨[.rhs [1], .lowerPrecedence, .rhs [0, 5, 0], .rhs [2, 0]], by decide +kernel,
    by unfold UserTerm Cfg.Term; decide +kernel, fun s => if s = 1 then .atom else .operator 1,
    fun a ha => ?_, by decide +kernel, ⟨1, .left, [0, 5, 0]⟩, by decide +kernel, ⟨1, .left, [2, 0]⟩,
    by decide +kernel, .infixLeft (by decide), .prefixOp (by decide), rfl⟩
  rw [show alternatives 0 .left _ =
    [⟨0, .left, [1]⟩, ⟨1, .left, [0, 5, 0]⟩, ⟨1, .left, [2, 0]⟩] by decide +kernel] at ha
  simp only [List.mem_cons, List.not_mem_nil, or_false] at ha
  rcases ha with rfl | rfl | rfl
  · exact ⟨1, .atom (by decide) rfl⟩
  · exact ⟨5, .infixOp (by decide) (by decide) rfl (by decide)⟩
  · exact ⟨2, .prefixOp (by decide) (by decide) rfl (by decide)⟩

example : (∀ r ∈ precGrammar.rules, r.lhs ≠ 0) ∧
    ∀ x ∈ alternatives 0 .left precCalls, ∀ s ∈ x.rhs,
      s = 0 ∨ s < precGrammar.numSyms ∧ UserTerm precGrammar 0 s := by
  unfold UserTerm Cfg.Term
  decide +kernel

/-- **C104 is false** for a level with a left and a right associative operator: with `E + E` to the
left and `E * E` to the right on one level, `n * n + n` has two trees. -/
theorem C104_violated : ∃ (g : Cfg) (lhs : Sym) (calls : List PrecCall) (g' : Cfg),
    g.WF ∧ g.LimitOk ∧ lhs < g.numSyms ∧ (∀ r ∈ g.rules, r.lhs ≠ lhs) ∧
    alternatives 0 .left calls =
      [⟨0, .left, [1]⟩, ⟨1, .left, [lhs, 2, lhs]⟩, ⟨1, .right, [lhs, 5, lhs]⟩] ∧
    (∀ a ∈ [1, 2, 5], a < g.numSyms ∧ UserTerm g lhs a) ∧
    g.precedencedRule lhs calls = .ok g' ∧ ¬ g'.Unambiguous lhs := by
  let calls : List PrecCall :=
    [.rhs [1], .lowerPrecedence, .rhs [0, 2, 0], .associativity .right, .rhs [0, 5, 0]]
  have hu : ∀ a, a ∈ [1, 2, 5] → a < precGrammar.numSyms ∧ UserTerm precGrammar 0 a := by
    unfold UserTerm Cfg.Term
    decide +kernel
  have ht := fun a ha => (hu a ha).2
  obtain ⟨g', h1, h2⟩ := precedencedRule_trees (g := precGrammar) (lhs := 0) (by decide +kernel)
    (by decide +kernel) (by decide +kernel) calls (by decide +kernel)
  refine ⟨precGrammar, 0, calls, g', by decide +kernel, by decide +kernel, by decide +kernel,
    by decide +kernel, by decide +kernel, hu, h1, fun h => ?_⟩
  obtain ⟨e⟩ := h2 0 (by decide +kernel) [1, 5, 1, 2, 1] fun a ha => ht a (by
    simp only [List.mem_cons, List.not_mem_nil, or_false] at ha ⊢
    omega)
  have hn := precExample_atom (calls := calls) (m := loosestLevel calls)
    (st := codeStrict) (by decide +kernel)
  have hs := (h [1, 5, 1, 2, 1]).allEq
  refine absurd (congrArg (·.1) ((e.symm.injective).eq_iff.1 (hs
    (e.symm ⟨.node 2 (.node 0 (.leaf 1 .nil) (.leaf 5 (.node 1
      (.node 0 (.leaf 1 .nil) (.leaf 2 (.node 0 (.leaf 1 .nil) .nil))) .nil))) .nil, ?_⟩)
    (e.symm ⟨.node 1 (.node 2 (.node 0 (.leaf 1 .nil) (.leaf 5 (.node 0 (.leaf 1 .nil) .nil)))
      (.leaf 2 (.node 0 (.leaf 1 .nil) .nil))) .nil, ?_⟩)))) fun e => nomatch (Forest.node.inj e).1
  · refine .alt (j := 2) (a := ⟨1, .right, [0, 5, 0]⟩) (u := [1, 5, 1, 2, 1]) (v := [])
      (by decide +kernel) ?_ .nil
    refine PrecForest.append (l := [.below 1]) (w := [1]) (hn 1 (by omega))
      (.leaf (ht 5 (by simp)) ?_)
    refine .altBelow (j := 1) (a := ⟨1, .left, [0, 2, 0]⟩) (u := [1, 2, 1]) (v := [])
      (by decide +kernel) (by decide) ?_ .nil
    exact PrecForest.append (l := [.below 2]) (w := [1]) (hn 2 (by omega))
      (.leaf (ht 2 (by simp)) (hn 1 (by omega)))
  · refine .alt (j := 1) (a := ⟨1, .left, [0, 2, 0]⟩) (u := [1, 5, 1, 2, 1]) (v := [])
      (by decide +kernel) ?_ .nil
    refine .altBelow (j := 2) (a := ⟨1, .right, [0, 5, 0]⟩) (u := [1, 5, 1]) (v := [2, 1])
      (by decide +kernel) (by decide) ?_ (.leaf (ht 2 (by simp)) (hn 1 (by omega)))
    exact PrecForest.append (l := [.below 1]) (w := [1]) (hn 1 (by omega))
      (.leaf (ht 5 (by simp)) (hn 2 (by omega)))

end Verif
