import Verif.Proofs.Ll
import Verif.Proofs.Basic

/-! # Properties C41 – C47 and C76: FIRST, FOLLOW, LAST and the LL(1) table -/

namespace Verif

/-- `S ::= A B c | d`, `A ::= a A | ε`, `B ::= b | A`, `U ::= U`; symbols
`S A B a b c d U = 0 .. 7`. -/
def exPred : Cfg :=
  { src := ⟨8, [none, none, none, none, none, none, none, none]⟩
    rules := [⟨0, [1, 2, 5], {}⟩, ⟨0, [6], {}⟩, ⟨1, [3, 1], {}⟩, ⟨1, [], {}⟩, ⟨2, [4], {}⟩,
      ⟨2, [1], {}⟩, ⟨7, [7], {}⟩]
    roots := [0] }

theorem exPred_wf : exPred.WF := by decide +kernel

/-- **C41.** `FirstSets::new` terminates without panicking; the resulting map has an entry exactly
for the symbols with a rule, and the entry of `A` lists in strictly ascending order exactly the
terminals that can begin a string derived from `A`, with the flag set exactly when `A` derives
the empty string. -/
theorem C41_first {g : Cfg} (hwf : g.WF) :
    ∃ fs, g.firstSets = .ok fs ∧
      (∀ A, (fs.map A).isSome = true ↔ ∃ r ∈ g.rules, r.lhs = A) ∧
      ∀ A v, fs.map A = some v →
        v.list.Pairwise (· < ·) ∧
        (∀ a, a ∈ v.list ↔ FirstOf g.prod g.Term [A] a) ∧
        (v.hasNone = true ↔ Derives g.prod [A] []) := by
  obtain ⟨fs, e, h⟩ := firstSets_spec hwf
  refine ⟨fs, e, h.keys, fun A v hv => ?_⟩
  have hval : fs.map.val A = v := by simp [SetMap.val, hv]
  have hT : ¬ g.Term A := by
    obtain ⟨r, hr, e⟩ := (h.keys A).1 (by rw [hv]; rfl)
    exact fun ht => ht.2 r hr e
  rw [← hval]
  exact ⟨h.sorted A, h.first A hT, h.null A⟩

/-- The sets of `exPred`; `U` has the empty set without the flag. -/
example : (fun fs => [0, 1, 2, 3, 7].map fs.map) <$> exPred.firstSets =
    .ok [some ⟨false, [3, 4, 5, 6]⟩, some ⟨true, [3]⟩, some ⟨true, [3, 4]⟩, none,
      some ⟨false, []⟩] := by
  decide +kernel

/-- **C42, in part.** For every string of symbols of the grammar, `first_set_for_string` returns
the FIRST set of the first symbol whose FIRST set is not empty, and sets the flag exactly when
there is none. The result has no more than FIRST of the string if every symbol of the string is
productive, and no less if the nullable symbols at its front derive only the empty string.

Missing from the full statement: the two directions without these conditions, both of which are
false (`C42_violated_nullable`, `C42_violated_unproductive`). -/
theorem C42_string_partial {g : Cfg} (hwf : g.WF) (string : List Sym)
    (hb : ∀ s ∈ string, s < g.numSyms) :
    ∃ fs v, g.firstSets = .ok fs ∧ fs.firstSetForString string = .ok v ∧
      v.list.Pairwise (· < ·) ∧ (v.hasNone = true ↔ v.list = []) ∧
      (∀ a, a ∈ v.list ↔ ∃ pre x post, string = pre ++ x :: post ∧
        (∀ s ∈ pre, ∀ b, ¬ FirstOf g.prod g.Term [s] b) ∧ FirstOf g.prod g.Term [x] a) ∧
      ((∀ s ∈ string, Productive g.prod g.Term s) →
        (∀ a ∈ v.list, FirstOf g.prod g.Term string a) ∧
        (v.hasNone = true → Derives g.prod string [])) ∧
      (LeadsEmpty g.prod g.Term string →
        (∀ a, FirstOf g.prod g.Term string a → a ∈ v.list) ∧
        (Derives g.prod string [] → v.hasNone = true)) := by
  obtain ⟨fs, e, h⟩ := firstSets_spec hwf
  obtain ⟨v, e', hv⟩ := firstSetForString_spec h string hb
  exact ⟨fs, v, e, e', hv.sorted, hv.none_iff, hv.exact, hv.sound, hv.complete⟩

/-- `[B, c]` with `B` productive: `{a, b}`, the terminal `c` is missing. -/
example : (do let fs ← exPred.firstSets; fs.firstSetForString [2, 5]) =
    .ok ⟨false, [3, 4]⟩ := by decide +kernel

/-- In `exPred` every symbol other than `U` is productive. -/
example : ∀ s ∈ [2, 5], Productive exPred.prod exPred.Term s := by
  intro s hs
  rcases List.mem_cons.1 hs with rfl | hs
  · exact ⟨[4], .single ⟨2, [4], [], [], by decide, rfl, rfl⟩, by decide⟩
  · obtain rfl := List.mem_singleton.1 hs
    exact ⟨[5], .refl, by decide⟩

/-- **C42 does not hold.** In `exPred` the nullable symbol `B` is followed by `c`, so `c` can begin
a string derived from `B c`, but `first_set_for_string` leaves it out. -/
theorem C42_violated_nullable :
    exPred.WF ∧ FirstOf exPred.prod exPred.Term [2, 5] 5 ∧
      (do let fs ← exPred.firstSets; fs.firstSetForString [2, 5]) = .ok ⟨false, [3, 4]⟩ := by
  refine ⟨exPred_wf, ⟨by decide, [], ?_⟩, by decide +kernel⟩
  refine .head (b := [1, 5]) ⟨2, [1], [], [5], by decide, rfl, rfl⟩ ?_
  exact .single ⟨1, [], [], [5], by decide, rfl, rfl⟩

/-- **C42 does not hold.** In `exPred` the symbol `U` derives only itself, so no terminal can begin
a string derived from `U c`, but `first_set_for_string` returns `c`. -/
theorem C42_violated_unproductive :
    exPred.WF ∧ (∀ a, ¬ FirstOf exPred.prod exPred.Term [7, 5] a) ∧
      (do let fs ← exPred.firstSets; fs.firstSetForString [7, 5]) = .ok ⟨false, [5]⟩ := by
  refine ⟨exPred_wf, ?_, by decide +kernel⟩
  rintro a ⟨ht, γ, hd⟩
  have key : ∀ w, Derives exPred.prod [7, 5] w → w = [7, 5] := by
    intro w h
    induction h with
    | refl => rfl
    | tail _ hs ih =>
      subst ih
      obtain ⟨A, α, u, v, ⟨r, hr, rfl, rfl⟩, e, rfl⟩ := hs
      rcases u with _ | ⟨x, _ | ⟨y, u⟩⟩
      · simp only [List.nil_append, List.cons.injEq] at e
        obtain ⟨h1, rfl⟩ := e
        simp only [exPred, List.mem_cons, List.not_mem_nil, or_false] at hr
        rcases hr with rfl | rfl | rfl | rfl | rfl | rfl | rfl <;>
          first | exact absurd h1 (by decide) | rfl
      · simp only [List.cons_append, List.nil_append, List.cons.injEq] at e
        obtain ⟨rfl, h1, rfl⟩ := e
        simp only [exPred, List.mem_cons, List.not_mem_nil, or_false] at hr
        rcases hr with rfl | rfl | rfl | rfl | rfl | rfl | rfl <;>
          exact absurd h1 (by decide)
      · simp at e
  have := key _ hd
  simp only [List.cons.injEq] at this
  obtain ⟨rfl, rfl⟩ := this
  exact ht.2 ⟨7, [7], {}⟩ (by decide) rfl

/-- **C43.** `FollowSets::new` terminates without panicking; the map has an entry exactly for the
symbols with a rule, and the entry of `A` lists in strictly ascending order exactly the terminals
`a` for which some symbol derives a string where `a` comes immediately after `A`. -/
theorem C43_follow {g : Cfg} (hwf : g.WF) :
    ∃ m, g.followSets = .ok m ∧
      (∀ A, (m A).isSome = true ↔ ∃ r ∈ g.rules, r.lhs = A) ∧
      ∀ A v, m A = some v → v.list.Pairwise (· < ·) ∧
        ∀ a, a ∈ v.list ↔ FollowOf g.prod g.Term A a := by
  obtain ⟨fs, e, h⟩ := firstSets_spec hwf
  obtain ⟨m, e', hm⟩ := followSets_spec hwf h
  refine ⟨m, by simp only [Cfg.followSets, e, Res.bind_ok]; exact e', hm.keys, fun A v hv => ?_⟩
  have hval : m.val A = v := by simp [SetMap.val, hv]
  rw [← hval]
  exact ⟨hm.sorted A, hm.follow A ((hm.keys A).1 (by rw [hv]; rfl))⟩

/-- The FOLLOW sets of `exPred`. -/
example : (fun m => [0, 1, 2, 3, 7].map m) <$> exPred.followSets =
    .ok [some ⟨true, []⟩, some ⟨false, [3, 4, 5]⟩, some ⟨false, [5]⟩, none, some ⟨false, []⟩] := by
  decide +kernel

/-- **C44, in part.** The end-of-input flag is set exactly for the roots. So a flagged symbol does
end a string derived from a root, and every root is flagged.

Missing from the full statement: a symbol at the end of a string derived from a root is not
flagged unless it is a root (`C44_violated`). -/
theorem C44_end_partial {g : Cfg} (hwf : g.WF) :
    ∃ m, g.followSets = .ok m ∧
      ∀ A v, m A = some v →
        (v.hasNone = true ↔ A ∈ g.roots) ∧
        (v.hasNone = true → ∃ R ∈ g.roots, ∃ α, Derives g.prod [R] (α ++ [A])) := by
  obtain ⟨fs, e, h⟩ := firstSets_spec hwf
  obtain ⟨m, e', hm⟩ := followSets_spec hwf h
  refine ⟨m, by simp only [Cfg.followSets, e, Res.bind_ok]; exact e', fun A v hv => ?_⟩
  have hval : m.val A = v := by simp [SetMap.val, hv]
  have hl := (hm.keys A).1 (by rw [hv]; rfl)
  have : v.hasNone = true ↔ A ∈ g.roots := by
    rw [← hval, hm.root]
    exact ⟨fun h => h.1, fun h => ⟨h, hl⟩⟩
  exact ⟨this, fun hn => ⟨A, this.1 hn, [], .refl⟩⟩

/-- `S ::= a A`, `A ::= ε | B`, `B ::= ε`; symbols `S A B a = 0 .. 3`. -/
def exEnd : Cfg :=
  { src := ⟨4, [none, none, none, none]⟩
    rules := [⟨0, [3, 1], {}⟩, ⟨1, [], {}⟩, ⟨1, [2], {}⟩, ⟨2, [], {}⟩]
    roots := [0] }

theorem exEnd_wf : exEnd.WF := by decide +kernel

/-- **C44 does not hold.** In `exEnd` the root derives `a A`, but `A` is not flagged. -/
theorem C44_violated :
    exEnd.WF ∧ Derives exEnd.prod [0] [3, 1] ∧
      (fun m => m 1) <$> exEnd.followSets = .ok (some ⟨false, []⟩) :=
  ⟨exEnd_wf, .single ⟨0, [3, 1], [], [], by decide, rfl, rfl⟩, by decide +kernel⟩

theorem firstOf_reverse (g : Cfg) (A a : Sym) :
    FirstOf g.reverse.prod g.reverse.Term [A] a ↔ LastOf g.prod g.Term [A] a := by
  have hT : g.reverse.Term a ↔ g.Term a := by
    simp [Cfg.Term, Cfg.reverse, Cfg.numSyms]
  have hd : ∀ w, Derives g.reverse.prod [A] w ↔ Derives g.prod [A] w.reverse := by
    intro w
    constructor
    · intro d
      have := g.reverse.derives_reverse d
      rwa [Cfg.reverse_reverse, List.reverse_singleton] at this
    · intro d
      have := g.derives_reverse d
      rwa [List.reverse_reverse, List.reverse_singleton] at this
  simp only [FirstOf, LastOf, hT, hd]
  refine and_congr_right fun _ => ⟨?_, ?_⟩
  · rintro ⟨γ, h⟩; exact ⟨γ.reverse, by simpa using h⟩
  · rintro ⟨γ, h⟩; exact ⟨γ.reverse, by simpa using h⟩

/-- **C45.** `LastSets::new` terminates without panicking; the map has an entry exactly for the
symbols with a rule, and the entry of `A` lists in strictly ascending order exactly the terminals
that can end a string derived from `A`, with the flag set exactly when `A` derives the empty
string. -/
theorem C45_last {g : Cfg} (hwf : g.WF) :
    ∃ m, g.lastSets = .ok m ∧
      (∀ A, (m A).isSome = true ↔ ∃ r ∈ g.rules, r.lhs = A) ∧
      ∀ A v, m A = some v →
        v.list.Pairwise (· < ·) ∧
        (∀ a, a ∈ v.list ↔ LastOf g.prod g.Term [A] a) ∧
        (v.hasNone = true ↔ Derives g.prod [A] []) := by
  have hwf' : g.reverse.WF := by
    intro r hr
    simp only [Cfg.reverse, List.mem_map] at hr
    obtain ⟨r, hr, rfl⟩ := hr
    refine ⟨(hwf r hr).1, fun s hs => (hwf r hr).2 s ?_⟩
    simpa using hs
  obtain ⟨fs, e, hk, h⟩ := C41_first hwf'
  refine ⟨fs.map, by simp only [Cfg.lastSets, e, Res.bind_ok], fun A => ?_, fun A v hv => ?_⟩
  · rw [hk]; simp [Cfg.reverse]
  · obtain ⟨h1, h2, h3⟩ := h A v hv
    refine ⟨h1, fun a => (h2 a).trans (firstOf_reverse g A a), h3.trans ?_⟩
    constructor
    · intro d
      have := g.reverse.derives_reverse d
      rwa [Cfg.reverse_reverse] at this
    · exact fun d => g.derives_reverse d

/-- The LAST sets of `exPred`. -/
example : (fun m => [0, 1, 2, 3].map m) <$> exPred.lastSets =
    .ok [some ⟨false, [5, 6]⟩, some ⟨true, [3]⟩, some ⟨true, [3, 4]⟩, none] := by
  decide +kernel

/-- **C46, in part.** `LlParseTable::new` terminates without panicking; every cell lists rules of
its row in strictly ascending order, so without repetition. Each rule `A ::= w` in cell `(A, a)`
belongs there — `a` is in FIRST of `w`, or `w` derives the empty string and `a` is in FOLLOW of
`A` — if all symbols of `w` are productive. Each rule that belongs there is there if the nullable
symbols at the front of `w` derive only the empty string.

Missing from the full statement: the two directions without these conditions, both of which are
false (`C46_violated_missing`, `C46_violated_extra`). -/
theorem C46_cells_partial {g : Cfg} (hwf : g.WF) :
    ∃ t, g.llParseTable = .ok t ∧ ∀ A a,
      ((t.get? (A, a)).getD []).Pairwise (· < ·) ∧
      (∀ i ∈ (t.get? (A, a)).getD [], ∃ r, g.rules[i]? = some r ∧ r.lhs = A ∧
        ((∀ s ∈ r.rhs, Productive g.prod g.Term s) →
          FirstOf g.prod g.Term r.rhs a ∨
            (Derives g.prod r.rhs [] ∧ FollowOf g.prod g.Term A a))) ∧
      ∀ (i : Nat) (r : CfgRule), g.rules[i]? = some r → r.lhs = A →
        LeadsEmpty g.prod g.Term r.rhs →
        (FirstOf g.prod g.Term r.rhs a ∨
          (Derives g.prod r.rhs [] ∧ FollowOf g.prod g.Term A a)) →
        i ∈ (t.get? (A, a)).getD [] := by
  obtain ⟨t, e, -, h⟩ := llParseTable_spec hwf
  obtain ⟨fs, e₁, hfs⟩ := firstSets_spec hwf
  refine ⟨t, e, fun A a => ⟨(h A a).1, fun i hi => ?_, fun i r hr hA hp hc => ?_⟩⟩
  · obtain ⟨r, hr, hA, hE⟩ := ((h A a).2 i).1 hi
    refine ⟨r, hr, hA, fun hp => ?_⟩
    obtain ⟨v, -, hv⟩ := firstSetForString_spec hfs r.rhs
      (hwf r (List.mem_of_getElem? hr)).2
    rcases hE with hE | ⟨hE, hF⟩
    · exact .inl ((hv.sound hp).1 a ((hv.exact a).2 hE))
    · rw [hA] at hF
      exact .inr ⟨(hv.sound hp).2 (hv.none_iff.2 (hv.empty_iff.2 hE)), hF⟩
  · refine ((h A a).2 i).2 ⟨r, hr, hA, ?_⟩
    obtain ⟨v, -, hv⟩ := firstSetForString_spec hfs r.rhs
      (hwf r (List.mem_of_getElem? hr)).2
    rcases hc with hc | ⟨hn, hF⟩
    · exact .inl ((hv.exact a).1 ((hv.complete hp).1 a hc))
    · rw [← hA] at hF
      exact .inr ⟨hv.empty_iff.1 (hv.none_iff.1 ((hv.complete hp).2 hn)), hF⟩

/-- `S ::= ( S ) | N x`, `N ::= ε`, `S ::= ( x`; symbols `S N ( ) x = 0 .. 4`: all symbols are
productive and the only nullable symbol derives only the empty string. Cell `(S, '(')` holds two
rules, cell `(S, x)` the rule `S ::= N x`, cell `(N, x)` the rule `N ::= ε`. -/
def exLl : Cfg :=
  { src := ⟨5, [none, none, none, none, none]⟩
    rules := [⟨0, [2, 0, 3], {}⟩, ⟨0, [1, 4], {}⟩, ⟨1, [], {}⟩, ⟨0, [2, 4], {}⟩]
    roots := [0] }

theorem exLl_wf : exLl.WF := by decide +kernel

example : (fun t => [(0, 2), (0, 4), (1, 4), (1, 3)].map (LlTable.get? t)) <$> exLl.llParseTable =
    .ok [some [0, 3], some [1], some [2], none] := by decide +kernel

/-- **C46 does not hold.** In `exPred` the rule `S ::= A B c` derives a string that begins with
`c`, but the cell `(S, c)` is empty. -/
theorem C46_violated_missing :
    exPred.WF ∧ FirstOf exPred.prod exPred.Term [1, 2, 5] 5 ∧
      (fun t => LlTable.get? t (0, 5)) <$> exPred.llParseTable = .ok none := by
  refine ⟨exPred_wf, ⟨by decide, [], ?_⟩, by decide +kernel⟩
  refine .head (b := [2, 5]) ⟨1, [], [], [2, 5], by decide, rfl, rfl⟩ ?_
  refine .head (b := [1, 5]) ⟨2, [1], [], [5], by decide, rfl, rfl⟩ ?_
  exact .single ⟨1, [], [], [5], by decide, rfl, rfl⟩

/-- `S ::= U c`, `U ::= U`; symbols `S U c = 0 .. 2`. -/
def exLlExtra : Cfg :=
  { src := ⟨3, [none, none, none]⟩
    rules := [⟨0, [1, 2], {}⟩, ⟨1, [1], {}⟩]
    roots := [0] }

/-- **C46 does not hold.** In `exLlExtra` nothing derived from `U c` begins with `c`, and `U c`
does not derive the empty string, but the rule `S ::= U c` is in the cell `(S, c)`. -/
theorem C46_violated_extra :
    exLlExtra.WF ∧ (∀ w, Derives exLlExtra.prod [1, 2] w → w = [1, 2]) ∧
      (fun t => LlTable.get? t (0, 2)) <$> exLlExtra.llParseTable = .ok (some [0]) := by
  refine ⟨by decide +kernel, ?_, by decide +kernel⟩
  intro w h
  induction h with
  | refl => rfl
  | tail _ hs ih =>
    subst ih
    obtain ⟨A, α, u, v, ⟨r, hr, rfl, rfl⟩, e, rfl⟩ := hs
    rcases u with _ | ⟨x, _ | ⟨y, u⟩⟩
    · simp only [List.nil_append, List.cons.injEq] at e
      obtain ⟨h1, rfl⟩ := e
      simp only [exLlExtra, List.mem_cons, List.not_mem_nil, or_false] at hr
      rcases hr with rfl | rfl <;>
        first | exact absurd h1 (by decide) | rfl
    · simp only [List.cons_append, List.nil_append, List.cons.injEq] at e
      obtain ⟨rfl, h1, rfl⟩ := e
      simp only [exLlExtra, List.mem_cons, List.not_mem_nil, or_false] at hr
      rcases hr with rfl | rfl <;>
        exact absurd h1 (by decide)
    · simp at e

theorem llTable_bound {g : Cfg} (hwf : g.WF) {t : LlTable} (ht : TInv t)
    (h : ∀ A a, ∀ i : Nat, i ∈ t.cell (A, a) → ∃ r, g.rules[i]? = some r ∧ r.lhs = A) :
    ∀ e ∈ t, e.1.1 < g.numSyms := by
  intro e he
  have := (mem_cell ht (ht.ne e he)).1 he
  obtain ⟨i, hi⟩ := List.exists_mem_of_ne_nil _ (ht.ne e he)
  rw [← this] at hi
  obtain ⟨r, hr, e'⟩ := h e.1.1 e.1.2 i hi
  rw [← e']
  exact (hwf r (List.mem_of_getElem? hr)).1

/-- **C76.** `LlParseTable::classify` gives a class to exactly the nonterminals with a cell that is
not empty; the class is `ContextFree` exactly for those that reach a nonterminal with a cell that
holds two rules, and `Ll1` for the others. -/
theorem C76_classes {g : Cfg} (hwf : g.WF) :
    ∃ t c, g.llParseTable = .ok t ∧ g.llClassify t = .ok c ∧ ∀ A,
      (c A = none ↔ ∀ a, (t.get? (A, a)).getD [] = []) ∧
      (c A = some .contextFree ↔ (∃ a, (t.get? (A, a)).getD [] ≠ []) ∧
        ∃ B a, Reaches g.prod A B ∧ 2 ≤ ((t.get? (B, a)).getD []).length) ∧
      (c A = some .ll1 ↔ (∃ a, (t.get? (A, a)).getD [] ≠ []) ∧
        ∀ B a, Reaches g.prod A B → ((t.get? (B, a)).getD []).length < 2) := by
  obtain ⟨t, e, ht, h⟩ := llParseTable_spec hwf
  obtain ⟨c, e', hc⟩ := llClassify_spec hwf ht (llTable_bound hwf ht fun A a i hi =>
    let ⟨r, h1, h2, _⟩ := ((h A a).2 i).1 hi
    ⟨r, h1, h2⟩)
  refine ⟨t, c, e, e', fun A => ⟨(hc A).1, (hc A).2, ?_⟩⟩
  have h1 : (c A = none ↔ ∀ a, (t.get? (A, a)).getD [] = []) := (hc A).1
  have h2 : (c A = some .contextFree ↔ (∃ a, (t.get? (A, a)).getD [] ≠ []) ∧
        ∃ B a, Reaches g.prod A B ∧ 2 ≤ ((t.get? (B, a)).getD []).length) := (hc A).2
  cases hcA : c A with
  | none =>
    have := h1.1 hcA
    simp [this]
  | some k =>
    have hne : ∃ a, (t.get? (A, a)).getD [] ≠ [] := by
      by_contra hno
      push Not at hno
      rw [h1.2 hno] at hcA
      cases hcA
    cases k with
    | ll1 =>
      refine iff_of_true rfl ⟨hne, fun B a hB => ?_⟩
      by_contra hge
      have := h2.2 ⟨hne, B, a, hB, by omega⟩
      rw [hcA] at this
      cases this
    | contextFree =>
      refine ⟨fun h => (nomatch h), fun ⟨_, hlt⟩ => ?_⟩
      obtain ⟨-, B, a, hB, hge⟩ := h2.1 hcA
      have := hlt B a hB
      omega

/-- Classes of a grammar with a conflict in `B`, which `S` and `A` reach while `C` does not:
`S ::= A C`, `A ::= x B`, `B ::= y | y z`, `C ::= z`; symbols `S A B C x y z = 0 .. 6`. -/
def exLlClass : Cfg :=
  { src := ⟨7, [none, none, none, none, none, none, none]⟩
    rules := [⟨0, [1, 3], {}⟩, ⟨1, [4, 2], {}⟩, ⟨2, [5], {}⟩, ⟨2, [5, 6], {}⟩, ⟨3, [6], {}⟩]
    roots := [0] }

theorem exLlClass_wf : exLlClass.WF := by decide +kernel

example : (do let t ← exLlClass.llParseTable
              let c ← exLlClass.llClassify t
              .ok ([0, 1, 2, 3, 4].map c)) =
    .ok [some .contextFree, some .contextFree, some .contextFree, some .ll1, none] := by
  decide +kernel

/-- **C47, in part.** A nonterminal classified as `Ll1` has no cell with two rules, and one with
such a cell is classified as `ContextFree`. Missing from the full statement: the converse, since
`ContextFree` spreads to nonterminals that reach a conflict (`C47_violated`; C76 gives the exact
condition). -/
theorem C47_classes_partial {g : Cfg} (hwf : g.WF) :
    ∃ t c, g.llParseTable = .ok t ∧ g.llClassify t = .ok c ∧ ∀ A,
      (c A = some .ll1 → ∀ a, ((t.get? (A, a)).getD []).length < 2) ∧
      ((∃ a, 2 ≤ ((t.get? (A, a)).getD []).length) → c A = some .contextFree) := by
  obtain ⟨t, c, e, e', h⟩ := C76_classes hwf
  refine ⟨t, c, e, e', fun A => ⟨fun hc a => ((h A).2.2.1 hc).2 A a (Reaches.refl A), ?_⟩⟩
  rintro ⟨a, ha⟩
  refine (h A).2.1.2 ⟨⟨a, fun e => ?_⟩, A, a, Reaches.refl A, ha⟩
  rw [e] at ha
  simp at ha

/-- **C47 does not hold.** In `exLlClass` no cell of the row of `A` holds two rules, but `A` is
classified as `ContextFree`. -/
theorem C47_violated :
    exLlClass.WF ∧
    (do let t ← exLlClass.llParseTable
        let c ← exLlClass.llClassify t
        .ok (t.filter (fun (e : (Sym × Sym) × List Nat) => e.1.1 = 1), c 1)) =
    .ok ([((1, 4), [1])], some .contextFree) := ⟨exLlClass_wf, by decide +kernel⟩

/-- The table has no column for the end of input: in `exEnd` the string `a` has two parse trees
(by `A ::= ε` and by `A ::= B`, `B ::= ε`), so the grammar is not LL(1), but no nonterminal is
classified as `ContextFree`. -/
example : (do let t ← exEnd.llParseTable
              let c ← exEnd.llClassify t
              .ok ([0, 1, 2].map c)) = .ok [some .ll1, none, none] := by
  decide +kernel

end Verif
