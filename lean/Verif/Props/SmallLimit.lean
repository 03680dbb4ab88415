import Verif.Props.Binarize
import Verif.Props.Cycles
import Verif.Props.Precedence
import Verif.Props.SequenceMany

/-! # Property C136: operations under a length limit of zero or one symbol -/

namespace Verif

/-- The same outcome with a length limit as without one, or no return at all: `g` has the limit
`n` and `h` none; they agree except that, for the limit 0, rules with an empty right side may be
missing in `g`. -/
structure Cfg.Low (n : Nat) (g h : Cfg) : Prop where
  limit : g.rhsLenInvariant = some n
  free : h.rhsLenInvariant = none
  src : g.src = h.src
  roots : g.roots = h.roots
  wrapped : g.wrappedRoots = h.wrappedRoots
  sub : g.rules.Sublist h.rules
  nonempty : (g.rules.filter fun r => !r.rhs.isEmpty) = h.rules.filter fun r => !r.rhs.isEmpty
  one : n = 1 → g.rules = h.rules

/-- `a` does not return, or it ends as `b` does with related values. -/
inductive Res.Low {α β : Type} (R : α → β → Prop) : Res α → Res β → Prop
  | diverge (b : Res β) : Res.Low R .diverge b
  | panic : Res.Low R .panic .panic
  | ok {x : α} {y : β} (h : R x y) : Res.Low R (.ok x) (.ok y)

namespace Res.Low

variable {α β γ δ : Type} {R : α → β → Prop} {S : γ → δ → Prop}

theorem bind {a : Res α} {b : Res β} {f : α → Res γ} {k : β → Res δ} (h : Res.Low R a b)
    (hf : ∀ x y, R x y → Res.Low S (f x) (k y)) : Res.Low S (a >>= f) (b >>= k) := by
  cases h with
  | diverge => exact .diverge _
  | panic => exact .panic
  | ok h => exact hf _ _ h

theorem refl (a : Res α) : Res.Low (fun x y => x = y) a a := by
  cases a
  · exact .ok rfl
  · exact .panic
  · exact .diverge _

theorem ok_left {a : Res α} {b : Res β} (h : Res.Low R a b) {x : α} (e : a = .ok x) :
    ∃ y, b = .ok y ∧ R x y := by
  cases h with
  | diverge => cases e
  | panic => cases e
  | ok h => cases e; exact ⟨_, rfl, h⟩

theorem cases_right {a : Res α} {b : Res β} (h : Res.Low R a b) {y : β} (e : b = .ok y) :
    a = .diverge ∨ ∃ x, a = .ok x ∧ R x y := by
  cases h with
  | diverge => exact .inl rfl
  | panic => cases e
  | ok h => cases e; exact .inr ⟨_, rfl, h⟩

theorem foldlM {ι : Type} {f : α → ι → Res α} {k : β → ι → Res β}
    (hf : ∀ i x y, R x y → Res.Low R (f x i) (k y i)) (l : List ι) {x : α} {y : β} (h : R x y) :
    Res.Low R (l.foldlM f x) (l.foldlM k y) := by
  induction l generalizing x y with
  | nil => exact .ok h
  | cons i l ih =>
    rw [List.foldlM_cons, List.foldlM_cons]
    exact (hf i x y h).bind fun _ _ h => ih h

end Res.Low

namespace Cfg

/-- `add_rule` under the limits 0 and 1. -/
theorem addRule_small (g : Cfg) (r : CfgRule) :
    (g.rhsLenInvariant = some 1 → r.rhs.length ≤ 1 → g.addRule r = .ok (g.pushRule r, 1)) ∧
    (g.rhsLenInvariant = some 1 → 2 ≤ r.rhs.length → g.addRule r = .diverge) ∧
    (g.rhsLenInvariant = some 0 → r.rhs = [] → g.addRule r = .ok (g, 0)) ∧
    (g.rhsLenInvariant = some 0 → r.rhs ≠ [] → g.addRule r = .diverge) := by
  refine ⟨fun hg hle => ?_, fun hg hle => ?_, fun hg e => ?_, fun hg e => ?_⟩
  · have hend : g.rhsLenEnd = 1 := by simp [rhsLenEnd, hg]
    unfold addRule
    by_cases e : r.rhs.length < 1
    · simp [rhsLenAllowed, hg, e]
    · have : r.rhs ≠ [] := by intro e'; simp [e'] at e
      simp only [rhsLenAllowed, hg, e, decide_false, Bool.false_eq_true, if_false]
      rw [addRuleLoop_last r _ g r.rhs 0 this (by omega) r.history (by simp)]
  · unfold addRule
    have e : ¬ r.rhs.length < 1 := by omega
    simp only [rhsLenAllowed, hg, e, decide_false, Bool.false_eq_true, if_false]
    exact (C15_violated_no_return r _ 0 g).1 hg hle
  · unfold addRule
    simp [rhsLenAllowed, hg, e, addRuleLoop]
  · unfold addRule
    have e' : ¬ r.rhs.length < 0 := by omega
    simp only [rhsLenAllowed, hg, e', decide_false, Bool.false_eq_true, if_false]
    exact (C15_violated_no_return r _ 0 g).2 hg (List.length_pos_iff.2 e)

namespace Low

variable {n : Nat} {g h : Cfg}

theorem refl (g : Cfg) (n : Nat) (hg : g.rhsLenInvariant = some n) :
    Low n g { g with rhsLenInvariant := none } :=
  ⟨hg, rfl, rfl, rfl, rfl, .refl _, rfl, fun _ => rfl⟩

theorem nextSym (hl : Low n g h) (name : Option String) :
    (g.nextSym name).1 = (h.nextSym name).1 ∧ Low n (g.nextSym name).2 (h.nextSym name).2 := by
  have e : g.src.nextSym name = h.src.nextSym name := by rw [hl.src]
  refine ⟨congrArg (fun x : Sym × SymbolSource => x.1) e, ⟨hl.limit, hl.free, congrArg (fun x : Sym × SymbolSource => x.2) e, hl.roots, hl.wrapped, hl.sub,
    hl.nonempty, hl.one⟩⟩

theorem addRule (hl : Low n g h) (hn : n < 2) (r : CfgRule) :
    Res.Low (fun x y : Cfg × Nat => Low n x.1 y.1) (g.addRule r) (h.addRule r) := by
  obtain ⟨h1, h2, h3, h4⟩ := addRule_small g r
  have hfree : h.addRule r = .ok (h.pushRule r, 1) := by
    unfold Cfg.addRule
    simp [rhsLenAllowed, hl.free]
  rw [hfree]
  obtain rfl | rfl : n = 0 ∨ n = 1 := by omega
  · by_cases e : r.rhs = []
    · rw [h3 hl.limit e]
      refine .ok ⟨hl.limit, hl.free, hl.src, hl.roots, hl.wrapped,
        hl.sub.trans (List.sublist_append_left _ _), ?_, by simp⟩
      have := hl.nonempty
      simp [pushRule, List.filter_append, e, this]
    · rw [h4 hl.limit e]; exact .diverge _
  · by_cases e : r.rhs.length ≤ 1
    · rw [h1 hl.limit e]
      have := hl.one rfl
      exact .ok ⟨hl.limit, hl.free, hl.src, hl.roots, hl.wrapped, by simp [pushRule, this],
        by simp [pushRule, this], fun _ => by simp [pushRule, this]⟩
    · rw [h2 hl.limit (by omega)]; exact .diverge _

theorem addRules (hl : Low n g h) (hn : n < 2) (rules : List CfgRule) :
    Res.Low (Low n) (g.addRules rules) (h.addRules rules) := by
  unfold Cfg.addRules
  exact Res.Low.foldlM (fun r x y h => (h.addRule hn r).bind fun _ _ h => .ok h) rules hl

theorem wrapInput (hl : Low n g h) (hn : n < 2) : Res.Low (Low n) g.wrapInput h.wrapInput := by
  unfold Cfg.wrapInput
  rw [hl.roots]
  refine Res.Low.foldlM (fun r x y h => ?_) _ ?_
  · obtain ⟨e1, h1⟩ := h.nextSym (some "root")
    obtain ⟨e2, h2⟩ := h1.nextSym (some "start_of_input")
    obtain ⟨e3, h3⟩ := h2.nextSym (some "end_of_input")
    unfold wrapOne
    simp only [e1, e2, e3]
    exact (h3.addRule hn _).bind fun x y h => .ok ⟨h.limit, h.free, h.src, by simp [h.roots],
      by simp [h.wrapped], h.sub, h.nonempty, h.one⟩
  · exact ⟨hl.limit, hl.free, hl.src, rfl, rfl, hl.sub, hl.nonempty, hl.one⟩

/-! Precedenced rules -/

/-- Builders over related grammars. -/
def Prec (n : Nat) (b c : PrecBuilder) : Prop := Low n b.g c.g ∧ b = { c with g := b.g }

theorem ruleBuilder (hl : Low n g h) (hn : n < 2) (b : RuleBuilder) (syms : List Sym) (hist : History) :
    Res.Low (fun x y : RuleBuilder × Cfg => Low n x.2 y.2) (b.rhsWithHistory g syms hist)
      (b.rhsWithHistory h syms hist) := by
  unfold RuleBuilder.rhsWithHistory
  refine (Res.Low.refl (Res.ofOption b.lhs)).bind ?_
  rintro x _ rfl
  exact (hl.addRule hn _).bind fun _ _ h => .ok h

theorem prec_rhs (hn : n < 2) {b c : PrecBuilder} (hb : Prec n b c) (syms : List Sym) (hist : History) :
    Res.Low (Prec n) (b.rhsWithHistory syms hist) (c.rhsWithHistory syms hist) := by
  obtain ⟨hl, e⟩ := hb
  obtain ⟨bg, lhs, tighter, current, history, assoc, looseness, group⟩ := b
  obtain ⟨cg, lhs', tighter', current', history', assoc', looseness', group'⟩ := c
  simp only [PrecBuilder.mk.injEq, true_and] at e
  obtain ⟨rfl, rfl, rfl, rfl, rfl, rfl, rfl⟩ := e
  unfold PrecBuilder.rhsWithHistory
  refine (Res.Low.refl _).bind ?_
  rintro x _ rfl
  cases assoc
  · exact (hl.addRule hn _).bind fun _ _ h => .ok ⟨h, rfl⟩
  · exact (hl.addRule hn _).bind fun _ _ h => .ok ⟨h, rfl⟩
  · exact .ok ⟨hl, rfl⟩

theorem prec_call (hn : n < 2) {b c : PrecBuilder} (hb : Prec n b c) (call : PrecCall) :
    Res.Low (Prec n) (b.call call) (c.call call) := by
  have hb' := hb
  obtain ⟨hl, e⟩ := hb
  cases call with
  | history x => exact .ok ⟨hl, by rw [e]⟩
  | rhs syms =>
    obtain ⟨bg, lhs, tighter, current, history, assoc, looseness, group⟩ := b
    obtain ⟨cg, lhs', tighter', current', history', assoc', looseness', group'⟩ := c
    simp only [PrecBuilder.mk.injEq, true_and] at e
    obtain ⟨rfl, rfl, rfl, rfl, rfl, rfl, rfl⟩ := e
    unfold PrecBuilder.call
    refine prec_rhs hn ?_ _ _
    exact ⟨hl, rfl⟩
  | rhsWithHistory syms x => exact prec_rhs hn hb' _ _
  | associativity a => exact .ok ⟨hl, by rw [e]⟩
  | lowerPrecedence =>
    unfold PrecBuilder.call PrecBuilder.lowerPrecedence
    obtain ⟨e1, h1⟩ := hl.nextSym none
    have : b.current = c.current ∧ b.looseness = c.looseness := by rw [e]; exact ⟨rfl, rfl⟩
    simp only [this, e1]
    refine (h1.ruleBuilder hn _ _ _).bind fun x y h => .ok ⟨h, ?_⟩
    simp only
    rw [e]

theorem prec_run (hn : n < 2) (calls : List PrecCall) {b c : PrecBuilder} (hb : Prec n b c) :
    Res.Low (Prec n) (b.run calls) (c.run calls) := by
  induction calls generalizing b c with
  | nil => exact .ok hb
  | cons call calls ih => exact (prec_call hn hb call).bind fun _ _ h => ih h

theorem addGroup (hn : n < 2) (lhs loosest : Sym) (rules : List CfgRule) {g h : Cfg} (hl : Low n g h) :
    Res.Low (Low n) (PrecBuilder.addGroup lhs loosest g rules)
      (PrecBuilder.addGroup lhs loosest h rules) := by
  induction rules generalizing g h with
  | nil => exact .ok hl
  | cons r rules ih => exact (hl.addRule hn _).bind fun _ _ h => ih h

theorem precedencedRule (hl : Low n g h) (hn : n < 2) (lhs : Sym) (calls : List PrecCall) :
    Res.Low (Low n) (g.precedencedRule lhs calls) (h.precedencedRule lhs calls) := by
  obtain ⟨e1, h1⟩ := hl.nextSym none
  have hnew : Prec n (PrecBuilder.new g lhs) (PrecBuilder.new h lhs) := by
    refine ⟨h1, ?_⟩
    unfold PrecBuilder.new
    simp only [e1]
  unfold Cfg.precedencedRule
  refine (prec_run hn calls hnew).bind ?_
  rintro b c ⟨h2, e⟩
  unfold PrecBuilder.finalize
  have : b.lhs = c.lhs ∧ b.current = c.current ∧ b.group = c.group := by
    rw [e]; exact ⟨rfl, rfl, rfl⟩
  simp only [this]
  exact (addGroup hn _ _ _ h2).bind fun _ _ h => (h.ruleBuilder hn _ _ _).bind fun _ _ h => .ok h

/-! Sequence rules -/

/-- States over related grammars. -/
def Seq (n : Nat) (s t : SeqState) : Prop := Low n s.g t.g ∧ s = { t with g := s.g }

theorem seq_recurse {s t : SeqState} (hs : Seq n s t) (seq : Sequence) :
    (s.recurse seq).1 = (t.recurse seq).1 ∧ Seq n (s.recurse seq).2 (t.recurse seq).2 := by
  obtain ⟨hl, e⟩ := hs
  obtain ⟨sg, stack, map, top, lhs⟩ := s
  obtain ⟨tg, stack', map', top', lhs'⟩ := t
  simp only [SeqState.mk.injEq, true_and] at e
  obtain ⟨rfl, rfl, rfl, rfl⟩ := e
  unfold SeqState.recurse
  simp only
  cases map.lookup seq.key with
  | some x => exact ⟨rfl, hl, rfl⟩
  | none =>
    obtain ⟨e1, h1⟩ := hl.nextSym none
    simp only [e1]
    exact ⟨trivial, h1, rfl⟩

theorem seq_rhs (hn : n < 2) {s t : SeqState} (hs : Seq n s t) (rhs : List Sym) :
    Res.Low (Seq n) (s.rhs rhs) (t.rhs rhs) := by
  obtain ⟨hl, e⟩ := hs
  obtain ⟨sg, stack, map, top, lhs⟩ := s
  obtain ⟨tg, stack', map', top', lhs'⟩ := t
  simp only [SeqState.mk.injEq, true_and] at e
  obtain ⟨rfl, rfl, rfl, rfl⟩ := e
  unfold SeqState.rhs
  split
  · exact .panic
  · refine (Res.Low.refl _).bind ?_
    rintro x _ rfl
    exact (hl.addRule hn _).bind fun _ _ h => .ok ⟨h, rfl⟩

/-- Two rules in a row. -/
theorem seq_rhs2 (hn : n < 2) {s t : SeqState} (hs : Seq n s t) (a b : List Sym) :
    Res.Low (Seq n) (do let s ← s.rhs a; s.rhs b) (do let t ← t.rhs a; t.rhs b) :=
  (seq_rhs hn hs a).bind fun _ _ h => seq_rhs hn h b

theorem seq_positive (hn : n < 2) (p : Profile) {s t : SeqState} (hs : Seq n s t) (seq : Sequence) :
    Res.Low (Seq n) (s.reducePositive p seq) (t.reducePositive p seq) := by
  unfold SeqState.reducePositive
  simp only
  split
  · split
    · cases seq.separator <;> exact seq_rhs2 hn hs _ _
    · split
      · exact seq_rhs hn hs _
      · split
        · obtain ⟨e1, h1⟩ := seq_recurse hs (seq.closed 1 1)
          obtain ⟨e2, h2⟩ := seq_recurse h1 (seq.closed 2 2)
          simp only [e1, e2]
          exact seq_rhs2 hn h2 _ _
        · refine (Res.Low.refl _).bind ?_
          rintro x _ rfl
          refine (Res.Low.refl _).bind ?_
          rintro y _ rfl
          obtain ⟨e1, h1⟩ := seq_recurse hs (seq.closed 1 (x / 2))
          obtain ⟨e2, h2⟩ := seq_recurse h1
            ((seq.closed (x / 2) (x / 2)).withSeparator seq.separator.prefixSeparator)
          obtain ⟨e3, h3⟩ := seq_recurse h2 (seq.closed 1 y)
          simp only [e1, e2, e3]
          exact seq_rhs2 hn h3 _ _
  · split
    · cases seq.separator <;> exact seq_rhs hn hs _
    · have key : ∀ x y : Sequence, Res.Low (Seq n)
          (((s.recurse (x.withSeparator seq.separator.prefixSeparator)).2.recurse
              (y.withSeparator seq.separator)).2.rhs
            [(s.recurse (x.withSeparator seq.separator.prefixSeparator)).1,
              ((s.recurse (x.withSeparator seq.separator.prefixSeparator)).2.recurse
                (y.withSeparator seq.separator)).1])
          (((t.recurse (x.withSeparator seq.separator.prefixSeparator)).2.recurse
              (y.withSeparator seq.separator)).2.rhs
            [(t.recurse (x.withSeparator seq.separator.prefixSeparator)).1,
              ((t.recurse (x.withSeparator seq.separator.prefixSeparator)).2.recurse
                (y.withSeparator seq.separator)).1]) := by
        intro x y
        obtain ⟨e1, h1⟩ := seq_recurse hs (x.withSeparator seq.separator.prefixSeparator)
        obtain ⟨e2, h2⟩ := seq_recurse h1 (y.withSeparator seq.separator)
        rw [e1, e2]
        exact seq_rhs hn h2 _
      split
      · refine (Res.Low.refl _).bind ?_
        rintro x _ rfl
        refine (Res.Low.refl _).bind ?_
        rintro y _ rfl
        exact key _ _
      · refine (Res.Low.refl _).bind ?_
        rintro x _ rfl
        split
        · exact key _ _
        · refine (Res.Low.refl _).bind ?_
          rintro y _ rfl
          refine (Res.Low.refl _).bind ?_
          rintro z _ rfl
          exact key _ _

theorem seq_reduce (hn : n < 2) (p : Profile) {s t : SeqState} (hs : Seq n s t) (seq : Sequence) :
    Res.Low (Seq n) (s.reduce p seq) (t.reduce p seq) := by
  have hs' : Seq n { s with lhs := seq.lhs } { t with lhs := seq.lhs } := by
    obtain ⟨hl, e⟩ := hs
    exact ⟨hl, by rw [e]⟩
  have hzero : Res.Low (Seq n)
      (do let st ← SeqState.rhs { s with lhs := seq.lhs } []
          let x := st.recurse (seq.inclusive 1 seq.stop)
          x.2.rhs [x.1])
      (do let st ← SeqState.rhs { t with lhs := seq.lhs } []
          let x := st.recurse (seq.inclusive 1 seq.stop)
          x.2.rhs [x.1]) := by
    refine (seq_rhs hn hs' []).bind fun x y h => ?_
    obtain ⟨e1, h1⟩ := seq_recurse h (seq.inclusive 1 seq.stop)
    simp only [e1]
    exact seq_rhs hn h1 _
  unfold SeqState.reduce
  simp only
  split
  · rename_i sep _
    obtain ⟨e1, h1⟩ := seq_recurse hs' (seq.withSeparator (.proper sep))
    obtain ⟨e2, h2⟩ := seq_recurse h1 (seq.withSeparator (.trailing sep))
    simp only [e1, e2]
    exact seq_rhs2 hn h2 _ _
  · split
    · split
      · exact seq_rhs hn hs' _
      · exact hzero
    · split
      · rename_i sep _
        obtain ⟨e1, h1⟩ := seq_recurse hs' (seq.withSeparator (.proper sep))
        simp only [e1]
        exact seq_rhs hn h1 _
      · exact seq_positive hn p hs' seq

theorem seq_loop (hn : n < 2) (p : Profile) (fuel : Nat) {s t : SeqState} (hs : Seq n s t) :
    Res.Low (Seq n) (SeqState.loop p fuel s) (SeqState.loop p fuel t) := by
  induction fuel generalizing s t with
  | zero =>
    have e : s.stack = t.stack := by rw [hs.2]
    unfold SeqState.loop
    rw [e]
    cases t.stack
    · exact .ok hs
    · exact .diverge _
  | succ fuel ih =>
    have e : s.stack = t.stack := by rw [hs.2]
    unfold SeqState.loop
    rw [e]
    cases t.stack with
    | nil => exact .ok hs
    | cons seq stack =>
      simp only
      split
      · exact (seq_reduce hn p (s := { s with stack := stack }) (t := { t with stack := stack })
          ⟨hs.1, by rw [hs.2]⟩ seq).bind fun _ _ h => ih h
      · exact .panic

theorem rewriteSequence (hl : Low n g h) (hn : n < 2) (p : Profile) (top : Sequence) :
    Res.Low (Low n) (g.rewriteSequence p top) (h.rewriteSequence p top) := by
  unfold Cfg.rewriteSequence
  refine (Res.Low.refl _).bind ?_
  rintro x _ rfl
  refine (seq_reduce hn p (s := { g := g, top := x }) (t := { g := h, top := x })
    ⟨hl, rfl⟩ top).bind fun s t h1 => ?_
  refine (Res.Low.refl _).bind ?_
  rintro y _ rfl
  exact (seq_loop hn p seqFuel (s := { s with top := y }) (t := { t with top := y })
    ⟨h1.1, by rw [h1.2]⟩).bind fun _ _ h => .ok h.1

theorem rewriteSequences (hl : Low n g h) (hn : n < 2) (p : Profile) (tops : List Sequence) :
    Res.Low (Low n) (g.rewriteSequences p tops) (h.rewriteSequences p tops) := by
  unfold Cfg.rewriteSequences
  exact Res.Low.foldlM (fun top x y h => h.rewriteSequence hn p top) tops hl

end Low

end Cfg

/-- The grammar without a length limit. -/
def Cfg.unlimited (g : Cfg) : Cfg := { g with rhsLenInvariant := none }

/-- Rewriting cycles under a small limit. -/
theorem Cycles.rewriteCycles_low {n : Nat} {g : Cfg} (hn : n < 2) (hg : g.rhsLenInvariant = some n)
    (m : BitMatrix) :
    Res.Low (fun x y : Cycles => Cfg.Low n x.grammar y.grammar)
      (Cycles.rewriteCycles ⟨g, m, none⟩) (Cycles.rewriteCycles ⟨g.unlimited, m, none⟩) := by
  have hl : Cfg.Low n g g.unlimited := Cfg.Low.refl g n hg
  unfold Cycles.rewriteCycles Cycles.isCycleFree
  refine Res.Low.bind (R := fun x y => x.1 = y.1 ∧ x.2 = ⟨g, m, some x.1⟩ ∧
    y.2 = ⟨g.unlimited, m, some x.1⟩) ?_ ?_
  · refine (Res.Low.refl _).bind ?_
    rintro x _ rfl
    exact .ok ⟨rfl, rfl, rfl⟩
  · rintro ⟨b, x⟩ ⟨b', y⟩ ⟨e1, e2, e3⟩
    simp only at e1 e2 e3
    subst e1 e2 e3
    cases b
    · refine (Res.Low.refl _).bind ?_
      rintro ⟨tr, rules⟩ _ rfl
      have hl' : Cfg.Low n { g with rules := rules.filter fun rule => !tr.changes rule }
          { g.unlimited with rules := rules.filter fun rule => !tr.changes rule } :=
        ⟨hl.limit, hl.free, rfl, rfl, rfl, .refl _, rfl, fun _ => rfl⟩
      exact (hl'.addRules hn _).bind fun x y h => .ok h
    · exact .ok hl

/-! ## C136 -/

/-- **C136**, `add_rule`: under a limit of 1 a rule of two or more symbols makes the call run
forever and a shorter one is stored as it is; under a limit of 0 every rule with a symbol makes the
call run forever, and a rule without symbols is dropped. -/
theorem C136_add (g : Cfg) (r : CfgRule) :
    (g.rhsLenInvariant = some 1 →
      (g.addRule r = .diverge ↔ 2 ≤ r.rhs.length) ∧
      (r.rhs.length ≤ 1 → g.addRule r = .ok ({ g with rules := g.rules ++ [r] }, 1))) ∧
    (g.rhsLenInvariant = some 0 →
      (g.addRule r = .diverge ↔ r.rhs ≠ []) ∧ (r.rhs = [] → g.addRule r = .ok (g, 0))) := by
  obtain ⟨h1, h2, h3, h4⟩ := Cfg.addRule_small g r
  refine ⟨fun hg => ⟨⟨fun h => ?_, h2 hg⟩, h1 hg⟩, fun hg => ⟨⟨fun h e => ?_, h4 hg⟩, h3 hg⟩⟩
  · by_contra hlt
    rw [h1 hg (by omega)] at h
    cases h
  · rw [h3 hg e] at h
    cases h

/-- **C136**, `wrap_input`: under a limit of 0 or 1 it returns exactly when the grammar has no
root. -/
theorem C136_wrap (g : Cfg) (n : Nat) (hn : n < 2) (hg : g.rhsLenInvariant = some n) :
    (g.roots ≠ [] → g.wrapInput = .diverge) ∧
    (g.roots = [] → g.wrapInput = .ok { g with wrappedRoots := [] }) := by
  constructor
  · intro h
    obtain ⟨r, rs, e⟩ := List.exists_cons_of_ne_nil h
    unfold Cfg.wrapInput
    rw [e, List.foldlM_cons]
    have : ∀ x : Cfg, x.rhsLenInvariant = some n → x.wrapOne r = .diverge := by
      intro x hx
      unfold Cfg.wrapOne
      simp only
      have : ∀ (y : Cfg) (a b c : Sym) (k : History), y.rhsLenInvariant = some n →
          y.addRule ⟨a, [b, r, c], k⟩ = .diverge := by
        intro y a b c k hy
        obtain ⟨-, h2, -, h4⟩ := Cfg.addRule_small y ⟨a, [b, r, c], k⟩
        obtain rfl | rfl : n = 0 ∨ n = 1 := by omega
        · exact h4 hy (by simp)
        · exact h2 hy (by simp)
      rw [this _ _ _ _ _ (by exact hx)]
      rfl
    rw [this _ (by exact hg)]
    rfl
  · intro h
    unfold Cfg.wrapInput
    rw [h]
    obtain ⟨src, rules, roots, wrapped, limit⟩ := g
    simp only at h
    subst h
    rfl

/-- What a call does under a limit of `n`, compared with the same call without a limit: it does not
return, or both panic, or both return and the results differ at most in rules with an empty right
side missing under the limit; under the limit 1 they do not differ. -/
def SameUnder (n : Nat) (a b : Res Cfg) : Prop :=
  a = .diverge ∨ (a = .panic ∧ b = .panic) ∨
  ∃ g' h', a = .ok g' ∧ b = .ok h' ∧ g'.rhsLenInvariant = some n ∧
    (n = 1 → g' = { h' with rhsLenInvariant := some 1 }) ∧
    g' = { h' with rhsLenInvariant := some n, rules := g'.rules } ∧
    g'.rules.Sublist h'.rules ∧ ∀ r ∈ h'.rules, r.rhs ≠ [] → r ∈ g'.rules

theorem Res.Low.same {n : Nat} {a b : Res Cfg} (h : Res.Low (Cfg.Low n) a b) : SameUnder n a b := by
  cases h with
  | diverge => exact .inl rfl
  | panic => exact .inr (.inl ⟨rfl, rfl⟩)
  | @ok x y h =>
    obtain ⟨h1, h2, h3, h4, h5, h6, h7, h8⟩ := h
    obtain ⟨src, rules, roots, wrapped, limit⟩ := x
    obtain ⟨src', rules', roots', wrapped', limit'⟩ := y
    simp only at h1 h2 h3 h4 h5 h6 h7 h8
    subst h1 h2 h3 h4 h5
    refine .inr (.inr ⟨_, _, rfl, rfl, rfl, fun e => ?_, rfl, h6, fun r hr e => ?_⟩)
    · subst e
      have := h8 rfl
      subst this
      rfl
    · have : r ∈ rules'.filter fun r => !r.rhs.isEmpty := List.mem_filter.2 ⟨hr, by simpa using e⟩
      rw [← h7] at this
      exact List.mem_of_mem_filter this

/-- **C136**, rewriting sequence rules, precedenced rules, adding and wrapping: under a limit of 0
or 1 each of these calls does not return or does the same as without a limit, except that under the
limit 0 rules with an empty right side are lost. -/
theorem C136_same (g : Cfg) (n : Nat) (hn : n < 2) (hg : g.rhsLenInvariant = some n) :
    (∀ rules, SameUnder n (g.addRules rules) (g.unlimited.addRules rules)) ∧
    SameUnder n g.wrapInput g.unlimited.wrapInput ∧
    (∀ lhs calls, SameUnder n (g.precedencedRule lhs calls) (g.unlimited.precedencedRule lhs calls)) ∧
    (∀ p tops, SameUnder n (g.rewriteSequences p tops) (g.unlimited.rewriteSequences p tops)) ∧
    ∀ m : BitMatrix, SameUnder n
      (do .ok (← Cycles.rewriteCycles ⟨g, m, none⟩).grammar)
      (do .ok (← Cycles.rewriteCycles ⟨g.unlimited, m, none⟩).grammar) := by
  have hl : Cfg.Low n g g.unlimited := Cfg.Low.refl g n hg
  exact ⟨fun rules => (hl.addRules hn rules).same, (hl.wrapInput hn).same,
    fun lhs calls => (hl.precedencedRule hn lhs calls).same,
    fun p tops => (hl.rewriteSequences hn p tops).same,
    fun m => ((Cycles.rewriteCycles_low hn hg m).bind fun _ _ h => .ok h).same⟩

/-- **C37**, for every limit: the call does not return, which happens
only under a limit of 0 or 1, or the result is reported as cycle free. -/
theorem C37_every_limit {g : Cfg} (hwf : g.WF) :
    ∃ c, Cycles.new g = .ok c ∧
      ((c.rewriteCycles = .diverge ∧ (g.rhsLenInvariant = some 0 ∨ g.rhsLenInvariant = some 1)) ∨
        ∃ c', c.rewriteCycles = .ok c' ∧
          ∃ d d', Cycles.new c'.grammar = .ok d ∧ d.isCycleFree = .ok (true, d')) := by
  by_cases hlim : g.LimitOk
  · obtain ⟨c, c', h1, h2, h3⟩ := C37_cycle_free hwf hlim
    exact ⟨c, h1, .inr ⟨c', h2, h3⟩⟩
  · obtain ⟨n, hg, hn⟩ : ∃ n, g.rhsLenInvariant = some n ∧ n < 2 := by
      unfold Cfg.LimitOk at hlim
      push Not at hlim
      exact hlim
    obtain ⟨m, hm, -⟩ := Cfg.unitDerivation_spec hwf
    have hm' : g.unlimited.unitDerivationMatrix = .ok m := hm
    have hnew : Cycles.new g = .ok ⟨g, m, none⟩ := by unfold Cycles.new; rw [hm]; rfl
    have hnew' : Cycles.new g.unlimited = .ok ⟨g.unlimited, m, none⟩ := by
      unfold Cycles.new; rw [hm']; rfl
    refine ⟨_, hnew, ?_⟩
    obtain ⟨c₁, c₁', h1, h2, d, d', h3, h4⟩ := C37_cycle_free (g := g.unlimited) hwf
      (by intro k hk; cases hk)
    rw [hnew'] at h1
    cases h1
    rcases (Cycles.rewriteCycles_low hn hg m).cases_right h2 with h | ⟨c', h, hlow⟩
    · refine .inl ⟨h, ?_⟩
      rw [hg]
      obtain rfl | rfl : n = 0 ∨ n = 1 := by omega
      · exact .inl rfl
      · exact .inr rfl
    · refine .inr ⟨c', h, ?_⟩
      obtain ⟨c₂, j1, hf⟩ := Cycles.new_spec (g := g.unlimited) hwf
      rw [hnew'] at j1
      cases j1
      obtain ⟨c₂', j2, j3, -, -, -, -⟩ := hf.rewrite hwf (by intro k hk; cases hk)
      rw [h2] at j2
      cases j2
      have hmono : ∀ A α, c'.grammar.prod A α → c₁'.grammar.prod A α := by
        rintro A α ⟨r, hr, h⟩
        exact ⟨r, hlow.sub.subset hr, h⟩
      have hwf' : c'.grammar.WF := by
        intro r hr
        have := j3.wf r (hlow.sub.subset hr)
        unfold Cfg.numSyms at this ⊢
        rw [hlow.src]
        exact this
      obtain ⟨d₁, b₁, d₁', i1, i2, i3, -⟩ := C34_cycle_free j3.wf
      rw [h3] at i1
      cases i1
      rw [h4] at i2
      cases i2
      obtain ⟨e, b, e', k1, k2, k3, -⟩ := C34_cycle_free hwf'
      have : b = true := k3.2 fun A hA => i3.1 rfl A (hA.mono hmono)
      subst this
      exact ⟨e, e', k1, k2⟩

/-! Concrete cases -/

/-- `A ::= B | x`, `B ::= A | y` with the limit 1. -/
def exLimitOne : Cfg :=
  { src := ⟨4, [none, none, none, none]⟩
    rules := [⟨0, [1], {}⟩, ⟨0, [2], {}⟩, ⟨1, [0], {}⟩, ⟨1, [3], {}⟩]
    roots := [0]
    rhsLenInvariant := some 1 }

/-- The limit is reached through the API: `limit_rhs_len(Some(1))` returns here. -/
example : exLimitOne.unlimited.limitRhsLen (some 1) = .ok exLimitOne := by decide

example : exLimitOne.WF := by decide

/-- Cycles can be rewritten; the result is the one without a limit. -/
example : (do .ok (← (← Cycles.new exLimitOne).rewriteCycles).grammar.rules) =
    .ok [⟨0, [2], {}⟩, ⟨0, [3], {}⟩] := by decide +kernel

/-- After adding a longer rule with `extend`, rewriting does not return. -/
example : (do .ok (← (← Cycles.new
      (exLimitOne.extend { rules := [⟨1, [2, 2], {}⟩] })).rewriteCycles).grammar.rules)
    = .diverge := by decide +kernel

/-- Wrapping the root never returns. -/
example : exLimitOne.wrapInput = .diverge := (C136_wrap exLimitOne 1 (by decide) rfl).1 (by decide)

/-- A sequence rule with at most one repetition is rewritten as without a limit, one with two
repetitions is not rewritten at all. -/
example : (fun g => g.rules.drop 4 |>.map fun r => (r.lhs, r.rhs)) <$>
      ({ exLimitOne with src := ⟨5, [none, none, none, none, none]⟩ } : Cfg).rewriteSequences .debug
        [⟨4, 2, 0, some 1, .null, none⟩] = .ok [(4, []), (4, [5]), (5, [2])] ∧
    ({ exLimitOne with src := ⟨5, [none, none, none, none, none]⟩ } : Cfg).rewriteSequences .debug
        [⟨4, 2, 0, some 2, .null, none⟩] = .diverge := by decide +kernel

/-- A precedenced rule of single symbols works under the limit 1; a binary operator does not. -/
example : (fun g => g.rules.drop 4 |>.map fun r => (r.lhs, r.rhs)) <$>
      exLimitOne.precedencedRule 3 [.rhs [2], .lowerPrecedence, .rhs [3]]
        = .ok [(4, [2]), (5, [4]), (5, [5]), (3, [5])] ∧
    exLimitOne.precedencedRule 3 [.rhs [2], .lowerPrecedence, .rhs [3, 2, 3]] = .diverge := by
  decide +kernel

/-- Under the limit 0 a sequence rule that allows only zero repetitions loses its only rule. -/
example : Cfg.rules <$> ({ src := ⟨2, [none, none]⟩, rhsLenInvariant := some 0 } : Cfg).rewriteSequences
      .debug [⟨0, 1, 0, some 0, .null, none⟩] = .ok [] ∧
    (fun g => g.rules.map fun r => (r.lhs, r.rhs)) <$> ({ src := ⟨2, [none, none]⟩ } : Cfg).rewriteSequences
      .debug [⟨0, 1, 0, some 0, .null, none⟩] = .ok [(0, [])] := by decide +kernel

end Verif
