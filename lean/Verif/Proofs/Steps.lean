import Verif.Proofs.LoadBuild

/-! # Grammars made from others by adding symbols and rules -/

namespace Verif

/-- The second grammar is the first with more symbols, and with more rules, whose histories satisfy
`H`. -/
inductive Cfg.Steps (H : History → Prop) (g : Cfg) : Cfg → Prop
  | refl : Steps H g g
  | fresh {g' : Cfg} (name : Option String) : Steps H g g' → Steps H g (g'.nextSym name).2
  | rule {g' : Cfg} {r : CfgRule} : H r.history → Steps H g g' → Steps H g (g'.pushRule r)

namespace Cfg.Steps

variable {H : History → Prop} {g g' g'' : Cfg}

theorem trans (h : Steps H g g') (h' : Steps H g' g'') : Steps H g g'' := by
  induction h' with
  | refl => exact h
  | fresh name _ ih => exact .fresh name ih
  | rule hr _ ih => exact .rule hr ih

theorem limit (h : Steps H g g') : g'.rhsLenInvariant = g.rhsLenInvariant := by
  induction h with
  | refl => rfl
  | fresh name _ ih => exact ih
  | rule hr _ ih => exact ih

theorem roots (h : Steps H g g') : g'.roots = g.roots := by
  induction h with
  | refl => rfl
  | fresh name _ ih => exact ih
  | rule hr _ ih => exact ih

theorem wrapped (h : Steps H g g') : g'.wrappedRoots = g.wrappedRoots := by
  induction h with
  | refl => rfl
  | fresh name _ ih => exact ih
  | rule hr _ ih => exact ih

theorem names (h : Steps H g g') (hn : g.src.names.length = g.numSyms) :
    g'.src.names.length = g'.numSyms := by
  induction h with
  | refl => exact hn
  | @fresh g' name _ ih =>
    show (g'.src.names ++ [_]).length = g'.numSyms + 1
    rw [List.length_append, ih]; rfl
  | rule hr _ ih => exact ih

theorem rules (h : Steps H g g') : ∃ rs, g'.rules = g.rules ++ rs ∧ ∀ r ∈ rs, H r.history := by
  induction h with
  | refl => exact ⟨[], by simp, by simp⟩
  | fresh name _ ih => exact ih
  | @rule g' r hr _ ih =>
    obtain ⟨rs, e, h1⟩ := ih
    refine ⟨rs ++ [r], ?_, ?_⟩
    · show g'.rules ++ [r] = _
      rw [e, List.append_assoc]
    · intro s hs
      rcases List.mem_append.1 hs with hs | hs
      · exact h1 s hs
      · rw [List.mem_singleton.1 hs]; exact hr

theorem addRule (h : Steps H g g') {r : CfgRule} (hl : g.rhsLenInvariant = none)
    (hr : H r.history) {x : Cfg × Nat} (e : g'.addRule r = .ok x) : Steps H g x.1 := by
  rw [addRule_push (h.limit.trans hl)] at e
  cases e
  exact .rule hr h

end Cfg.Steps

/-- The origin of rules that stand for no alternative of a grammar file. -/
def NoOrigin (h : History) : Prop := h.origin = 0 ∨ h.origin = u32Max

/-- A relation between states of the rewriting of sequences that holds over each change of the
grammar. -/
structure SeqRel (R : SeqState → SeqState → Prop) : Prop where
  same : ∀ {st st' : SeqState}, st'.g = st.g → st'.top = st.top → R st st'
  trans : ∀ {st st' st'' : SeqState}, R st st' → R st' st'' → R st st''
  fresh : ∀ {st st' : SeqState}, st'.g = (st.g.nextSym none).2 → st'.top = st.top → R st st'
  add : ∀ {st : SeqState} {r : CfgRule} {x : Cfg × Nat}, r.history = st.top →
    st.g.addRule r = .ok x → R st { st with g := x.1 }

namespace SeqState

variable {R : SeqState → SeqState → Prop} (hR : SeqRel R)
include hR

theorem to_recurse (st : SeqState) (seq : Sequence) : R st (st.recurse seq).2 := by
  unfold recurse
  split
  · exact hR.same rfl rfl
  · exact hR.fresh rfl rfl

theorem to_rhs {st st' : SeqState} {α : List Sym} (e : st.rhs α = .ok st') : R st st' := by
  unfold SeqState.rhs at e
  split at e
  · cases e
  · have e2 : processLinked (.sequenceRhs [α[0]?, α[1]?, α[2]?]) st.top = .ok st.top := by
      unfold processLinked
      dsimp only
      split <;> rfl
    rw [e2, Res.bind_ok] at e
    obtain ⟨x, e3, e⟩ := Res.bind_eq_ok.1 e
    cases e
    exact hR.add rfl e3

theorem to_rhs2 {st st' : SeqState} {α β : List Sym}
    (e : (do let st ← st.rhs α; st.rhs β) = .ok st') : R st st' := by
  obtain ⟨st₁, e1, e2⟩ := Res.bind_eq_ok.1 e
  exact hR.trans (to_rhs hR e1) (to_rhs hR e2)

theorem to_reducePositive (p : Profile) {st st' : SeqState} {seq : Sequence}
    (e : st.reducePositive p seq = .ok st') : R st st' := by
  unfold reducePositive at e
  dsimp only at e
  by_cases h1 : seq.start = 1
  · rw [if_pos h1] at e
    cases hs : seq.stop with
    | none =>
      rw [hs] at e
      obtain ⟨st₁, e1, e2⟩ := Res.bind_eq_ok.1 e
      refine hR.trans (to_rhs hR e1) ?_
      cases hsep : seq.separator <;> rw [hsep] at e2 <;> exact to_rhs hR e2
    | some n =>
      rw [hs] at e
      dsimp only at e
      by_cases h2 : n = 1
      · rw [if_pos h2] at e; exact to_rhs hR e
      · rw [if_neg h2] at e
        by_cases h3 : n = 2
        · rw [if_pos h3] at e
          exact hR.trans (hR.trans (to_recurse hR _ _) (to_recurse hR _ _)) (to_rhs2 hR e)
        · rw [if_neg h3] at e
          obtain ⟨q, -, e⟩ := Res.bind_eq_ok.1 e
          obtain ⟨rest, -, e⟩ := Res.bind_eq_ok.1 e
          exact hR.trans (hR.trans (hR.trans (to_recurse hR _ _) (to_recurse hR _ _)) (to_recurse hR _ _)) (to_rhs2 hR e)
  · rw [if_neg h1] at e
    by_cases h2 : seq.start = 2 ∧ seq.stop = some 2
    · rw [if_pos h2] at e
      cases hsep : seq.separator <;> rw [hsep] at e <;> exact to_rhs hR e
    · rw [if_neg h2] at e
      by_cases h3 : some seq.start = seq.stop
      · rw [if_pos h3] at e
        obtain ⟨q, -, e⟩ := Res.bind_eq_ok.1 e
        obtain ⟨rest, -, e⟩ := Res.bind_eq_ok.1 e
        rw [Res.bind_ok] at e
        exact hR.trans (hR.trans (to_recurse hR _ _) (to_recurse hR _ _)) (to_rhs hR e)
      · rw [if_neg h3] at e
        obtain ⟨before, -, e⟩ := Res.bind_eq_ok.1 e
        cases hs : seq.stop with
        | none =>
          rw [hs] at e
          simp only [Res.bind_ok] at e
          exact hR.trans (hR.trans (to_recurse hR _ _) (to_recurse hR _ _)) (to_rhs hR e)
        | some n =>
          rw [hs] at e
          dsimp only at e
          obtain ⟨d, -, e⟩ := Res.bind_eq_ok.1 e
          obtain ⟨d', -, e⟩ := Res.bind_eq_ok.1 e
          simp only [Res.bind_ok] at e
          exact hR.trans (hR.trans (to_recurse hR _ _) (to_recurse hR _ _)) (to_rhs hR e)

theorem to_reduce (p : Profile) {st st' : SeqState} {seq : Sequence}
    (e : st.reduce p seq = .ok st') : R st st' := by
  unfold reduce at e
  have h0 : R st { st with lhs := seq.lhs } := hR.same rfl rfl
  refine hR.trans h0 ?_
  have hz : ∀ {sep : Separator} {k : Res SeqState}, (∀ st'', k = .ok st'' →
      R { st with lhs := seq.lhs } st'') →
      (if seq.start = 0 then
        if seq.stop = some 0 then ({ st with lhs := seq.lhs } : SeqState).rhs []
        else do
          let st ← ({ st with lhs := seq.lhs } : SeqState).rhs []
          let (sym, st) := st.recurse (seq.inclusive 1 seq.stop)
          st.rhs [sym]
      else k) = .ok st' → R { st with lhs := seq.lhs } st' := by
    intro sep k hk e
    by_cases h1 : seq.start = 0
    · rw [if_pos h1] at e
      by_cases h2 : seq.stop = some 0
      · rw [if_pos h2] at e; exact to_rhs hR e
      · rw [if_neg h2] at e
        obtain ⟨st₁, e1, e2⟩ := Res.bind_eq_ok.1 e
        exact hR.trans (hR.trans (to_rhs hR e1) (to_recurse hR _ _)) (to_rhs hR e2)
    · rw [if_neg h1] at e
      exact hk _ e
  cases hsep : seq.separator with
  | liberal sep =>
    rw [hsep] at e
    dsimp only at e
    exact hR.trans (hR.trans (to_recurse hR _ _) (to_recurse hR _ _)) (to_rhs2 hR e)
  | trailing sep =>
    rw [hsep] at e
    dsimp only at e
    refine hz (sep := .null) ?_ e
    intro st'' e
    exact hR.trans (to_recurse hR _ _) (to_rhs hR e)
  | proper sep =>
    rw [hsep] at e
    exact hz (sep := .null) (fun st'' e => to_reducePositive hR p e) e
  | null =>
    rw [hsep] at e
    exact hz (sep := .null) (fun st'' e => to_reducePositive hR p e) e

theorem to_loop (p : Profile) (fuel : Nat) : ∀ {st st' : SeqState}, st.loop p fuel = .ok st' →
    R st st' := by
  induction fuel with
  | zero =>
    intro st st' e
    unfold loop at e
    split at e
    · cases e; exact hR.same rfl rfl
    · cases e
  | succ fuel ih =>
    intro st st' e
    unfold loop at e
    split at e
    · cases e; exact hR.same rfl rfl
    · dsimp only at e
      split at e
      · obtain ⟨st₁, e1, e2⟩ := Res.bind_eq_ok.1 e
        have h1 := to_reduce hR p e1
        refine hR.trans ?_ (hR.trans h1 (ih e2))
        exact hR.same rfl rfl
      · cases e

end SeqState

/-- Without a length limit, the histories of new rules have no origin. -/
theorem seqRel_steps : SeqRel fun st st' => st.g.rhsLenInvariant = none → NoOrigin st.top →
    Cfg.Steps NoOrigin st.g st'.g ∧ st'.top = st.top where
  same h h' _ _ := ⟨h ▸ .refl, h'⟩
  trans h h' hl ht := by
    obtain ⟨h1, h2⟩ := h hl ht
    obtain ⟨h3, h4⟩ := h' (h1.limit.trans hl) (h2 ▸ ht)
    exact ⟨h1.trans h3, h4.trans h2⟩
  fresh h h' _ _ := ⟨h ▸ .fresh none .refl, h'⟩
  add hr e hl ht := ⟨Cfg.Steps.refl.addRule hl (hr ▸ ht) e, rfl⟩

theorem steps_sequence (p : Profile) {g g' : Cfg} {seq : Sequence} (hl : g.rhsLenInvariant = none)
    (hh : seq.history = none) (e : g.rewriteSequence p seq = .ok g') :
    Cfg.Steps NoOrigin g g' := by
  unfold Cfg.rewriteSequence at e
  rw [hh] at e
  simp only [processLinked, Res.bind_ok, Option.getD_none] at e
  obtain ⟨st, e1, e⟩ := Res.bind_eq_ok.1 e
  obtain ⟨st', e2, e⟩ := Res.bind_eq_ok.1 e
  cases e
  obtain ⟨h1, -⟩ := SeqState.to_reduce seqRel_steps p e1 hl (.inl rfl)
  obtain ⟨h2, -⟩ := SeqState.to_loop seqRel_steps p _ e2 (h1.limit.trans hl) (.inr rfl)
  exact h1.trans h2

/-! ## Translated expressions -/

namespace Translator

theorem steps_classSym (t : Translator) (key : LexerClasses) (name : Option String) :
    Cfg.Steps NoOrigin t.cfg (t.classSym key name).2.cfg := by
  unfold classSym
  split
  · exact .refl
  · exact .fresh name .refl

theorem steps_bytes (p : Profile) (bytes : List Nat) : ∀ {t : Translator}
    {x : List Sym × Translator}, t.bytes p bytes = .ok x → Cfg.Steps NoOrigin t.cfg x.2.cfg := by
  induction bytes with
  | nil => intro t x e; cases e; exact .refl
  | cons b bs ih =>
    intro t x e
    unfold Translator.bytes at e
    obtain ⟨⟨s, t₁⟩, e1, e⟩ := Res.bind_eq_ok.1 e
    obtain ⟨⟨syms, t₂⟩, e2, e⟩ := Res.bind_eq_ok.1 e
    cases e
    unfold byteSym at e1
    obtain ⟨key, -, e1⟩ := Res.bind_eq_ok.1 e1
    have e1 := Res.ok.inj e1
    have h1 := steps_classSym t key (some ("__byte" ++ toString b))
    rw [e1] at h1
    have h2 := ih e2
    exact h1.trans h2

theorem steps_rule {t t' : Translator} (hl : t.cfg.rhsLenInvariant = none) {lhs : Sym}
    {rhs : List Sym} (e : t.rule lhs rhs = .ok t') : Cfg.Steps NoOrigin t.cfg t'.cfg := by
  unfold Translator.rule at e
  obtain ⟨x, e1, e⟩ := Res.bind_eq_ok.1 e
  cases e
  exact Cfg.Steps.refl.addRule hl (.inl rfl) e1

theorem steps_inner {t : Translator} (hl : t.cfg.rhsLenInvariant = none) {x : List (List Sym)}
    {y : Sym × Translator} (e : t.inner x = .ok y) : Cfg.Steps NoOrigin t.cfg y.2.cfg := by
  have key : ∀ (x : List (List Sym)) {t t' : Translator} (s : Sym), t.cfg.rhsLenInvariant = none →
      x.foldlM (fun t rhs => Translator.rule t s rhs) t = .ok t' →
      Cfg.Steps NoOrigin t.cfg t'.cfg := by
    intro x
    induction x with
    | nil => intro t t' s hl e; cases e; exact .refl
    | cons α x ih =>
      intro t t' s hl e
      rw [List.foldlM_cons] at e
      obtain ⟨t₁, e1, e2⟩ := Res.bind_eq_ok.1 e
      have h1 := steps_rule hl e1
      exact h1.trans (ih s (h1.limit.trans hl) e2)
  unfold Translator.inner at e
  dsimp only at e
  obtain ⟨t₁, e1, e⟩ := Res.bind_eq_ok.1 e
  cases e
  have h1 := key x _ (by exact hl) e1
  exact (Cfg.Steps.fresh none .refl).trans h1

theorem steps_oneSym {t : Translator} (hl : t.cfg.rhsLenInvariant = none) {x : List (List Sym)}
    {y : Sym × Translator} (e : t.oneSym x = .ok y) : Cfg.Steps NoOrigin t.cfg y.2.cfg := by
  unfold Translator.oneSym at e
  split at e
  · cases e; exact .refl
  · exact steps_inner hl e

theorem steps_rootSym {t : Translator} (hl : t.cfg.rhsLenInvariant = none) {x : List (List Sym)}
    {y : Sym × Translator} (e : t.rootSym x = .ok y) : Cfg.Steps NoOrigin t.cfg y.2.cfg := by
  unfold Translator.rootSym at e
  split at e
  · exact steps_inner hl e
  · exact steps_oneSym hl e

theorem steps_concatPart {t : Translator} (hl : t.cfg.rhsLenInvariant = none)
    {x : List (List Sym)} {y : List Sym × Translator} (e : t.concatPart x = .ok y) :
    Cfg.Steps NoOrigin t.cfg y.2.cfg := by
  unfold Translator.concatPart at e
  split at e
  · cases e; exact .refl
  · cases e; exact .refl
  · obtain ⟨⟨s, t₁⟩, e1, e⟩ := Res.bind_eq_ok.1 e
    cases e
    exact steps_inner hl e1

mutual

theorem steps_walk (p : Profile) : ∀ (h : Hir) {t : Translator} {y : List (List Sym) × Translator},
    t.cfg.rhsLenInvariant = none → t.walk p h = .ok y → Cfg.Steps NoOrigin t.cfg y.2.cfg
  | .empty, t, y, hl, e => by
    unfold Translator.walk at e; cases e; exact .refl
  | .literal bytes, t, y, hl, e => by
    unfold Translator.walk at e
    obtain ⟨⟨syms, t₁⟩, e1, e⟩ := Res.bind_eq_ok.1 e
    cases e
    exact steps_bytes p bytes e1
  | .cls ranges, t, y, hl, e => by
    unfold Translator.walk at e
    cases e
    exact steps_classSym t _ _
  | .look, t, y, hl, e => by
    unfold Translator.walk at e; cases e
  | .repetition min max sub, t, y, hl, e => by
    unfold Translator.walk at e
    dsimp only at e
    obtain ⟨⟨x, t₁⟩, e1, e⟩ := Res.bind_eq_ok.1 e
    obtain ⟨⟨rhs, t₂⟩, e2, e⟩ := Res.bind_eq_ok.1 e
    obtain ⟨t₃, e3, e⟩ := Res.bind_eq_ok.1 e
    cases e
    have h1 := (Cfg.Steps.fresh none .refl).trans (steps_walk p sub (by exact hl) e1)
    have h2 : Cfg.Steps NoOrigin t₁.cfg t₂.cfg := by
      unfold Translator.repeated at e2
      dsimp only at e2
      split at e2
      · cases e2
      · exact steps_oneSym (h1.limit.trans hl) e2
    have h3 := h1.trans h2
    unfold Translator.sequence at e3
    obtain ⟨g, e4, e3⟩ := Res.bind_eq_ok.1 e3
    cases e3
    exact h3.trans (steps_sequence p (h3.limit.trans hl) rfl e4)
  | .capture sub, t, y, hl, e => by
    unfold Translator.walk at e
    exact steps_walk p sub hl e
  | .concat exprs, t, y, hl, e => by
    unfold Translator.walk at e
    obtain ⟨⟨syms, t₁⟩, e1, e⟩ := Res.bind_eq_ok.1 e
    cases e
    exact steps_walkConcat p exprs hl e1
  | .alternation exprs, t, y, hl, e => by
    unfold Translator.walk at e
    exact steps_walkAlternatives p exprs hl e

theorem steps_walkConcat (p : Profile) : ∀ (hs : List Hir) {t : Translator}
    {y : List Sym × Translator}, t.cfg.rhsLenInvariant = none → t.walkConcat p hs = .ok y →
    Cfg.Steps NoOrigin t.cfg y.2.cfg
  | [], t, y, hl, e => by
    unfold Translator.walkConcat at e; cases e; exact .refl
  | h :: hs, t, y, hl, e => by
    unfold Translator.walkConcat at e
    obtain ⟨⟨x, t₁⟩, e1, e⟩ := Res.bind_eq_ok.1 e
    obtain ⟨⟨part, t₂⟩, e2, e⟩ := Res.bind_eq_ok.1 e
    obtain ⟨⟨syms, t₃⟩, e3, e⟩ := Res.bind_eq_ok.1 e
    cases e
    have h1 := steps_walk p h hl e1
    have h2 := h1.trans (steps_concatPart (h1.limit.trans hl) e2)
    have h3 := steps_walkConcat p hs (h2.limit.trans hl) e3
    exact h2.trans h3

theorem steps_walkAlternatives (p : Profile) : ∀ (hs : List Hir) {t : Translator}
    {y : List (List Sym) × Translator}, t.cfg.rhsLenInvariant = none →
    t.walkAlternatives p hs = .ok y → Cfg.Steps NoOrigin t.cfg y.2.cfg
  | [], t, y, hl, e => by
    unfold Translator.walkAlternatives at e; cases e; exact .refl
  | h :: hs, t, y, hl, e => by
    unfold Translator.walkAlternatives at e
    obtain ⟨⟨x, t₁⟩, e1, e⟩ := Res.bind_eq_ok.1 e
    obtain ⟨⟨rest, t₂⟩, e2, e⟩ := Res.bind_eq_ok.1 e
    cases e
    have h1 := steps_walk p h hl e1
    have h2 := steps_walkAlternatives p hs (h1.limit.trans hl) e2
    exact h1.trans h2

end

end Translator

/-- The grammar of a translated expression has no limit, no wrapped roots, a name or a gap for every
symbol, and no origins. -/
theorem cfgFromHir_made (p : Profile) {hir : Hir} {g : Cfg} {m : LexerMap}
    (e : cfgFromHir p hir = .ok (g, m)) : g.rhsLenInvariant = none ∧ g.wrappedRoots = [] ∧
      g.src.names.length = g.numSyms ∧ ∀ r ∈ g.rules, NoOrigin r.history := by
  unfold cfgFromHir at e
  obtain ⟨⟨x, t₁⟩, e1, e⟩ := Res.bind_eq_ok.1 e
  obtain ⟨⟨root, t₂⟩, e2, e⟩ := Res.bind_eq_ok.1 e
  cases e
  have h1 := Translator.steps_walk p hir rfl e1
  have h2 := h1.trans (Translator.steps_rootSym (h1.limit.trans rfl) e2)
  refine ⟨h2.limit, h2.wrapped, h2.names rfl, ?_⟩
  obtain ⟨rs, h3, h4⟩ := h2.rules
  have h3 : t₂.cfg.rules = [] ++ rs := h3
  rw [List.nil_append] at h3
  intro r hr
  exact h4 r (h3 ▸ hr)

end Verif
