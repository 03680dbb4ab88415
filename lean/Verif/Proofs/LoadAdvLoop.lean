import Verif.Proofs.LoadAdvBuild

/-! # Proofs about the loop over the rules in the advanced loader -/

namespace Verif.Advanced

/-! ## What was seen -/

theorem Seen.foldl_add (parse : Text → Except String Hir) (es : List Elem) : ∀ S : Seen,
    es.foldl (Seen.add parse) S = { S with
      used := S.used ++ es.flatMap Elem.names
      strs := S.strs ++ es.flatMap Elem.strings
      keys := S.keys ++ es.flatMap (Elem.classes parse) } := by
  induction es with
  | nil => intro S; simp
  | cons e es ih =>
    intro S
    rw [List.foldl_cons, ih]
    simp [Seen.add]

/-- After a clause. -/
def Seen.clause (parse : Text → Except String Hir) (S : Seen) (c : Clause) (isLexer : Bool) : Seen where
  used := S.used ++ [c.lhs] ++ c.elems.flatMap Elem.names ++ [c.lhs]
  strs := S.strs ++ c.elems.flatMap Elem.strings
  keys := S.keys ++ c.elems.flatMap (Elem.classes parse)
  lexLhs := if isLexer then S.lexLhs ++ [c.lhs] else S.lexLhs

/-- After some clauses. -/
def Seen.clauses (parse : Text → Except String Hir) (S : Seen) (cs : List (Clause × Bool)) : Seen :=
  cs.foldl (fun S c => S.clause parse c.1 c.2) S

/-! ## Rules with an origin -/

theorem origins_steps {g g' : Cfg} (h : Cfg.Steps NoOrigin g g') : originRules g' = originRules g := by
  obtain ⟨rs, e, hrs⟩ := h.rules
  unfold originRules
  rw [e, List.filter_append]
  conv => rhs; rw [← List.append_nil (List.filter _ g.rules)]
  congr 1
  rw [List.filter_eq_nil_iff]
  intro r hr
  rw [decide_eq_true_eq]
  rcases hrs r hr with h | h
  · exact fun h' => h'.1 h
  · exact fun h' => h'.2 h

theorem origins_push (g : Cfg) (A : Sym) (α : List Sym) {n : Nat} (h0 : n ≠ 0) (hn : n < u32Max) :
    originRules (g.pushRule ⟨A, α, History.ofRoot (.origin n)⟩) =
      originRules g ++ [⟨A, α, History.ofRoot (.origin n)⟩] ∧ (History.ofRoot (.origin n)).origin = n := by
  have ho : (History.ofRoot (.origin n)).origin = n :=
    Nat.mod_eq_of_lt (Nat.lt_trans hn (by decide))
  refine ⟨?_, ho⟩
  unfold originRules Cfg.pushRule
  dsimp only
  rw [List.filter_append, List.filter_cons_of_pos]
  · rfl
  · rw [decide_eq_true_eq]
    dsimp only
    rw [ho]
    exact ⟨h0, Nat.ne_of_lt hn⟩

/-- The rule has the symbols of the pieces that are not repeated. -/
def RuleOf (d : Sym × List Piece) (r : CfgRule) : Prop :=
  r.lhs = d.1 ∧ List.Forall₂ (fun (q : Piece) s => q.rep = none → s = q.sym) d.2 r.rhs

/-! ## Left sides of the parser -/

theorem symFor_intern (st : LoadState) (name : Text) :
    (st.symFor name).2.intern = (st.intern.getOrIntern name).2 := by
  unfold LoadState.symFor
  dsimp only
  split <;> rfl

theorem getOrIntern_get (l : StringInterner) (name : Text) :
    (l.getOrIntern name).2[(l.getOrIntern name).1]? = some name := by
  unfold StringInterner.getOrIntern
  split
  · rename_i h; exact List.getElem?_idxOf h
  · simp

theorem getOrIntern_pre (l : StringInterner) (name : Text) :
    ∃ more, (l.getOrIntern name).2 = l ++ more := by
  unfold StringInterner.getOrIntern
  split
  · exact ⟨[], by simp⟩
  · exact ⟨_, rfl⟩

/-- The numbers are those of the left sides. -/
def InParser (st : State) (pl : List Text) : Prop :=
  (∀ id ∈ st.lhsInParser, ∃ n ∈ pl, st.base.intern[id]? = some n) ∧
  ∀ n ∈ pl, ∃ id ∈ st.lhsInParser, st.base.intern[id]? = some n

theorem inParser_iff {st : State} {pl : List Text} (h : InParser st pl) (hnd : st.base.intern.Nodup)
    (name : Text) : (st.base.intern.getOrIntern name).1 ∈ st.lhsInParser ↔ name ∈ pl := by
  unfold StringInterner.getOrIntern
  by_cases hm : name ∈ st.base.intern
  · rw [if_pos hm]
    have hi : st.base.intern[st.base.intern.idxOf name]? = some name := List.getElem?_idxOf hm
    constructor
    · intro h1
      obtain ⟨n, h2, h3⟩ := h.1 _ h1
      rw [hi] at h3
      rw [Option.some.inj h3]
      exact h2
    · intro h1
      obtain ⟨id, h2, h3⟩ := h.2 _ h1
      have : List.idxOf name st.base.intern = id := by
        obtain ⟨hi1, ei1⟩ := List.getElem?_eq_some_iff.1 hi
        obtain ⟨hj, ej⟩ := List.getElem?_eq_some_iff.1 h3
        exact (List.Nodup.getElem_inj_iff hnd).1 (ei1.trans ej.symm)
      dsimp only
      rw [this]
      exact h2
  · rw [if_neg hm]
    constructor
    · intro h1
      obtain ⟨n, -, h3⟩ := h.1 _ h1
      rw [List.getElem?_eq_none (Nat.le_refl _)] at h3
      cases h3
    · intro h1
      obtain ⟨id, -, h3⟩ := h.2 _ h1
      exact absurd (List.mem_iff_getElem?.2 ⟨id, h3⟩) hm

theorem InParser.mono {st st' : State} {pl : List Text} (h : InParser st pl)
    (hl : st'.lhsInParser = st.lhsInParser)
    (hp : ∃ more, st'.base.intern = st.base.intern ++ more) : InParser st' pl := by
  obtain ⟨more, e⟩ := hp
  have key : ∀ (id : Nat) n, st.base.intern[id]? = some n → st'.base.intern[id]? = some n := by
    intro id n hi
    rw [e, List.getElem?_append_left (List.getElem?_eq_some_iff.1 hi).1, hi]
  refine ⟨?_, ?_⟩
  · intro id hid
    rw [hl] at hid
    obtain ⟨n, h1, h2⟩ := h.1 id hid
    exact ⟨n, h1, key _ _ h2⟩
  · intro n hn
    obtain ⟨id, h1, h2⟩ := h.2 n hn
    exact ⟨id, hl.symm ▸ h1, key _ _ h2⟩

/-! ## Rules -/

/-- The rule of pieces stands for the clause. -/
def ClauseIs (parse : Text → Except String Hir) (st : State) (res : List (Sym × Hir)) (c : Clause)
    (d : Sym × List Piece) : Prop :=
  st.base.Named c.lhs d.1 ∧ List.Forall₂ (ElemIs parse st res) c.elems d.2

theorem ClauseIs.mono {parse : Text → Except String Hir} {st st' : State} {res res' : List (Sym × Hir)}
    (h : Keeps st st') {c : Clause} {d : Sym × List Piece} (hc : ClauseIs parse st res c d) :
    ClauseIs parse st' (res ++ res') c d :=
  ⟨h.named _ _ hc.1, hc.2.imp fun _ _ he => he.mono h⟩

/-- The error for a rule. -/
def Rule.fault (parse : Text → Except String Hir) (r : Rule) : Option LoadError :=
  r.rhs.findSome? (Fragment.fault parse)

section

variable (p : Profile) {parse : Text → Except String Hir} {st : State}
  {reps : List RepSym} {aux : List Sym} {done : List (Sym × List Piece)}
  {res : List (Sym × Hir)} {cl : List (Sym × List Piece)} {S : Seen}

theorem lhs_step (h : BuildInv st reps aux done res cl S) (name : Text) :
    ∃ A base, st.base.symFor name = (A, base) ∧
      BuildInv { st with base := base.first A } reps aux done res cl { S with used := S.used ++ [name] } ∧
      (base.first A).Named name A ∧ (∀ n s, st.base.Named n s → (base.first A).Named n s) ∧
      (base.first A).intern = (st.base.intern.getOrIntern name).2 ∧
      (base.first A).internEmpty = false ∧
      (base.first A).cfg.roots = (if st.base.internEmpty then [A] else st.base.cfg.roots) ∧
      originRules (base.first A).cfg = originRules st.base.cfg ∧
      ((st.base.symMap.map Prod.fst).Nodup → ((base.first A).symMap.map Prod.fst).Nodup) := by
  obtain ⟨A, base, e, hb, hn, hg⟩ := h.adv.base.symFor name
  have hx : Ext st { st with base := base } [name] [] := ⟨hg, fun _ h => h, by simp, rfl, rfl⟩
  have h' := h.adv.rebase (st' := { st with base := base }) rfl hb hg.steps.namesPre
  have hb' := h.step (st' := { st with base := base }) (aux' := []) (rs := [])
    (by simpa using h') (by simp) hx rfl rfl
  rw [List.append_nil, List.append_nil, List.append_nil] at hb'
  have hnm : ∀ n s, base.Named n s ↔ (base.first A).Named n s := by
    intro n s
    unfold LoadState.first
    split <;> exact Iff.rfl
  refine ⟨A, base, e, hb'.first A, (hnm _ _).1 hn, fun n s h => (hnm n s).1 (hg.named n s h), ?_, ?_, ?_,
    ?_, ?_⟩
  · rw [← symFor_intern, e]
    unfold LoadState.first
    split <;> rfl
  · unfold LoadState.first
    split
    · rfl
    · rename_i h; simpa using h
  · unfold LoadState.first
    rw [← hg.empty, ← hg.roots]
    split <;> rfl
  · rw [← origins_steps hg.steps]
    unfold LoadState.first
    split <;> rfl
  · intro hk
    have := hg.keys hk
    unfold LoadState.first
    split <;> exact this

theorem loadRhs_fault (h : BuildInv st reps aux done res cl S) {rule : Rule}
    (hs : ∀ e ∈ rule.clause.elems, e.Safe parse) {err : LoadError} (hf : rule.fault parse = some err)
    (idx : Nat) (isLexer : Bool) : st.loadRhs p parse idx rule isLexer = .ok (.error err) := by
  obtain ⟨A, base, e, h', -⟩ := lhs_step h rule.lhs
  unfold State.loadRhs
  rw [e]
  dsimp only
  rw [fragments_fault p rule.rhs (fun f hf => hs _ (List.mem_map_of_mem hf)) h' hf, Res.bind_ok]

theorem loadRhs_ok (h : BuildInv st reps aux done res cl S) {rule : Rule}
    (hs : ∀ e ∈ rule.clause.elems, e.Safe parse) (hf : rule.fault parse = none)
    (idx : Nat) (isLexer : Bool) :
    ∃ st' new aux' rs res' d, st.loadRhs p parse idx rule isLexer = .ok (.ok st') ∧
      BuildInv st' (reps ++ new) (aux ++ aux') (done ++ rs) (res ++ res') (cl ++ [d])
        (S.clause parse rule.clause isLexer) ∧
      ClauseIs parse st' (res ++ res') rule.clause d ∧ Keeps st st' ∧
      (∃ more, st'.base.intern = (st.base.intern.getOrIntern rule.lhs).2 ++ more) ∧
      st'.lhsInParser = st.lhsInParser ∧ st'.actions = st.actions ++ [(idx + 1, rule.action)] ∧
      st'.base.internEmpty = false ∧
      st'.base.cfg.roots = (if st.base.internEmpty then [d.1] else st.base.cfg.roots) ∧
      (idx + 1 < u32Max → ∃ r, originRules st'.base.cfg = originRules st.base.cfg ++ [r] ∧
        RuleOf d r ∧ r.history.origin = idx + 1) := by
  obtain ⟨A, base, e1, h₁, hn₁, hnm, hin, hem, hrt, hor, hky⟩ := lhs_step h rule.lhs
  obtain ⟨syms, st₂, new, aux', rs, res', ps, e2, h₂, hst, hps, hels⟩ :=
    fragments_ok p rule.rhs (fun f hf => hs _ (List.mem_map_of_mem hf)) h₁ hf
  have hA := hst.named _ _ hn₁
  have h₃ := h₂.clause hA hels hps (History.ofRoot (.origin (idx + 1))) isLexer
    (st₂.actions ++ [(idx + 1, rule.action)])
  have hpre : ∃ more, st₂.base.intern = (st.base.intern.getOrIntern rule.lhs).2 ++ more := by
    obtain ⟨more, em⟩ := hst.pre
    exact ⟨more, by rw [em, ← hin]⟩
  have hS : S.clause parse rule.clause isLexer = { ((rule.rhs.map Fragment.elem).foldl (Seen.add parse)
      { S with used := S.used ++ [rule.lhs] }) with
        used := ((rule.rhs.map Fragment.elem).foldl (Seen.add parse)
          { S with used := S.used ++ [rule.lhs] }).used ++ [rule.lhs]
        lexLhs := if isLexer then ((rule.rhs.map Fragment.elem).foldl (Seen.add parse)
          { S with used := S.used ++ [rule.lhs] }).lexLhs ++ [rule.lhs] else
          ((rule.rhs.map Fragment.elem).foldl (Seen.add parse)
          { S with used := S.used ++ [rule.lhs] }).lexLhs } := by
    rw [Seen.foldl_add]
    rfl
  refine ⟨{ st₂ with
      base := { st₂.base with cfg := (st₂.base.cfg.pushRule
        ⟨A, syms, History.ofRoot (.origin (idx + 1))⟩) }
      lexical := if isLexer then A :: st₂.lexical else st₂.lexical
      actions := st₂.actions ++ [(idx + 1, rule.action)] }, new, aux', rs ++ [(A, ps)], res', (A, ps),
    ?_, ?_, ⟨hA, hels⟩, ⟨?_, hst.lex, ?_, ?_⟩,
    hpre, hst.lhsInParser, ?_, hst.empty.trans hem, hst.roots.trans hrt, ?_⟩
  rotate_left
  · rw [hS, ← List.append_assoc]
    exact h₃
  · exact fun n s h => hst.named n s (hnm n s h)
  · obtain ⟨m₁, em₁⟩ := getOrIntern_pre st.base.intern rule.lhs
    obtain ⟨m₂, em₂⟩ := hpre
    exact ⟨m₁ ++ m₂, by rw [← List.append_assoc, ← em₁]; exact em₂⟩
  · exact fun hk => hst.symKeys (hky hk)
  · show st₂.actions ++ _ = _
    rw [hst.actions]
  · intro hlt
    obtain ⟨k1, k2⟩ := origins_push st₂.base.cfg A syms (Nat.succ_ne_zero idx) hlt
    refine ⟨⟨A, syms, History.ofRoot (.origin (idx + 1))⟩, k1.trans ?_, ⟨rfl, ?_⟩, k2⟩
    · rw [origins_steps hst.steps]
      exact congrArg (· ++ [_]) hor
    · refine hps.imp ?_
      intro q s hq hr
      unfold Piece.Is at hq
      rw [hr] at hq
      exact hq
  · unfold State.loadRhs
    rw [e1]
    dsimp only
    rw [e2, Res.bind_ok]
    dsimp only
    unfold LoadState.add
    rw [addRule_push h₂.adv.base.g.limit, Res.bind_ok]
    rfl

/-- The error for a rule of the lexer. -/
def Rule.lexerFault (parse : Text → Except String Hir) (pl : List Text) (r : Rule) : Option LoadError :=
  if r.lhs ∈ pl then
    some ⟨"lhs shared between parser and lexer: " ++ String.ofList r.lhs, r.span.1 % 2 ^ 32, 1, none⟩
  else r.fault parse

/-- The error for a rule of the parser or the lexer. -/
def ruleFault (parse : Text → Except String Hir) (pl : List Text) (r : Rule × Bool) : Option LoadError :=
  if r.2 then r.1.lexerFault parse pl else r.1.fault parse

/-- The left sides of the parser after a rule. -/
def lhsAfter (pl : List Text) (r : Rule × Bool) : List Text := if r.2 then pl else pl ++ [r.1.lhs]

theorem loadRule_fault (h : BuildInv st reps aux done res cl S) {pl : List Text} (hpl : InParser st pl)
    {r : Rule × Bool} (hs : ∀ e ∈ r.1.clause.elems, e.Safe parse) {err : LoadError}
    (hf : ruleFault parse pl r = some err) (idx : Nat) :
    st.loadRule p parse idx r.1 r.2 = .ok (.error err) := by
  obtain ⟨rule, isLexer⟩ := r
  have hin := inParser_iff hpl h.adv.base.nodup rule.lhs
  unfold State.loadRule
  cases isLexer with
  | true =>
    unfold ruleFault Rule.lexerFault at hf
    simp only [if_true] at hf ⊢
    by_cases hm : rule.lhs ∈ pl
    · rw [if_pos hm] at hf
      rw [if_pos (hin.2 hm)]
      cases hf
      rfl
    · rw [if_neg hm] at hf
      rw [if_neg (mt hin.1 hm)]
      exact loadRhs_fault p h hs hf idx true
  | false =>
    exact loadRhs_fault p (h.inParser _) hs hf idx false

theorem loadRule_ok (h : BuildInv st reps aux done res cl S) {pl : List Text} (hpl : InParser st pl)
    {r : Rule × Bool} (hs : ∀ e ∈ r.1.clause.elems, e.Safe parse)
    (hf : ruleFault parse pl r = none) (idx : Nat) :
    ∃ st' new aux' rs res' d, st.loadRule p parse idx r.1 r.2 = .ok (.ok st') ∧
      BuildInv st' (reps ++ new) (aux ++ aux') (done ++ rs) (res ++ res') (cl ++ [d])
        (S.clause parse r.1.clause r.2) ∧
      ClauseIs parse st' (res ++ res') r.1.clause d ∧ Keeps st st' ∧ InParser st' (lhsAfter pl r) ∧
      st'.actions = st.actions ++ [(idx + 1, r.1.action)] ∧
      st'.base.internEmpty = false ∧
      st'.base.cfg.roots = (if st.base.internEmpty then [d.1] else st.base.cfg.roots) ∧
      (idx + 1 < u32Max → ∃ r, originRules st'.base.cfg = originRules st.base.cfg ++ [r] ∧
        RuleOf d r ∧ r.history.origin = idx + 1) := by
  obtain ⟨rule, isLexer⟩ := r
  have hin := inParser_iff hpl h.adv.base.nodup rule.lhs
  unfold State.loadRule
  cases isLexer with
  | true =>
    unfold ruleFault Rule.lexerFault at hf
    simp only [if_true] at hf ⊢
    by_cases hm : rule.lhs ∈ pl
    · rw [if_pos hm] at hf
      cases hf
    · rw [if_neg hm] at hf
      rw [if_neg (mt hin.1 hm)]
      obtain ⟨st', new, aux', rs, res', d, e, h1, h2, h3, h4, h5, h6⟩ := loadRhs_ok p h hs hf idx true
      exact ⟨st', new, aux', rs, res', d, e, h1, h2, h3, hpl.mono h5 h3.pre, h6⟩
  | false =>
    obtain ⟨st', new, aux', rs, res', d, e, h1, h2, h3, ⟨more, h4⟩, h5, h6⟩ :=
      loadRhs_ok p (h.inParser ((st.base.intern.getOrIntern rule.lhs).1 :: st.lhsInParser)) hs hf idx false
    refine ⟨st', new, aux', rs, res', d, e, h1, h2, ⟨h3.named, h3.lex, h3.pre, h3.symKeys⟩, ?_, h6⟩
    have hold : InParser { st' with lhsInParser := st.lhsInParser } pl := hpl.mono rfl h3.pre
    have hnew : st'.base.intern[(st.base.intern.getOrIntern rule.lhs).1]? = some rule.lhs := by
      have hg := getOrIntern_get st.base.intern rule.lhs
      rw [h4]
      exact (List.getElem?_append_left (List.getElem?_eq_some_iff.1 hg).1).trans hg
    refine ⟨?_, ?_⟩
    · intro id hid
      rw [h5] at hid
      rcases List.mem_cons.1 hid with rfl | hid
      · exact ⟨rule.lhs, by simp [lhsAfter], hnew⟩
      · obtain ⟨n, k1, k2⟩ := hold.1 id hid
        exact ⟨n, by simp [lhsAfter, k1], k2⟩
    · intro n hn
      rw [h5]
      rcases List.mem_append.1 (show n ∈ pl ++ [rule.lhs] from hn) with hn | hn
      · obtain ⟨id, k1, k2⟩ := hold.2 n hn
        exact ⟨id, List.mem_cons_of_mem _ k1, k2⟩
      · rw [List.mem_singleton] at hn
        subst hn
        exact ⟨_, List.mem_cons_self, hnew⟩

end

/-- The first error for some rules. -/
def firstFault (parse : Text → Except String Hir) : List Text → List (Rule × Bool) → Option LoadError
  | _, [] => none
  | pl, r :: rs => (ruleFault parse pl r).or (firstFault parse (lhsAfter pl r) rs)

theorem loadRules_fault (p : Profile) {parse : Text → Except String Hir} {err : LoadError}
    (rules : List (Rule × Bool)) (hs : ∀ r ∈ rules, ∀ e ∈ r.1.clause.elems, e.Safe parse) :
    ∀ {st : State} {reps : List RepSym} {aux : List Sym} {done : List (Sym × List Piece)}
    {res : List (Sym × Hir)} {cl : List (Sym × List Piece)} {S : Seen} {pl : List Text} (idx : Nat),
    BuildInv st reps aux done res cl S → InParser st pl → firstFault parse pl rules = some err →
    loadRules p parse st idx rules = .ok (.error err) := by
  induction rules with
  | nil => intro st reps aux done res cl S pl idx _ _ he; cases he
  | cons r rules ih =>
    intro st reps aux done res cl S pl idx h hpl he
    unfold firstFault at he
    unfold loadRules
    cases hf : ruleFault parse pl r with
    | some err' =>
      rw [hf] at he
      cases he
      rw [loadRule_fault p h hpl (hs r (by simp)) hf idx, Res.bind_ok]
    | none =>
      rw [hf, Option.none_or] at he
      obtain ⟨st', new, aux', rs, res', d, e, h1, -, -, h2, -⟩ :=
        loadRule_ok p h hpl (hs r (by simp)) hf idx
      rw [e, Res.bind_ok]
      exact ih (fun r hr => hs r (by simp [hr])) (idx + 1) h1 h2 he

theorem loadRules_ok (p : Profile) {parse : Text → Except String Hir}
    (rules : List (Rule × Bool)) (hs : ∀ r ∈ rules, ∀ e ∈ r.1.clause.elems, e.Safe parse) :
    ∀ {st : State} {reps : List RepSym} {aux : List Sym} {done : List (Sym × List Piece)}
    {res : List (Sym × Hir)} {cl : List (Sym × List Piece)} {S : Seen} {pl : List Text} (idx : Nat),
    BuildInv st reps aux done res cl S → InParser st pl → firstFault parse pl rules = none →
    ∃ st' reps' aux' done' res' dn, loadRules p parse st idx rules = .ok (.ok st') ∧
      BuildInv st' reps' aux' done' (res ++ res') (cl ++ dn)
        (S.clauses parse (rules.map fun r => (r.1.clause, r.2))) ∧
      List.Forall₂ (ClauseIs parse st' (res ++ res')) (rules.map fun r => r.1.clause) dn ∧ Keeps st st' ∧
      st'.actions = st.actions ++ rules.mapIdx (fun i r => (idx + i + 1, r.1.action)) ∧
      st'.base.cfg.roots = (if st.base.internEmpty then
        (match dn with | [] => st.base.cfg.roots | d :: _ => [d.1]) else st.base.cfg.roots) ∧
      (idx + rules.length < u32Max → ∃ rs, originRules st'.base.cfg = originRules st.base.cfg ++ rs ∧
        List.Forall₂ RuleOf dn rs ∧
        rs.map (fun r => r.history.origin) = (List.range' idx rules.length).map (· + 1)) := by
  induction rules with
  | nil =>
    intro st reps aux done res cl S pl idx h _ _
    exact ⟨st, reps, aux, done, [], [], rfl, by simpa [Seen.clauses] using h, .nil, .refl _, by simp,
      by simp, fun _ => ⟨[], by simp, .nil, rfl⟩⟩
  | cons r rules ih =>
    intro st reps aux done res cl S pl idx h hpl he
    unfold firstFault at he
    cases hf : ruleFault parse pl r with
    | some err' => rw [hf] at he; cases he
    | none =>
      rw [hf, Option.none_or] at he
      obtain ⟨st₁, new, aux₁, rs₁, res₁, d, e1, h₁, hc₁, hk₁, hpl₁, ha₁, hem₁, hrt₁, ho₁⟩ :=
        loadRule_ok p h hpl (hs r (by simp)) hf idx
      obtain ⟨st₂, reps₂, aux₂, done₂, res₂, dn, e2, h₂, hc₂, hk₂, ha₂, hrt₂, ho₂⟩ :=
        ih (fun r hr => hs r (by simp [hr])) (idx + 1) h₁ hpl₁ he
      refine ⟨st₂, reps₂, aux₂, done₂, res₁ ++ res₂, d :: dn, ?_, ?_, ?_, hk₁.trans hk₂, ?_, ?_, ?_⟩
      · unfold loadRules
        rw [e1, Res.bind_ok]
        exact e2
      · simpa [Seen.clauses] using h₂
      · rw [← List.append_assoc]
        exact .cons (hc₁.mono hk₂) hc₂
      · rw [ha₂, ha₁, List.mapIdx_cons, List.append_assoc]
        congr 1
        simp only [Nat.add_assoc, Nat.add_comm 1, List.singleton_append, Nat.zero_add]
      · rw [hrt₂, if_neg (by rw [hem₁]; decide), hrt₁]
      · intro hlt
        rw [List.length_cons] at hlt
        obtain ⟨r₁, k1, k2, k3⟩ := ho₁ (by omega)
        obtain ⟨rs₂, k4, k5, k6⟩ := ho₂ (by omega)
        refine ⟨r₁ :: rs₂, by rw [k4, k1, List.append_assoc]; rfl, .cons k2 k5, ?_⟩
        rw [List.map_cons, k3, k6, List.length_cons, List.range'_succ, List.map_cons]

end Verif.Advanced
