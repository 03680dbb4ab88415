import Verif.Proofs.LoadAdvMeans
import Verif.Props.RegexpPanics

/-! # Where the advanced loader stops -/

namespace Verif.Advanced

theorem ofChar_panic {c : Char} (h : ¬ IsChar (c.toNat + 1)) :
    LexerClasses.ofChar c.toNat = .panic := by
  unfold LexerClasses.ofChar charFromU32
  rw [if_neg (mt isScalar_iff.1 h)]
  rfl

theorem charSyms_panic {s : Text} (h : ¬ ∀ c ∈ s, IsChar (c.toNat + 1)) (st : State) :
    st.charSyms s = .panic := by
  induction s generalizing st with
  | nil => exact absurd (by simp) h
  | cons c s ih =>
    unfold State.charSyms
    by_cases hc : IsChar (c.toNat + 1)
    · rw [ofChar_ok hc, Res.bind_ok]
      dsimp only
      rw [ih fun hs => h (by
        intro c' hc'
        rcases List.mem_cons.1 hc' with rfl | hc'
        exacts [hc, hs c' hc'])]
      rfl
    · rw [ofChar_panic hc]
      rfl

/-- What stops the loading at a fragment: a panic is `some none`. -/
noncomputable def Fragment.stop (parse : Text → Except String Hir) (f : Fragment) :
    Option (Option LoadError) :=
  (f.elem.stop parse 0).map fun
    | .panic => none
    | .reject r _ => some ⟨r, f.errorLine % 2 ^ 32, 1, none⟩

section

variable {parse : Text → Except String Hir}

theorem fragment_stop_panic {f : Fragment}
    (hp : ∀ arg hir, parse arg = .ok hir → hir.Parsed)
    (h : f.stop parse = some none) (st : State) : st.fragment .debug parse f = .panic := by
  unfold Fragment.stop at h
  obtain ⟨x, h1, h2⟩ := Option.map_eq_some_iff.1 h
  cases x with
  | reject r k => cases h2
  | panic =>
    cases f with
    | rhs ident rep => cases h1
    | lex s span =>
      unfold Fragment.elem Elem.stop at h1
      dsimp only at h1
      split at h1
      · cases h1
      · rename_i hs
        unfold State.fragment State.lexString
        dsimp only
        rw [charSyms_panic hs]
        rfl
    | call func arg argSpan span =>
      unfold Fragment.elem Elem.stop at h1
      dsimp only at h1
      by_cases hf : func ≠ "Regexp".toList
      · rw [if_pos hf] at h1; cases h1
      · rw [if_neg hf] at h1
        unfold State.fragment
        dsimp only
        unfold State.call
        rw [if_neg hf]
        cases ep : parse arg with
        | error e => rw [ep] at h1; cases h1
        | ok hir =>
          rw [ep] at h1
          dsimp only at h1 ⊢
          split at h1
          · rename_i ht
            rw [(C122_translated (hp arg hir ep)).1.2 ht]
            rfl
          · cases h1

theorem fragment_stop_fault {f : Fragment} {err : LoadError} (h : f.stop parse = some (some err)) :
    f.fault parse = some err := by
  unfold Fragment.stop at h
  obtain ⟨x, h1, h2⟩ := Option.map_eq_some_iff.1 h
  cases x with
  | panic => cases h2
  | reject r k =>
    cases h2
    cases f with
    | rhs ident rep => cases h1
    | lex s span =>
      unfold Fragment.elem Elem.stop at h1
      dsimp only at h1
      split at h1 <;> cases h1
    | call func arg argSpan span =>
      unfold Fragment.elem Elem.stop at h1
      unfold Fragment.fault Fragment.elem Elem.reason
      dsimp only at h1 ⊢
      by_cases hf : func ≠ "Regexp".toList
      · rw [if_pos hf] at h1 ⊢
        cases h1
        rfl
      · rw [if_neg hf] at h1 ⊢
        cases ep : parse arg with
        | error e => rw [ep] at h1; cases h1; rfl
        | ok hir =>
          rw [ep] at h1
          dsimp only at h1
          split at h1 <;> cases h1

theorem fragment_stop_none {f : Fragment}
    (hp : ∀ arg hir, parse arg = .ok hir → hir.Parsed) (h : f.stop parse = none) :
    f.elem.Safe parse ∧ f.fault parse = none := by
  unfold Fragment.stop at h
  have h1 := Option.map_eq_none_iff.1 h
  cases f with
  | rhs ident rep => exact ⟨trivial, rfl⟩
  | lex s span =>
    unfold Fragment.elem Elem.stop at h1
    dsimp only at h1
    split at h1
    · rename_i hs
      exact ⟨hs, rfl⟩
    · cases h1
  | call func arg argSpan span =>
    unfold Fragment.elem Elem.stop at h1
    dsimp only at h1
    by_cases hf : func ≠ "Regexp".toList
    · rw [if_pos hf] at h1; cases h1
    · rw [if_neg hf] at h1
      cases ep : parse arg with
      | error e => rw [ep] at h1; cases h1
      | ok hir =>
        rw [ep] at h1
        dsimp only at h1
        split at h1
        · cases h1
        · rename_i ht
          refine ⟨?_, ?_⟩
          · intro hir' ep'
            rw [ep] at ep'
            cases ep'
            exact plain_of_parsed hir (hp arg hir ep) ht
          · unfold Fragment.fault Fragment.elem Elem.reason
            dsimp only
            rw [if_neg hf, ep]
            rfl

theorem stops_none {fs : List Fragment}
    (hp : ∀ arg hir, parse arg = .ok hir → hir.Parsed)
    (h : fs.findSome? (Fragment.stop parse) = none) :
    (∀ f ∈ fs, f.elem.Safe parse) ∧ fs.findSome? (Fragment.fault parse) = none := by
  rw [List.findSome?_eq_none_iff] at h
  refine ⟨fun f hf => (fragment_stop_none hp (h f hf)).1, ?_⟩
  rw [List.findSome?_eq_none_iff]
  exact fun f hf => (fragment_stop_none hp (h f hf)).2

/-- The result if the loading stops. -/
def stopped {α : Type} : Option LoadError → Res (Except LoadError α)
  | none => .panic
  | some err => .ok (.error err)

theorem stopped_bind {α β : Type} (s : Option LoadError) (f : α → Res (Except LoadError β)) :
    ((stopped s : Res (Except LoadError α)) >>= fun
      | .error e => .ok (.error e)
      | .ok a => f a) = stopped s := by
  cases s <;> rfl

theorem fragments_stop (hp : ∀ arg hir, parse arg = .ok hir → hir.Parsed)
    {s : Option LoadError} (fs : List Fragment) :
    ∀ {st : State} {reps : List RepSym} {aux : List Sym} {done : List (Sym × List Piece)}
    {res : List (Sym × Hir)} {cl : List (Sym × List Piece)} {S : Seen},
    BuildInv st reps aux done res cl S → fs.findSome? (Fragment.stop parse) = some s →
    fragments .debug parse st fs = stopped s := by
  induction fs with
  | nil => intro st reps aux done res cl S h he; cases he
  | cons f fs ih =>
    intro st reps aux done res cl S h he
    unfold fragments
    rw [List.findSome?_cons] at he
    cases hf : f.stop parse with
    | some s' =>
      rw [hf] at he
      cases he
      cases s with
      | none => rw [fragment_stop_panic hp hf]; rfl
      | some err => rw [fragment_fault .debug parse st (fragment_stop_fault hf)]; rfl
    | none =>
      rw [hf] at he
      obtain ⟨h1, h2⟩ := fragment_stop_none hp hf
      obtain ⟨x, st', new, aux', rs, res', q, e, h', -, -, -⟩ := fragment_ok .debug h h1 h2
      rw [e, Res.bind_ok]
      dsimp only
      rw [ih h' he]
      cases s <;> rfl

/-- What stops the loading at a rule. -/
noncomputable def Rule.stop (parse : Text → Except String Hir) (r : Rule) :
    Option (Option LoadError) :=
  r.rhs.findSome? (Fragment.stop parse)

/-- What stops the loading at a rule of the lexer. -/
noncomputable def Rule.lexerStop (parse : Text → Except String Hir) (pl : List Text) (r : Rule) :
    Option (Option LoadError) :=
  if r.lhs ∈ pl then
    some (some ⟨"lhs shared between parser and lexer: " ++ String.ofList r.lhs, r.span.1 % 2 ^ 32, 1,
      none⟩)
  else r.stop parse

/-- What stops the loading at a rule of the parser or the lexer. -/
noncomputable def ruleStop (parse : Text → Except String Hir) (pl : List Text) (r : Rule × Bool) :
    Option (Option LoadError) :=
  if r.2 then r.1.lexerStop parse pl else r.1.stop parse

/-- What stops the loading of some rules first. -/
noncomputable def rulesStop (parse : Text → Except String Hir) :
    List Text → List (Rule × Bool) → Option (Option LoadError)
  | _, [] => none
  | pl, r :: rs => (ruleStop parse pl r).or (rulesStop parse (lhsAfter pl r) rs)

theorem rule_stop_none (hp : ∀ arg hir, parse arg = .ok hir → hir.Parsed) {pl : List Text}
    {r : Rule × Bool} (h : ruleStop parse pl r = none) :
    (∀ e ∈ r.1.clause.elems, e.Safe parse) ∧ ruleFault parse pl r = none := by
  have key : r.1.stop parse = none →
      (∀ e ∈ r.1.clause.elems, e.Safe parse) ∧ r.1.fault parse = none := by
    intro h
    obtain ⟨h1, h2⟩ := stops_none hp h
    refine ⟨?_, h2⟩
    intro e he
    obtain ⟨f, hf, rfl⟩ := List.mem_map.1 (show e ∈ r.1.rhs.map Fragment.elem from he)
    exact h1 f hf
  unfold ruleStop at h
  unfold ruleFault
  split at h
  · rename_i hr
    rw [if_pos hr]
    unfold Rule.lexerStop at h
    unfold Rule.lexerFault
    split at h
    · cases h
    · rename_i hm
      rw [if_neg hm]
      exact key h
  · rename_i hr
    rw [if_neg hr]
    exact key h

theorem rules_stop_none (hp : ∀ arg hir, parse arg = .ok hir → hir.Parsed)
    (rules : List (Rule × Bool)) : ∀ {pl : List Text}, rulesStop parse pl rules = none →
    (∀ r ∈ rules, ∀ e ∈ r.1.clause.elems, e.Safe parse) ∧ firstFault parse pl rules = none := by
  induction rules with
  | nil => intro pl _; exact ⟨by simp, rfl⟩
  | cons r rules ih =>
    intro pl h
    unfold rulesStop at h
    rw [Option.or_eq_none_iff] at h
    obtain ⟨h1, h2⟩ := rule_stop_none hp h.1
    obtain ⟨h3, h4⟩ := ih h.2
    refine ⟨?_, ?_⟩
    · intro r' hr'
      rcases List.mem_cons.1 hr' with rfl | hr'
      exacts [h1, h3 r' hr']
    · unfold firstFault
      rw [h2, h4]
      rfl

theorem loadRhs_stop (hp : ∀ arg hir, parse arg = .ok hir → hir.Parsed) {st : State}
    {reps : List RepSym} {aux : List Sym} {done : List (Sym × List Piece)}
    {res : List (Sym × Hir)} {cl : List (Sym × List Piece)} {S : Seen}
    (h : BuildInv st reps aux done res cl S) {rule : Rule} {s : Option LoadError}
    (hf : rule.stop parse = some s) (idx : Nat) (isLexer : Bool) :
    st.loadRhs .debug parse idx rule isLexer = stopped s := by
  obtain ⟨A, base, e, h', -⟩ := lhs_step h rule.lhs
  unfold State.loadRhs
  rw [e]
  dsimp only
  rw [fragments_stop hp rule.rhs h' hf]
  cases s <;> rfl

theorem loadRule_stop (hp : ∀ arg hir, parse arg = .ok hir → hir.Parsed) {st : State}
    {reps : List RepSym} {aux : List Sym} {done : List (Sym × List Piece)}
    {res : List (Sym × Hir)} {cl : List (Sym × List Piece)} {S : Seen}
    (h : BuildInv st reps aux done res cl S) {pl : List Text} (hpl : InParser st pl)
    {r : Rule × Bool} {s : Option LoadError} (hf : ruleStop parse pl r = some s) (idx : Nat) :
    st.loadRule .debug parse idx r.1 r.2 = stopped s := by
  obtain ⟨rule, isLexer⟩ := r
  have hin := inParser_iff hpl h.adv.base.nodup rule.lhs
  unfold State.loadRule
  cases isLexer with
  | true =>
    unfold ruleStop Rule.lexerStop at hf
    simp only [if_true] at hf ⊢
    by_cases hm : rule.lhs ∈ pl
    · rw [if_pos hm] at hf
      rw [if_pos (hin.2 hm)]
      cases hf
      rfl
    · rw [if_neg hm] at hf
      rw [if_neg (mt hin.1 hm)]
      exact loadRhs_stop hp h hf idx true
  | false =>
    exact loadRhs_stop hp (h.inParser _) hf idx false

theorem loadRules_stop (hp : ∀ arg hir, parse arg = .ok hir → hir.Parsed)
    {s : Option LoadError} (rules : List (Rule × Bool)) :
    ∀ {st : State} {reps : List RepSym} {aux : List Sym} {done : List (Sym × List Piece)}
    {res : List (Sym × Hir)} {cl : List (Sym × List Piece)} {S : Seen} {pl : List Text} (idx : Nat),
    BuildInv st reps aux done res cl S → InParser st pl → rulesStop parse pl rules = some s →
    loadRules .debug parse st idx rules = stopped s := by
  induction rules with
  | nil => intro st reps aux done res cl S pl idx _ _ he; cases he
  | cons r rules ih =>
    intro st reps aux done res cl S pl idx h hpl he
    unfold rulesStop at he
    unfold loadRules
    cases hf : ruleStop parse pl r with
    | some s' =>
      rw [hf] at he
      cases he
      rw [loadRule_stop hp h hpl hf idx]
      cases s <;> rfl
    | none =>
      rw [hf, Option.none_or] at he
      obtain ⟨h1, h2⟩ := rule_stop_none hp hf
      obtain ⟨st', new, aux', rs, res', d, e, h3, -, -, h4, -⟩ := loadRule_ok .debug h hpl h1 h2 idx
      rw [e, Res.bind_ok]
      exact ih (idx + 1) h3 h4 he

/-! ## Positions -/

/-- What the loader returns for a stop. -/
def stopError : Stop → Option LoadError
  | .panic => none
  | .reject r k => some (faultError (r, k))

theorem placed_stop (parse : Text → Except String Hir) {ks : List Nat} {fs : List Fragment}
    (h : List.Forall₂ Fragment.Placed ks fs) : fs.findSome? (Fragment.stop parse) =
      ((ks.zip (fs.map Fragment.elem)).findSome? fun x => x.2.stop parse x.1).map stopError := by
  induction h with
  | nil => rfl
  | @cons k f ks fs h1 _ ih =>
    rw [List.map_cons, List.zip_cons_cons, List.findSome?_cons, List.findSome?_cons, ih]
    dsimp only
    have e : f.stop parse = (f.elem.stop parse k).map stopError := by
      unfold Fragment.stop
      cases f with
      | rhs => rfl
      | lex s =>
        unfold Fragment.elem Elem.stop
        dsimp only
        split <;> rfl
      | call func arg argSpan span =>
        obtain ⟨e1, e2⟩ := h1
        unfold Fragment.elem Elem.stop Fragment.errorLine
        dsimp only
        by_cases hr : func ≠ "Regexp".toList
        · rw [if_pos hr, if_pos hr, e1]
          simp only [Option.map_some, if_pos hr]
          rfl
        · rw [if_neg hr, if_neg hr, e2]
          simp only [if_neg hr]
          cases parse arg with
          | error => rfl
          | ok hir => dsimp only; split <;> rfl
    rw [e]
    cases f.elem.stop parse k <;> rfl

theorem rule_stop (parse : Text → Except String Hir) {r : Rule} {c : Place} (h : r.Placed c) :
    r.stop parse = (c.stop parse).map stopError := by
  unfold Rule.stop Place.stop
  rw [placed_stop parse h.2.2, ← h.1]
  rfl

theorem lexerRule_stop (parse : Text → Except String Hir) (parser : List Place) {r : Rule} {c : Place}
    (h : r.Placed c) : r.lexerStop parse (parser.map (·.clause.lhs)) =
      (c.lexerStop parse parser).map stopError := by
  unfold Rule.lexerStop Place.lexerStop
  have e : r.lhs = c.clause.lhs := congrArg Clause.lhs h.1
  rw [← e]
  split
  · rw [h.2.1]; rfl
  · exact rule_stop parse h

theorem rulesStop_lexer (parse : Text → Except String Hir) (pl : List Text) (rs : List Rule) :
    rulesStop parse pl (rs.map (·, true)) = rs.findSome? (Rule.lexerStop parse pl) := by
  induction rs with
  | nil => rfl
  | cons r rs ih =>
    rw [List.map_cons, rulesStop, List.findSome?_cons]
    show ((r.lexerStop parse pl).or (rulesStop parse pl _)) = _
    rw [ih]
    cases r.lexerStop parse pl <;> rfl

theorem rulesStop_parser (parse : Text → Except String Hir) (rs : List Rule)
    (more : List (Rule × Bool)) : ∀ pl, rulesStop parse pl (rs.map (·, false) ++ more) =
      (rs.findSome? (Rule.stop parse)).or (rulesStop parse (pl ++ rs.map Rule.lhs) more) := by
  induction rs with
  | nil => intro pl; simp
  | cons r rs ih =>
    intro pl
    rw [List.map_cons, List.cons_append, rulesStop, List.findSome?_cons]
    show ((r.stop parse).or (rulesStop parse (pl ++ [r.lhs]) _)) = _
    rw [ih]
    cases r.stop parse with
    | some e => rfl
    | none => simp

theorem rulesStop_eq (parse : Text → Except String Hir) {rs ls : List Rule} {decls : List Decl}
    (hr : List.Forall₂ Rule.Placed rs (parserPlaces 0 decls))
    (hl : List.Forall₂ Rule.Placed ls (lexerPlaces 0 decls)) :
    rulesStop parse [] (rs.map (·, false) ++ ls.map (·, true)) =
      (firstStop parse decls).map stopError := by
  rw [rulesStop_parser, rulesStop_lexer, List.nil_append]
  unfold firstStop
  have e : rs.map Rule.lhs = (parserPlaces 0 decls).map (·.clause.lhs) := by
    have := congrArg (List.map Clause.lhs) (placed_clause hr)
    rw [List.map_map, List.map_map] at this
    exact this
  rw [e, findSome_fault (R := Rule.Placed) (f := Rule.stop parse)
      (fun _ _ h => rule_stop parse h) hr,
    findSome_fault (R := Rule.Placed) (f := Rule.lexerStop parse _)
      (fun _ _ h => lexerRule_stop parse _ h) hl]
  cases (parserPlaces 0 decls).findSome? (Place.stop parse) <;> rfl

theorem build_stop (hp : ∀ arg hir, parse arg = .ok hir → hir.Parsed) {decls : List Decl}
    {rs : List Rule} {lex : Option (List Rule)}
    (hr : List.Forall₂ Rule.Placed rs (parserPlaces 0 decls))
    (hl : List.Forall₂ Rule.Placed (lex.getD []) (lexerPlaces 0 decls)) {s : Stop}
    (h : firstStop parse decls = some s) :
    build .debug parse (.start rs lex) = stopped (stopError s) := by
  have hs := rulesStop_eq parse hr hl
  rw [h] at hs
  have e := loadRules_stop hp _ 0 BuildInv.new (pl := []) ⟨(by intro id h; cases h), by simp⟩ hs
  unfold build
  dsimp only
  rw [e]
  cases stopError s <;> rfl

/-- Without a stop all elements are safe and there is no fault. -/
theorem firstStop_none (hp : ∀ arg hir, parse arg = .ok hir → hir.Parsed) {decls : List Decl}
    {rs ls : List Rule} (hr : List.Forall₂ Rule.Placed rs (parserPlaces 0 decls))
    (hl : List.Forall₂ Rule.Placed ls (lexerPlaces 0 decls)) (h : firstStop parse decls = none) :
    (∀ c ∈ parserClauses decls ++ lexerClauses decls, ∀ e ∈ c.elems, e.Safe parse) ∧
      firstFaultAt parse decls = none := by
  have hs := rulesStop_eq parse hr hl
  rw [h] at hs
  obtain ⟨h1, h2⟩ := rules_stop_none hp _ hs
  rw [firstFault_eq parse hr hl, Option.map_eq_none_iff] at h2
  refine ⟨?_, h2⟩
  have k1 : rs.map Rule.clause = parserClauses decls :=
    (placed_clause hr).trans (parserPlaces_clause decls 0)
  have k2 : ls.map Rule.clause = lexerClauses decls :=
    (placed_clause hl).trans (lexerPlaces_clause decls 0)
  have hcs : (rs.map (·, false) ++ ls.map (·, true)).map (fun r : Rule × Bool => r.1.clause) =
      rs.map Rule.clause ++ ls.map Rule.clause := by
    rw [List.map_append, List.map_map, List.map_map]; rfl
  rw [← k1, ← k2, ← hcs]
  intro c hc
  obtain ⟨r, hr', rfl⟩ := List.mem_map.1 hc
  exact h1 r hr'

end

end Verif.Advanced
