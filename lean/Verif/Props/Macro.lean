import Verif.Proofs.Macro

/-! # C110 and C111: the macro `cfg_regexp!` -/

namespace Verif.Macro

open Advanced

section

variable {R : Recognizer Terminal} (hR : R.Correct advSyntax Nonterminal.start)
  (p : Profile) (parse : Text → Except String Hir) {stream : List TokenTree}

include hR

/-! ## C110 -/

/-- C110 (partial: no token before the error has a line break in it). Some lines are one token each
and can continue to a file, but not with the next token. The error has the span of this token. -/
theorem C110_parse_failed_partial {a b : List (Text × Span)} {l : Text × Span} {tks : List Token}
    {t : Token} (h : Lines (pieces stream) (a ++ l :: b))
    (ha : List.Forall₂ (fun l t => Reads l.1 t) a tks) (hl : Reads l.1 t) (hv : Viable tks)
    (hb : ¬ Viable (tks ++ [t])) (hn : ∀ x ∈ a, '\n' ∉ x.1) (hlen : a.length + 1 < 2 ^ 32) :
    cfgRegexp R p parse stream = .ok (.compileError "parse failed" (some l.2)) := by
  obtain ⟨ts1, col, ts3, end', e1, h1, he⟩ := lexed_code_token (b := b) ha hl
  rw [breaks_eq_zero hn, Nat.add_zero] at h1
  have := C94_parse_failed hR p parse h1 he (t := t) (line := a.length + 1) (col := col)
    ⟨ts1, ts3, rfl, by rw [e1]; exact hv, by rw [e1]; exact hb⟩
  rw [cfgRegexp_error R p parse h hlen this, (Res.index_ok (a := l.2)).2 (by simp)]
  rfl

/-- C110 (partial: no token before the error has a line break in it). The same for a next line of any
number of tokens. -/
theorem C110_parse_failed_line_partial {a b : List (Text × Span)} {l : Text × Span}
    {tks : List Token} {ts : List (Token × Nat × Nat)} {rest : Text}
    (h : Lines (pieces stream) (a ++ l :: b)) (ha : List.Forall₂ (fun l t => Reads l.1 t) a tks)
    (hl : Lexed [] l.1 ts rest) (hv : Viable tks) (hb : ¬ Viable (tks ++ ts.map (·.1)))
    (hn : ∀ x ∈ a, '\n' ∉ x.1) (hn' : '\n' ∉ l.1) (hlen : a.length + 1 < 2 ^ 32) :
    cfgRegexp R p parse stream = .ok (.compileError "parse failed" (some l.2)) := by
  obtain ⟨ts1, ts2, ts3, end', e1, e2, h1, he, hline⟩ := lexed_code (b := b) ha hl hn'
  rw [breaks_eq_zero hn, Nat.add_zero] at hline
  obtain ⟨us1, u, us2, rfl, hv1, hv2⟩ := first_bad (us := ts2) hv (by rw [e2]; exact hb)
  obtain ⟨t, line, col⟩ := u
  obtain rfl : line = a.length + 1 := hline (t, line, col) (by simp)
  have := C94_parse_failed hR p parse h1 he (t := t) (line := a.length + 1) (col := col)
    ⟨ts1 ++ us1, us2 ++ ts3, by simp, by rw [List.map_append, e1]; exact hv1,
      by rw [List.map_append, e1]; exact hv2⟩
  rw [cfgRegexp_error R p parse h hlen this, (Res.index_ok (a := l.2)).2 (by simp)]
  rfl

/-- C110 (partial: no token before the error has a line break in it, and the error is no string that
does not end). Some lines are one token each, and the next one has a place where no token starts. If
the tokens can continue to a file, the error has the span of this line. -/
theorem C110_failed_to_tokenize_partial {a b : List (Text × Span)} {l : Text × Span} {tks : List Token}
    {ts : List (Token × Nat × Nat)} {rest : Text}
    (h : Lines (pieces stream) (a ++ l :: b)) (ha : List.Forall₂ (fun l t => Reads l.1 t) a tks)
    (hl : Lexed [] l.1 ts rest) (hs : Stuck rest) (hv : Viable (tks ++ ts.map (·.1)))
    (hn : ∀ x ∈ a, '\n' ∉ x.1) (hn' : '\n' ∉ l.1) (hlen : a.length + 1 < 2 ^ 32) :
    cfgRegexp R p parse stream = .ok (.compileError "failed to tokenize" (some l.2)) := by
  obtain ⟨ts', col, e, he⟩ := lexError_code (b := b) ha hl hs hn'
  rw [breaks_eq_zero hn, Nat.add_zero] at he
  have := C94_failed_to_tokenize hR p parse he (by rw [e]; exact hv)
  rw [cfgRegexp_error R p parse h hlen this, (Res.index_ok (a := l.2)).2 (by simp)]
  rfl

/-- C110: an incomplete file is about no token. -/
theorem C110_incomplete {ls : List (Text × Span)} {tks : List Token} (h : Lines (pieces stream) ls)
    (hr : List.Forall₂ (fun l t => Reads l.1 t) ls tks) (hv : Viable tks)
    (hno : ∀ decls, ¬ IsFile decls tks) :
    cfgRegexp R p parse stream = .ok (.compileError "parse failed: no result" none) := by
  obtain ⟨ts, e, hl⟩ := lexed_lines hr [] [] [] [] (.done _ _)
  rw [List.append_nil, List.append_nil] at hl
  have := C94_incomplete hR p parse hl (by rw [e]; exact hv) (by rw [e]; exact hno)
  rw [cfgRegexp_eq R p parse h, this]
  rfl

/-- C110 (partial: the file starts with a rule and has at most one lexer block; its strings and
expressions can be translated). A file that cannot be loaded gives an error with the first reason and
the span of the token to blame, also with line breaks in strings. -/
theorem C110_rejected_partial {ls : List (Text × Span)} {tks : List Token} {decls : List Decl}
    (h : Lines (pieces stream) ls) (hr : List.Forall₂ (fun l t => Reads l.1 t) ls tks)
    (hf : IsFile decls tks) (hld : Loadable decls) (hs : ∀ e ∈ fileElems decls, e.Safe parse)
    {reason : String} {k : Nat} (he : firstFaultAt parse decls = some (reason, k))
    (hlen : ls.length < 2 ^ 32) :
    ∃ l, ls[k]? = some l ∧
      cfgRegexp R p parse stream = .ok (.compileError reason (some l.2)) := by
  obtain ⟨ts, e, hl⟩ := lexed_lines hr [] [] [] [] (.done _ _)
  rw [List.append_nil, List.append_nil] at hl
  rw [← e] at hf
  have h1 := load_safe hR p parse hl hf hld hs
  rw [he] at h1
  obtain ⟨t, ht⟩ : ∃ t, tks[k]? = some t := by
    have := firstFaultAt_fits parse decls
    rw [he] at this
    rw [← e, hf.2.2]
    cases hx : firstReason parse (parserClauses decls) (lexerClauses decls) with
    | none => rw [hx] at this; exact this.elim
    | some x => rw [hx] at this; exact ⟨_, this.2⟩
  have hk : k < ls.length := by
    rw [List.Forall₂.length_eq hr]
    exact (List.getElem?_eq_some_iff.1 ht).1
  refine ⟨ls[k], List.getElem?_eq_getElem hk, ?_⟩
  rw [cfgRegexp_error R p parse h (by omega) h1,
    (Res.index_ok (a := ls[k].2)).2 (by simp [List.getElem?_eq_getElem hk])]
  rfl

/-- C110 is violated: line breaks in the tokens before the error move it. As many lines as there are
line breaks after the first token that does not fit, there is the token that gets the error; if there
is none, the macro panics. -/
theorem C110_violated_line_breaks {a b : List (Text × Span)} {l : Text × Span} {tks : List Token}
    {t : Token} (h : Lines (pieces stream) (a ++ l :: b))
    (ha : List.Forall₂ (fun l t => Reads l.1 t) a tks) (hl : Reads l.1 t) (hv : Viable tks)
    (hb : ¬ Viable (tks ++ [t])) {x : Text × Span} (hx : x ∈ a) (hn : '\n' ∈ x.1)
    (hlen : a.length + breaks a + 1 < 2 ^ 32) :
    0 < breaks a ∧
    (∀ y, (l :: b)[breaks a]? = some y →
      cfgRegexp R p parse stream = .ok (.compileError "parse failed" (some y.2))) ∧
    ((l :: b)[breaks a]? = none → cfgRegexp R p parse stream = .panic) := by
  obtain ⟨ts1, col, ts3, end', e1, h1, he⟩ := lexed_code_token (b := b) ha hl
  have := C94_parse_failed hR p parse h1 he (t := t) (line := a.length + breaks a + 1) (col := col)
    ⟨ts1, ts3, rfl, by rw [e1]; exact hv, by rw [e1]; exact hb⟩
  rw [cfgRegexp_error R p parse h hlen this]
  refine ⟨breaks_pos hx hn, fun y hy => ?_, fun hy => ?_⟩
  · rw [(Res.index_ok (a := y.2)).2 (by
      rw [List.getElem?_map, List.getElem?_append_right (by omega), Nat.add_sub_cancel_left, hy]
      rfl)]
    rfl
  · rw [List.getElem?_eq_none_iff] at hy
    rw [Res.index_panic (by
      rw [List.length_map, List.length_append]
      omega)]
    rfl

/-- C110 is violated: a string that does not end is a panic. The compiler gives such a token for a raw
string with a backslash before the last quote. -/
theorem C110_violated_unterminated {a b : List (Text × Span)} {l : Text × Span} {tks : List Token}
    {ts : List (Token × Nat × Nat)} {rest : Text} (h : Lines (pieces stream) (a ++ l :: b))
    (ha : List.Forall₂ (fun l t => Reads l.1 t) a tks) (hl : Lexed [] l.1 ts rest)
    (hn : '\n' ∉ l.1) (hs : Unterminated (rest ++ '\n' :: code b)) (hv : Viable (tks ++ ts.map (·.1)))
    (hlen : (a ++ l :: b).length + breaks (a ++ l :: b) + 1 < 2 ^ 32) :
    cfgRegexp R p parse stream = .panic := by
  obtain ⟨ts1, mid, e1, e2, h1, -⟩ := lexed_more hl (code b) hn ([] ++ code a)
  obtain ⟨ts', e3, h2⟩ := lexed_lines ha [] _ _ _ h1
  have := C94_failed_to_tokenize hR p parse (text := code (a ++ l :: b)) (ts := ts' ++ ts1)
    (line := lineAfter (code a ++ mid)) (col := colAfter (code a ++ mid))
    (line' := lineAfter (code (a ++ l :: b))) (col' := colAfter (code (a ++ l :: b)))
    ⟨code a ++ mid, rest ++ '\n' :: code b, by rw [code_append, code_cons, e1]; simp,
      by rw [code_append, code_cons]; exact h2, rfl, rfl, .inr ⟨hs, rfl, rfl⟩⟩
    (by rw [List.map_append, e2, e3]; exact hv)
  rw [lineAfter_code] at this
  rw [cfgRegexp_error R p parse h hlen this, Res.index_panic (by rw [List.length_map]; omega)]
  rfl

/-! ## C111 -/

/-- C111 (partial: the file has a string or a rule in a lexer block). The macro makes a parser. -/
theorem C111_expands_partial {ls : List (Text × Span)} {tks : List Token} {decls : List Decl}
    (h : Lines (pieces stream) ls) (hr : List.Forall₂ (fun l t => Reads l.1 t) ls tks)
    (hf : IsFile decls tks) (hld : Loadable decls) (hs : ∀ e ∈ fileElems decls, e.Safe parse)
    (hno : firstReason parse (parserClauses decls) (lexerClauses decls) = none)
    (hlex : (∃ s, .str s ∈ fileElems decls) ∨ lexerClauses decls ≠ []) :
    cfgRegexp R p parse stream = .ok .parser := by
  obtain ⟨ts, e, hl⟩ := lexed_lines hr [] [] [] [] (.done _ _)
  rw [List.append_nil, List.append_nil] at hl
  rw [← e] at hf
  obtain ⟨G, sym, h1, -, h2⟩ := loaded_of_none hR p parse hl hf hld hs hno
  rw [cfgRegexp_eq R p parse h, h1, Res.bind_ok]
  have : ∃ s, Has G.sbs s := by
    rcases hlex with ⟨s, hs⟩ | hne
    · exact ⟨_, (h2.sbs.2 _).2 (.inl ⟨0, stringsOf_pos hs, rfl⟩)⟩
    · obtain ⟨c, hc⟩ := List.exists_mem_of_ne_nil _ hne
      exact ⟨_, (h2.sbs.2 _).2 (.inr ⟨c, hc, rfl⟩)⟩
  exact if_pos (isEmpty_iff.2 this)

/-- C111 is violated: a file without strings and without rules in a lexer block is a panic. -/
theorem C111_violated {ls : List (Text × Span)} {tks : List Token} {decls : List Decl}
    (h : Lines (pieces stream) ls) (hr : List.Forall₂ (fun l t => Reads l.1 t) ls tks)
    (hf : IsFile decls tks) (hld : Loadable decls) (hs : ∀ e ∈ fileElems decls, e.Safe parse)
    (hno : firstReason parse (parserClauses decls) (lexerClauses decls) = none)
    (hstr : ∀ s, .str s ∉ fileElems decls) (hlex : lexerClauses decls = []) :
    (∃ G, load R p parse (code ls) = .ok (.ok G)) ∧ cfgRegexp R p parse stream = .panic := by
  obtain ⟨ts, e, hl⟩ := lexed_lines hr [] [] [] [] (.done _ _)
  rw [List.append_nil, List.append_nil] at hl
  rw [← e] at hf
  obtain ⟨G, sym, h1, -, h2⟩ := loaded_of_none hR p parse hl hf hld hs hno
  refine ⟨⟨G, h1⟩, ?_⟩
  rw [cfgRegexp_eq R p parse h, h1, Res.bind_ok]
  have : ¬ ∃ s, Has G.sbs s := by
    rintro ⟨s, hs⟩
    rcases (h2.sbs.2 s).1 hs with ⟨i, hi, -⟩ | ⟨c, hc, -⟩
    · rw [stringsOf_nil hstr] at hi
      exact absurd hi (Nat.not_lt_zero _)
    · rw [hlex] at hc
      cases hc
  exact if_neg (isEmpty_iff.not.2 this)

end

/-! ## Examples -/

/-- `a ::= "x" ; ;` with any literal, and more tokens. -/
def exCall (literal : Text) (more : List TokenTree) : List TokenTree :=
  [.ident ['a'] ⟨0, 1⟩, .punct ':' ⟨2, 3⟩, .punct ':' ⟨3, 4⟩, .punct '=' ⟨4, 5⟩,
    .literal literal ⟨6, 11⟩, .punct ';' ⟨11, 12⟩] ++ more

/-- The lines of `a ::= "x" ;`. -/
def exLines (literal : Text) : List (Text × Span) :=
  [(['a'], ⟨0, 1⟩), ([':', ':', '='], ⟨4, 5⟩), (literal, ⟨6, 11⟩), ([';'], ⟨11, 12⟩)]

theorem exCall_lines (literal : Text) {more : List TokenTree} {ls : List (Text × Span)}
    (h : Lines (pieces more) ls) : Lines (pieces (exCall literal more)) (exLines literal ++ ls) :=
  .piece rfl (.joined rfl rfl (.joined rfl rfl (.piece rfl (.piece rfl (.piece rfl h)))))

/-- The grammar `a ::= "x" ;` with any string. -/
def exStmt (s : Text) : Stmt := ⟨['a'], [⟨[.str s], none⟩]⟩

theorem exStmt_ok (s : Text) : (exStmt s).Ok := by simp [exStmt, Stmt.Ok]

theorem exLines_reads {s v : Text} (h : Quoted s v) :
    List.Forall₂ (fun l t => Reads l.1 t) (exLines ('"' :: (s ++ ['"']))) (exStmt v).tokens :=
  .cons (.word (s := ['a']) ⟨⟨_, _, rfl, by decide⟩, by decide⟩) (.cons (.punct .bnfOp)
    (.cons (.string h) (.cons (.punct .semicolon) .nil)))

theorem viable_stmt {s : Stmt} (h : s.Ok) : Viable s.tokens :=
  ⟨[], [.rule s], by simp, by simpa [Decl.Ok] using h, by simp [Decl.tokens]⟩

theorem viable_after {s : Stmt} (hs : s.Ok) {t : Token} {ts : List Token}
    (h : Viable (s.tokens ++ t :: ts)) : Viable (t :: ts) := by
  obtain ⟨more, decls, hne, hall, e⟩ := h
  cases decls with
  | nil => exact absurd rfl hne
  | cons d decls =>
    rw [List.flatMap_cons] at e
    cases d with
    | lexer ss =>
      obtain ⟨lhs, alts⟩ := s
      cases e
    | rule s' =>
      obtain ⟨-, e2⟩ := stmt_unique (s := s) (r := t :: ts ++ more) hs (hall (.rule s') (by simp))
        (by simpa [Decl.tokens] using e)
      refine ⟨more, decls, ?_, fun d hd => hall d (List.mem_cons_of_mem _ hd), e2⟩
      rintro rfl
      cases e2

theorem not_viable_semicolon {s : Stmt} (hs : s.Ok) : ¬ Viable (s.tokens ++ [.semicolon]) := by
  intro h
  obtain ⟨more, decls, hne, -, e⟩ := viable_after hs h
  cases decls with
  | nil => exact hne rfl
  | cons d decls =>
    cases d with
    | lexer ss => cases e
    | rule s => cases e

theorem not_viable_strings {s : Stmt} (hs : s.Ok) {w v : Text} :
    ¬ Viable (s.tokens ++ [.ident w, .string v]) := by
  intro h
  obtain ⟨more, decls, hne, -, e⟩ := viable_after hs h
  cases decls with
  | nil => exact hne rfl
  | cons d decls =>
    cases d with
    | lexer ss => cases e
    | rule s => cases e

/-- A call that meets the hypotheses of `C110_parse_failed_partial`: `a ::= "xy" ; ; b`. -/
example : Lines (pieces (exCall ['"', 'x', 'y', '"'] [.punct ';' ⟨12, 13⟩, .ident ['b'] ⟨14, 15⟩]))
      (exLines ['"', 'x', 'y', '"'] ++ ([';'], ⟨12, 13⟩) :: [(['b'], ⟨14, 15⟩)]) ∧
    List.Forall₂ (fun l t => Reads l.1 t) (exLines ['"', 'x', 'y', '"']) (exStmt ['x', 'y']).tokens ∧
    Reads [';'] .semicolon ∧ Viable (exStmt ['x', 'y']).tokens ∧
    ¬ Viable ((exStmt ['x', 'y']).tokens ++ [.semicolon]) ∧
    ∀ x ∈ exLines ['"', 'x', 'y', '"'], '\n' ∉ x.1 :=
  ⟨exCall_lines _ (.piece rfl (.piece rfl .nil)),
    exLines_reads (s := ['x', 'y']) (.plain (by decide) (by decide) (.plain (by decide) (by decide) .nil)),
    .punct .semicolon, viable_stmt (exStmt_ok _), not_viable_semicolon (exStmt_ok _), by decide⟩

theorem exBreak_quoted : Quoted ['x', '\n', 'y'] ['x', '\n', 'y'] :=
  .plain (by decide) (by decide) (.plain (by decide) (by decide) (.plain (by decide) (by decide) .nil))

/-- C110 is violated: in `a ::= "x⏎y" ; ; b`, the second semicolon does not fit, and the error has the
span of `b`. -/
theorem C110_violated_wrong_token {R : Recognizer Terminal}
    (hR : R.Correct advSyntax Nonterminal.start) (p : Profile) (parse : Text → Except String Hir) :
    cfgRegexp R p parse (exCall ['"', 'x', '\n', 'y', '"']
        [.punct ';' ⟨12, 13⟩, .ident ['b'] ⟨14, 15⟩]) =
      .ok (.compileError "parse failed" (some ⟨14, 15⟩)) :=
  (C110_violated_line_breaks hR p parse (l := ([';'], ⟨12, 13⟩)) (b := [(['b'], ⟨14, 15⟩)])
    (exCall_lines _ (more := [.punct ';' ⟨12, 13⟩, .ident ['b'] ⟨14, 15⟩]) (.piece rfl (.piece rfl .nil))) (exLines_reads (s := ['x', '\n', 'y']) exBreak_quoted)
    (.punct .semicolon) (viable_stmt (exStmt_ok _)) (not_viable_semicolon (exStmt_ok _))
    (x := (['"', 'x', '\n', 'y', '"'], ⟨6, 11⟩)) (by decide) (by decide) (by decide)).2.1
    (['b'], ⟨14, 15⟩) (by decide)

/-- C110 is violated: `a ::= "x⏎y" ; ;` is a panic. -/
theorem C110_violated_panic {R : Recognizer Terminal}
    (hR : R.Correct advSyntax Nonterminal.start) (p : Profile) (parse : Text → Except String Hir) :
    cfgRegexp R p parse (exCall ['"', 'x', '\n', 'y', '"'] [.punct ';' ⟨12, 13⟩]) = .panic :=
  (C110_violated_line_breaks hR p parse (l := ([';'], ⟨12, 13⟩)) (b := [])
    (exCall_lines _ (more := [.punct ';' ⟨12, 13⟩]) (.piece rfl .nil)) (exLines_reads (s := ['x', '\n', 'y']) exBreak_quoted)
    (.punct .semicolon) (viable_stmt (exStmt_ok _)) (not_viable_semicolon (exStmt_ok _))
    (x := (['"', 'x', '\n', 'y', '"'], ⟨6, 11⟩)) (by decide) (by decide) (by decide)).2.2 (by decide)

/-- A call that meets the hypotheses of `C110_parse_failed_line_partial`: in `a ::= "xy" ; r"z" b`,
the raw string is two tokens for the loader. -/
example : Lines (pieces (exCall ['"', 'x', 'y', '"']
        [.literal ['r', '"', 'z', '"'] ⟨13, 17⟩, .ident ['b'] ⟨18, 19⟩]))
      (exLines ['"', 'x', 'y', '"'] ++ (['r', '"', 'z', '"'], ⟨13, 17⟩) :: [(['b'], ⟨18, 19⟩)]) ∧
    Lexed [] ['r', '"', 'z', '"'] [(.ident ['r'], 1, 1), (.string ['z'], 1, 2)] [] ∧
    Viable (exStmt ['x', 'y']).tokens ∧
    ¬ Viable ((exStmt ['x', 'y']).tokens ++ [.ident ['r'], .string ['z']]) :=
  ⟨exCall_lines _ (.piece rfl (.piece rfl .nil)),
    lexed_of_tokenize (by decide +kernel) (by decide +kernel), viable_stmt (exStmt_ok _),
    not_viable_strings (exStmt_ok _)⟩

/-- A call that meets the hypotheses of `C110_failed_to_tokenize_partial`: `a ::= "xy" ; # b`. -/
example : Lines (pieces (exCall ['"', 'x', 'y', '"'] [.punct '#' ⟨13, 14⟩, .ident ['b'] ⟨15, 16⟩]))
      (exLines ['"', 'x', 'y', '"'] ++ (['#'], ⟨13, 14⟩) :: [(['b'], ⟨15, 16⟩)]) ∧
    Lexed [] ['#'] [] ['#'] ∧ Stuck ['#'] ∧ Viable ((exStmt ['x', 'y']).tokens ++ []) := by
  refine ⟨exCall_lines _ (.piece rfl (.piece rfl .nil)), .done _ _,
    ⟨'#', [], rfl, by unfold Blank; decide, by decide, by decide, ?_⟩, by
      rw [List.append_nil]; exact viable_stmt (exStmt_ok _)⟩
  intro s t hs
  cases hs <;> decide

/-- The start of a rule: `a ::=`. -/
def exStart : List TokenTree :=
  [.ident ['a'] ⟨0, 1⟩, .punct ':' ⟨2, 3⟩, .punct ':' ⟨3, 4⟩, .punct '=' ⟨4, 5⟩]

theorem exStart_lines : Lines (pieces exStart) [(['a'], ⟨0, 1⟩), ([':', ':', '='], ⟨4, 5⟩)] :=
  .piece rfl (.joined rfl rfl (.joined rfl rfl (.piece rfl .nil)))

theorem exStart_reads : List.Forall₂ (fun (l : Text × Span) t => Reads l.1 t)
    [(['a'], ⟨0, 1⟩), ([':', ':', '='], ⟨4, 5⟩)] [.ident ['a'], .bnfOp] :=
  .cons (.word (s := ['a']) ⟨⟨_, _, rfl, by decide⟩, by decide⟩) (.cons (.punct .bnfOp) .nil)

theorem exStart_viable : Viable [.ident ['a'], .bnfOp] :=
  viable_prefix (b := [.semicolon]) (viable_stmt (s := ⟨['a'], [⟨[], none⟩]⟩) (by simp [Stmt.Ok]))

/-- A call that meets the hypotheses of `C110_incomplete`: `a ::=`. -/
example : Lines (pieces exStart) [(['a'], ⟨0, 1⟩), ([':', ':', '='], ⟨4, 5⟩)] ∧
    Viable [.ident ['a'], .bnfOp] ∧ ∀ decls, ¬ IsFile decls [.ident ['a'], .bnfOp] := by
  refine ⟨exStart_lines, exStart_viable, ?_⟩
  rintro decls ⟨hne, -, e⟩
  cases decls with
  | nil => exact hne rfl
  | cons d decls =>
    rw [List.flatMap_cons] at e
    cases d with
    | lexer ss => cases e
    | rule s => simp [Decl.tokens, Stmt.tokens] at e

/-- The call `a ::= foo ("x⏎y") ;`. -/
def exFoo : List TokenTree :=
  exStart ++ [.ident ['f', 'o', 'o'] ⟨6, 9⟩,
    .group .parenthesis [.literal ['"', 'x', '\n', 'y', '"'] ⟨11, 16⟩] ⟨10, 11⟩ ⟨16, 17⟩,
    .punct ';' ⟨17, 18⟩]

theorem exFoo_lines : Lines (pieces exFoo) [(['a'], ⟨0, 1⟩), ([':', ':', '='], ⟨4, 5⟩),
    (['f', 'o', 'o'], ⟨6, 9⟩), (['('], ⟨10, 11⟩), (['"', 'x', '\n', 'y', '"'], ⟨11, 16⟩),
    ([')'], ⟨16, 17⟩), ([';'], ⟨17, 18⟩)] :=
  .piece rfl (.joined rfl rfl (.joined rfl rfl (.piece rfl (.piece rfl (.piece rfl (.piece rfl
    (.piece rfl (.piece rfl .nil))))))))

/-- A call that meets the hypotheses of `C110_rejected_partial`, with its result: in
`a ::= foo ("x⏎y") ;`, the third token is no known function. -/
example {R : Recognizer Terminal} (hR : R.Correct advSyntax Nonterminal.start) (p : Profile) :
    cfgRegexp R p exParse exFoo =
      .ok (.compileError "expected 'Regexp', found 'foo'" (some ⟨6, 9⟩)) := by
  obtain ⟨l, h1, h2⟩ := C110_rejected_partial hR p exParse
    (decls := [.rule ⟨['a'], [⟨[.call ['f', 'o', 'o'] ['x', '\n', 'y']], none⟩]⟩])
    (reason := "expected 'Regexp', found 'foo'") (k := 2) exFoo_lines
    (.cons (.word (s := ['a']) ⟨⟨_, _, rfl, by decide⟩, by decide⟩) (.cons (.punct .bnfOp)
      (.cons (.word (s := ['f', 'o', 'o']) ⟨⟨_, _, rfl, by decide⟩, by decide⟩) (.cons (.punct .lparen)
        (.cons (.string (s := ['x', '\n', 'y']) exBreak_quoted) (.cons (.punct .rparen)
          (.cons (.punct .semicolon) .nil)))))))
    ⟨by simp, by simp [Decl.Ok, Stmt.Ok], rfl⟩ ⟨⟨_, rfl⟩, by decide⟩
    (by
      intro e he
      obtain rfl : e = .call ['f', 'o', 'o'] ['x', '\n', 'y'] := List.mem_singleton.1 he
      exact ex_safe (by decide))
    (by decide +kernel) (by decide)
  rw [h2]
  obtain rfl := Option.some.inj h1
  rfl

theorem exRaw_unterminated : Unterminated (['"', '\\', '"'] ++ '\n' :: code [([';'], ⟨11, 12⟩)]) := by
  refine ⟨['\\', '"', '\n', ';', '\n'], rfl, ?_⟩
  rintro s v hq ⟨r, hr⟩
  cases hq with
  | nil => simp at hr
  | plain h1 h2 _ => simp at hr; exact h2 hr.1
  | escape hq =>
    simp at hr
    obtain ⟨rfl, hr⟩ := hr
    have hm : '"' ∈ ['\n', ';', '\n'] := by rw [← hr]; simp
    exact absurd hm (by decide)

/-- C110 is violated: `a ::= r"\" ;` is a panic. -/
theorem C110_violated_raw {R : Recognizer Terminal}
    (hR : R.Correct advSyntax Nonterminal.start) (p : Profile) (parse : Text → Except String Hir) :
    cfgRegexp R p parse (exCall ['r', '"', '\\', '"'] []) = .panic := by
  refine C110_violated_unterminated hR p parse (a := [(['a'], ⟨0, 1⟩), ([':', ':', '='], ⟨4, 5⟩)])
    (l := (['r', '"', '\\', '"'], ⟨6, 11⟩))
    (b := [([';'], ⟨11, 12⟩)]) (rest := ['"', '\\', '"']) (exCall_lines _ .nil) exStart_reads
    (.word (s := ['r']) ⟨⟨_, _, rfl, by decide⟩, by decide⟩ ?_ (.done _ _)) (by decide)
    exRaw_unterminated ?_ (by decide)
  · intro c t e
    obtain rfl : '"' = c := (List.cons.inj e).1
    decide
  · exact viable_prefix (b := [.semicolon]) (viable_stmt (s := ⟨['a'], [⟨[.name ['r'] .none], none⟩]⟩)
      (by simp [Stmt.Ok]))

/-- A call that meets the hypotheses of `C111_expands_partial`, with its result: `a ::= "xy" ;`. -/
example {R : Recognizer Terminal} (hR : R.Correct advSyntax Nonterminal.start) (p : Profile) :
    cfgRegexp R p exParse (exCall ['"', 'x', 'y', '"'] []) = .ok .parser :=
  C111_expands_partial hR p exParse (ls := exLines ['"', 'x', 'y', '"'] ++ [])
    (decls := [.rule (exStmt ['x', 'y'])]) (exCall_lines _ .nil)
    (exLines_reads (s := ['x', 'y']) (.plain (by decide) (by decide) (.plain (by decide) (by decide) .nil)))
    ⟨by simp, by simpa [Decl.Ok] using exStmt_ok _, rfl⟩ ⟨⟨_, rfl⟩, by decide⟩
    (by
      intro e he
      obtain rfl : e = .str ['x', 'y'] := List.mem_singleton.1 he
      have : ∀ c ∈ ['x', 'y'], IsChar (c.toNat + 1) := by decide
      exact this)
    (by decide +kernel) (.inl ⟨['x', 'y'], List.mem_singleton.2 rfl⟩)

/-- C111 is violated: `a ::= b ;` is a panic. -/
theorem C111_violated_panic {R : Recognizer Terminal}
    (hR : R.Correct advSyntax Nonterminal.start) (p : Profile) (parse : Text → Except String Hir) :
    (∃ G, load R p parse "a\n::=\nb\n;\n".toList = .ok (.ok G)) ∧
    cfgRegexp R p parse (exStart ++ [.ident ['b'] ⟨6, 7⟩, .punct ';' ⟨7, 8⟩]) = .panic :=
  C111_violated hR p parse
    (ls := [(['a'], ⟨0, 1⟩), ([':', ':', '='], ⟨4, 5⟩), (['b'], ⟨6, 7⟩), ([';'], ⟨7, 8⟩)])
    (decls := [.rule ⟨['a'], [⟨[.name ['b'] .none], none⟩]⟩])
    (.piece rfl (.joined rfl rfl (.joined rfl rfl (.piece rfl (.piece rfl (.piece rfl .nil))))))
    (.cons (.word (s := ['a']) ⟨⟨_, _, rfl, by decide⟩, by decide⟩) (.cons (.punct .bnfOp)
      (.cons (.word (s := ['b']) ⟨⟨_, _, rfl, by decide⟩, by decide⟩) (.cons (.punct .semicolon) .nil))))
    ⟨by simp, by simp [Decl.Ok, Stmt.Ok], rfl⟩ ⟨⟨_, rfl⟩, by decide⟩
    (by
      intro e he
      obtain rfl : e = .name ['b'] .none := List.mem_singleton.1 he
      trivial)
    rfl (fun s hs => nomatch List.mem_singleton.1 hs) rfl

end Verif.Macro
