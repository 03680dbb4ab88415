import Verif.Props.LoadAdvanced
import Verif.Props.Load
import Verif.Proofs.LoadAdvText

/-! # The advanced loader: C95 to C100 -/

namespace Verif

open Advanced

/-- The elements of a file. -/
def fileElems (decls : List Decl) : List Elem :=
  (parserClauses decls ++ lexerClauses decls).flatMap Clause.elems

theorem stmt_clauses_ne {s : Stmt} (h : s.Ok) : s.clauses ≠ [] := by
  unfold Stmt.clauses
  rw [ne_eq, List.map_eq_nil_iff]
  rcases h with ⟨a, e⟩ | ⟨h, -⟩
  · rw [e]; simp
  · exact h

theorem clauses_ne {decls : List Decl} {ts : List Token} (hf : IsFile decls ts)
    (hld : Loadable decls) : parserClauses decls ++ lexerClauses decls ≠ [] := by
  obtain ⟨⟨s, hs⟩, -⟩ := hld
  cases decls with
  | nil => cases hs
  | cons d decls =>
    cases hs
    have := stmt_clauses_ne (hf.2.1 (.rule s) (by simp))
    unfold parserClauses
    rw [List.flatMap_cons]
    simp [this]

section

variable {R : Recognizer Terminal} (hR : R.Correct advSyntax Nonterminal.start)
  (p : Profile) (parse : Text → Except String Hir) {text : Text} {ts : List (Token × Nat × Nat)}
  {decls : List Decl} (hl : Lexed [] text ts []) (hf : IsFile decls (ts.map (·.1)))

include hR hl hf

theorem load_file :
    (¬ Loadable decls ∧ load R p parse text = .panic) ∨
    (Loadable decls ∧ ∃ rs lex, List.Forall₂ Rule.Placed rs (parserPlaces 0 decls) ∧
      List.Forall₂ Rule.Placed (lex.getD []) (lexerPlaces 0 decls) ∧
      load R p parse text = Advanced.build p parse (.start rs lex)) := by
  have h := load_spec hR p parse text
  generalize load R p parse text = r at h
  cases h with
  | parse hl2 he2 hb =>
    obtain ⟨rfl, -⟩ := lexed_unique hl hl2 ends_nil he2
    exact absurd (file_viable hf) (firstBad_not_viable hb)
  | lex h _ =>
    obtain ⟨bad, hl', he', hne⟩ := lexError_ends h
    exact absurd (lexed_unique hl hl' ends_nil he').2.symm hne
  | incomplete hl2 _ hno =>
    obtain ⟨rfl, -⟩ := lexed_unique hl hl2 ends_nil ends_nil
    exact absurd hf (hno _)
  | unloadable hl2 hf2 hld =>
    obtain ⟨rfl, -⟩ := lexed_unique hl hl2 ends_nil ends_nil
    rw [isFile_unique hf hf2]
    exact .inl ⟨hld, rfl⟩
  | build hl2 hf2 hld k1 k2 =>
    obtain ⟨rfl, -⟩ := lexed_unique hl hl2 ends_nil ends_nil
    rw [isFile_unique hf hf2]
    exact .inr ⟨hld, _, _, k1, k2, rfl⟩

theorem load_safe (hld : Loadable decls) (hs : ∀ e ∈ fileElems decls, e.Safe parse) :
    match firstFaultAt parse decls with
    | some r => load R p parse text = .ok (.error (faultError r))
    | none => ∃ G sym, load R p parse text = .ok (.ok G) ∧
        Loaded parse (parserClauses decls) (lexerClauses decls) G sym ∧
        Records (parserClauses decls) (lexerClauses decls) G sym := by
  rcases load_file hR p parse hl hf with ⟨h, -⟩ | ⟨-, rs, lex, k1, k2, e⟩
  · exact absurd hld h
  · rw [e]
    exact build_spec p (parse := parse) k1 k2 (by
      intro c hc e he
      exact hs e (List.mem_flatMap.2 ⟨c, hc, he⟩)) (clauses_ne hf hld)

end

/-! ## C95 -/

/-- C95 (partial: files that start with a lexer block or have two of them, strings with a character
that has no next character, and expressions with look-around, byte 255 or huge bounds are excluded).
Loading a text returns a grammar or an error. -/
theorem C95_returns_partial {R : Recognizer Terminal} (hR : R.Correct advSyntax Nonterminal.start)
    (p : Profile) (parse : Text → Except String Hir) (text : Text)
    (h : ∀ ts decls, Lexed [] text ts [] → IsFile decls (ts.map (·.1)) →
      Loadable decls ∧ ∀ e ∈ fileElems decls, e.Safe parse) :
    ∃ r, load R p parse text = .ok r := by
  rcases C94_exhaustive text with ⟨ts, rest, t, line, col, hl, he, hb⟩ |
    ⟨ts, line, col, line', col', hl, hv⟩ | ⟨ts, hl, hv⟩
  · exact ⟨_, C94_parse_failed hR p parse hl he hb⟩
  · exact ⟨_, C94_failed_to_tokenize hR p parse hl hv⟩
  · by_cases hf : ∃ decls, IsFile decls (ts.map (·.1))
    · obtain ⟨decls, hf⟩ := hf
      obtain ⟨h1, h2⟩ := h ts decls hl hf
      have := load_safe hR p parse hl hf h1 h2
      split at this
      · exact ⟨_, this⟩
      · obtain ⟨_, _, e, -⟩ := this
        exact ⟨_, e⟩
    · exact ⟨_, C94_incomplete hR p parse hl hv fun decls h => hf ⟨decls, h⟩⟩

/-- C95: every valid file that starts with a lexer block, or has two of them, makes the loader
panic. -/
theorem C95_panics {R : Recognizer Terminal} (hR : R.Correct advSyntax Nonterminal.start)
    (p : Profile) (parse : Text → Except String Hir) {text : Text} {ts : List (Token × Nat × Nat)}
    {decls : List Decl} (hl : Lexed [] text ts []) (hf : IsFile decls (ts.map (·.1)))
    (hld : ¬ Loadable decls) : load R p parse text = .panic := by
  rcases load_file hR p parse hl hf with ⟨-, e⟩ | ⟨h, -⟩
  · exact e
  · exact absurd h hld

theorem lexed_file {text : Text} {decls : List Decl} {ts : List (Token × Nat × Nat)}
    (e : tokenize text = .ok ts) (hp : ∀ t ∈ ts, Plain t.1) (hne : decls ≠ [])
    (hok : ∀ d ∈ decls, d.Ok) (ht : ts.map (·.1) = decls.flatMap Decl.tokens) :
    Lexed [] text ts [] ∧ IsFile decls (ts.map (·.1)) :=
  ⟨lexed_of_tokenize e hp, hne, hok, ht⟩

/-- C95 is violated: a lexer block before the rules is a panic. -/
theorem C95_violated_lexer_first {R : Recognizer Terminal}
    (hR : R.Correct advSyntax Nonterminal.start) (p : Profile) (parse : Text → Except String Hir) :
    load R p parse "lexer { b ::= \"c\"; } a ::= b;".toList = .panic := by
  let ts : List (Token × Nat × Nat) := [(.lexerKeyword, 1, 1), (.lbrace, 1, 7),
    (.ident ['b'], 1, 9), (.bnfOp, 1, 11), (.string ['c'], 1, 15), (.semicolon, 1, 18),
    (.rbrace, 1, 20), (.ident ['a'], 1, 22), (.bnfOp, 1, 24), (.ident ['b'], 1, 28),
    (.semicolon, 1, 29)]
  obtain ⟨h1, h2⟩ := lexed_file (ts := ts)
    (text := "lexer { b ::= \"c\"; } a ::= b;".toList)
    (decls := [.lexer [⟨['b'], [⟨[.str ['c']], none⟩]⟩], .rule ⟨['a'], [⟨[.name ['b'] .none], none⟩]⟩])
    (by decide +kernel) (by decide +kernel) (by simp) (by simp [Decl.Ok, Stmt.Ok]) rfl
  refine C95_panics hR p parse h1 h2 ?_
  rintro ⟨⟨s, h⟩, -⟩
  cases h

/-- C95 is violated: a second lexer block is a panic. -/
theorem C95_violated_two_lexers {R : Recognizer Terminal}
    (hR : R.Correct advSyntax Nonterminal.start) (p : Profile) (parse : Text → Except String Hir) :
    load R p parse "a ::= b; lexer { b ::= \"c\"; } lexer { d ::= \"e\"; }".toList = .panic := by
  let ts : List (Token × Nat × Nat) := [(.ident ['a'], 1, 1), (.bnfOp, 1, 3), (.ident ['b'], 1, 7),
    (.semicolon, 1, 8), (.lexerKeyword, 1, 10), (.lbrace, 1, 16),
    (.ident ['b'], 1, 18), (.bnfOp, 1, 20), (.string ['c'], 1, 24), (.semicolon, 1, 27),
    (.rbrace, 1, 29), (.lexerKeyword, 1, 31), (.lbrace, 1, 37),
    (.ident ['d'], 1, 39), (.bnfOp, 1, 41), (.string ['e'], 1, 45), (.semicolon, 1, 48),
    (.rbrace, 1, 50)]
  obtain ⟨h1, h2⟩ := lexed_file (ts := ts)
    (text := "a ::= b; lexer { b ::= \"c\"; } lexer { d ::= \"e\"; }".toList)
    (decls := [.rule ⟨['a'], [⟨[.name ['b'] .none], none⟩]⟩,
      .lexer [⟨['b'], [⟨[.str ['c']], none⟩]⟩], .lexer [⟨['d'], [⟨[.str ['e']], none⟩]⟩]])
    (by decide +kernel) (by decide +kernel) (by simp) (by simp [Decl.Ok, Stmt.Ok]) rfl
  refine C95_panics hR p parse h1 h2 ?_
  rintro ⟨-, h⟩
  exact absurd h (by decide)

theorem fragment_lex_panic (st : State) (p : Profile) (parse : Text → Except String Hir) {c : Char}
    (h : LexerClasses.ofChar c.toNat = .panic) (i : Nat) :
    st.fragment p parse (.lex [c] i) = .panic := by
  unfold State.fragment State.lexString State.charSyms
  dsimp only
  rw [h]
  rfl

theorem build_panic (p : Profile) (parse : Text → Except String Hir) {f : Fragment}
    (h : ∀ st : State, st.fragment p parse f = .panic) (lhs : Text) (action : Option Text)
    (span : Nat × Nat) {lex : Option (List Rule)} (hlex : lex.getD [] = []) :
    Advanced.build p parse (.start [⟨lhs, [f], action, span⟩] lex) = .panic := by
  unfold Advanced.build
  dsimp only
  rw [hlex]
  simp only [List.map_cons, List.map_nil, List.append_nil]
  unfold loadRules State.loadRule State.loadRhs fragments
  simp [h, Res.bind_panic]

theorem single_rule {rs : List Rule} {lhs : Text} {e : Elem} {action : Option Text}
    (h : rs.map Rule.clause = [⟨lhs, [e], action⟩]) :
    ∃ f span, rs = [⟨lhs, [f], action, span⟩] ∧ f.elem = e := by
  obtain ⟨⟨lhs', rhs, action', span⟩, rfl, h1⟩ := List.map_eq_singleton_iff.1 h
  have h2 : lhs' = lhs := congrArg Clause.lhs h1
  have h3 : rhs.map Fragment.elem = [e] := congrArg Clause.elems h1
  have h4 : action' = action := congrArg Clause.action h1
  obtain ⟨f, rfl, h5⟩ := List.map_eq_singleton_iff.1 h3
  exact ⟨f, span, by rw [h2, h4], h5⟩

theorem build_str_panic (p : Profile) (parse : Text → Except String Hir) {rs : List Rule}
    {lhs : Text} {c : Char} {action : Option Text}
    (h : rs.map Rule.clause = [⟨lhs, [.str [c]], action⟩]) {lex : Option (List Rule)}
    (hlex : (lex.getD []).map Rule.clause = []) (hc : LexerClasses.ofChar c.toNat = .panic) :
    Advanced.build p parse (.start rs lex) = .panic := by
  obtain ⟨f, span, rfl, hf⟩ := single_rule h
  refine build_panic p parse (fun st => ?_) _ _ _ (List.map_eq_nil_iff.1 hlex)
  cases f with
  | rhs => cases hf
  | call => cases hf
  | lex string i =>
    cases hf
    exact fragment_lex_panic st p parse hc i

theorem build_call_panic (p : Profile) (parse : Text → Except String Hir) {rs : List Rule}
    {lhs func arg : Text} {action : Option Text}
    (h : rs.map Rule.clause = [⟨lhs, [.call func arg], action⟩]) {lex : Option (List Rule)}
    (hlex : (lex.getD []).map Rule.clause = []) (hfunc : func = "Regexp".toList) {hir : Hir}
    (hp : parse arg = .ok hir) (hh : cfgFromHir p hir = .panic) :
    Advanced.build p parse (.start rs lex) = .panic := by
  obtain ⟨f, span, rfl, hf⟩ := single_rule h
  refine build_panic p parse (fun st => ?_) _ _ _ (List.map_eq_nil_iff.1 hlex)
  cases f with
  | rhs => cases hf
  | lex => cases hf
  | call func arg argSpan span =>
    cases hf
    unfold State.fragment
    dsimp only
    unfold State.call
    rw [if_neg (not_not_intro hfunc), hp]
    dsimp only
    rw [hh, Res.bind_panic]

/-- The last character. -/
def lastChar : Char := Char.ofNat 0x10FFFF

theorem lastChar_panic : LexerClasses.ofChar lastChar.toNat = .panic := by decide +kernel

/-- C95 is violated: a string with the last character is a panic. -/
theorem C95_violated_last_char {R : Recognizer Terminal}
    (hR : R.Correct advSyntax Nonterminal.start) (p : Profile) (parse : Text → Except String Hir) :
    load R p parse ("a ::= \"".toList ++ lastChar :: "\";".toList) = .panic := by
  let ts : List (Token × Nat × Nat) := [(.ident ['a'], 1, 1), (.bnfOp, 1, 3), (.string [lastChar], 1, 7),
    (.semicolon, 1, 10)]
  obtain ⟨h1, h2⟩ := lexed_file (ts := ts)
    (text := "a ::= \"".toList ++ lastChar :: "\";".toList)
    (decls := [.rule ⟨['a'], [⟨[.str [lastChar]], none⟩]⟩])
    (by decide +kernel) (by decide +kernel) (by simp) (by simp [Decl.Ok, Stmt.Ok]) rfl
  rcases load_file hR p parse h1 h2 with ⟨-, e⟩ | ⟨-, rs, lex, k1, k2, e⟩
  · exact e
  · rw [e]
    exact build_str_panic p parse
      ((placed_clause k1).trans (parserPlaces_clause _ 0))
      ((placed_clause k2).trans (lexerPlaces_clause _ 0)) lastChar_panic

theorem look_panic (p : Profile) : cfgFromHir p .look = .panic := by
  cases p <;> decide +kernel

/-- C95 is violated: an expression with look-around is a panic. -/
theorem C95_violated_look {R : Recognizer Terminal}
    (hR : R.Correct advSyntax Nonterminal.start) (p : Profile) (parse : Text → Except String Hir)
    (hp : parse ['^'] = .ok .look) :
    load R p parse "a ::= Regexp(\"^\");".toList = .panic := by
  let ts : List (Token × Nat × Nat) := [(.ident ['a'], 1, 1), (.bnfOp, 1, 3),
    (.ident "Regexp".toList, 1, 7), (.lparen, 1, 13), (.string ['^'], 1, 14), (.rparen, 1, 17),
    (.semicolon, 1, 18)]
  obtain ⟨h1, h2⟩ := lexed_file (ts := ts) (text := "a ::= Regexp(\"^\");".toList)
    (decls := [.rule ⟨['a'], [⟨[.call "Regexp".toList ['^']], none⟩]⟩])
    (by decide +kernel) (by decide +kernel) (by simp) (by simp [Decl.Ok, Stmt.Ok]) rfl
  rcases load_file hR p parse h1 h2 with ⟨-, e⟩ | ⟨-, rs, lex, k1, k2, e⟩
  · exact e
  · rw [e]
    exact build_call_panic p parse
      ((placed_clause k1).trans (parserPlaces_clause _ 0))
      ((placed_clause k2).trans (lexerPlaces_clause _ 0)) rfl hp (look_panic p)

/-! ## Examples -/

/-- A parser of two expressions. -/
def exParse (arg : Text) : Except String Hir :=
  if arg = "[0-9]".toList then .ok (.cls [(0x30, 0x39)])
  else if arg = "[a-z]+".toList then .ok (.repetition 1 none (.cls [(0x61, 0x7A)]))
  else .error "regex parse error"

/-- A file with all kinds of elements. -/
def exAdvText : Text :=
  "a ::= \"if\" ~ b+ > go | Regexp(\"[0-9]\") ~ c*;\nd ::= ;\nlexer {\n  b ::= Regexp(\"[a-z]+\") ~ \"!\";\n}".toList

/-- Its declarations. -/
def exAdvDecls : List Decl :=
  [.rule ⟨['a'], [⟨[.str ['i', 'f'], .name ['b'] .oneOrMore], some ['g', 'o']⟩,
    ⟨[.call "Regexp".toList "[0-9]".toList, .name ['c'] .zeroOrMore], none⟩]⟩,
  .rule ⟨['d'], [⟨[], none⟩]⟩,
  .lexer [⟨['b'], [⟨[.call "Regexp".toList "[a-z]+".toList, .str ['!']], none⟩]⟩]]

/-- Its tokens. -/
def exAdvTokens : List (Token × Nat × Nat) :=
  match tokenize exAdvText with
  | .ok ts => ts
  | _ => []

theorem exAdv_file : Lexed [] exAdvText exAdvTokens [] ∧ IsFile exAdvDecls (exAdvTokens.map (·.1)) :=
  lexed_file (by decide +kernel) (by decide +kernel) (by simp [exAdvDecls])
    (by simp [exAdvDecls, Decl.Ok, Stmt.Ok]) (by decide +kernel)

theorem exAdv_loadable : Loadable exAdvDecls := ⟨⟨_, rfl⟩, by decide⟩

theorem exParse_ok {arg : Text} {hir : Hir} (h : exParse arg = .ok hir) :
    hir = .cls [(0x30, 0x39)] ∨ hir = .repetition 1 none (.cls [(0x61, 0x7A)]) := by
  unfold exParse at h
  split at h
  · cases h; exact .inl rfl
  · split at h
    · cases h; exact .inr rfl
    · cases h

theorem ex_safe {e : Elem} (h : ∀ s ∈ e.strings, ∀ c ∈ s, IsChar (c.toNat + 1)) :
    e.Safe exParse := by
  cases e with
  | name => trivial
  | str s => exact h s (.head _)
  | call func arg =>
    intro hir hp
    rcases exParse_ok hp with rfl | rfl <;>
      simp [Hir.Plain, Apart, Sequence.InU32, Sequence.Fits]

theorem ex_tabular {e : Elem} (h : ∀ s ∈ e.strings, ∀ c ∈ s, IsChar (c.toNat + 2)) :
    e.Tabular exParse := by
  cases e with
  | name => trivial
  | str s => exact h s (.head _)
  | call func arg =>
    intro hir hp
    rcases exParse_ok hp with rfl | rfl <;> simp [Hir.Tabular, Hir.letters, IsChar]

theorem ex_letters {arg : Text} {hir : Hir} (h : exParse arg = .ok hir) (b : Nat) :
    .byte b ∉ hir.letters := by
  rcases exParse_ok h with rfl | rfl <;> simp [Hir.letters]

theorem exAdv_safe : ∀ e ∈ fileElems exAdvDecls, e.Safe exParse := by
  have : ∀ e ∈ fileElems exAdvDecls, ∀ s ∈ e.strings, ∀ c ∈ s, IsChar (c.toNat + 1) := by
    decide +kernel
  exact fun e he => ex_safe (this e he)

example : ∀ ts decls, Lexed [] exAdvText ts [] → IsFile decls (ts.map (·.1)) →
    Loadable decls ∧ ∀ e ∈ fileElems decls, e.Safe exParse := by
  intro ts decls h1 h2
  obtain ⟨rfl, -⟩ := lexed_unique exAdv_file.1 h1 ends_nil ends_nil
  rw [isFile_unique h2 exAdv_file.2]
  exact ⟨exAdv_loadable, exAdv_safe⟩

/-! ## C96 and C98 -/

section

variable {R : Recognizer Terminal} (hR : R.Correct advSyntax Nonterminal.start)
  (p : Profile) (parse : Text → Except String Hir) {text : Text} {ts : List (Token × Nat × Nat)}
  {decls : List Decl} (hl : Lexed [] text ts []) (hf : IsFile decls (ts.map (·.1)))
  (hld : Loadable decls) (hs : ∀ e ∈ fileElems decls, e.Safe parse)

include hR hl hf hld hs

theorem loaded_of_none (hr : firstReason parse (parserClauses decls) (lexerClauses decls) = none) :
    ∃ G sym, load R p parse text = .ok (.ok G) ∧
      Loaded parse (parserClauses decls) (lexerClauses decls) G sym ∧
      Records (parserClauses decls) (lexerClauses decls) G sym := by
  have := load_safe hR p parse hl hf hld hs
  rw [firstFaultAt_none.2 hr] at this
  exact this

/-- C96 (partial: the file starts with a rule and has at most one lexer block; its strings and
expressions can be translated). If there is no reason to reject it, the file is loaded. The grammar is
well-formed, and every name has a symbol with this name. The root is the first left side. The
terminals are the names without rules and one symbol for each class. The language of every name is
that of the rules as written, where the strings have rules of their own. -/
theorem C96_grammar_partial (hr : firstReason parse (parserClauses decls) (lexerClauses decls) = none) :
    ∃ G sym, load R p parse text = .ok (.ok G) ∧
      Loaded parse (parserClauses decls) (lexerClauses decls) G sym := by
  obtain ⟨G, sym, h1, h2, -⟩ := loaded_of_none hR p parse hl hf hld hs hr
  exact ⟨G, sym, h1, h2⟩

/-- C98 (partial: for the same files). The table of symbols, the actions, the origins of the rules and
the set of lexemes are those of the file. -/
theorem C98_records_partial (hr : firstReason parse (parserClauses decls) (lexerClauses decls) = none) :
    ∃ G sym, load R p parse text = .ok (.ok G) ∧
      (∀ n ∈ namesOf (parserClauses decls ++ lexerClauses decls), ∀ n' ∈
        namesOf (parserClauses decls ++ lexerClauses decls), sym n = sym n' → n = n') ∧
      Records (parserClauses decls) (lexerClauses decls) G sym := by
  obtain ⟨G, sym, h1, h2, h3⟩ := loaded_of_none hR p parse hl hf hld hs hr
  exact ⟨G, sym, h1, h2.inj, h3⟩

/-- C97 (partial: the line of the error is the number of the blamed token). A file with a reason to
reject it is rejected with the first reason. The blamed token is at the position of the fault. -/
theorem C97_rejected_partial {r : String} {t : Token}
    (hr : firstReason parse (parserClauses decls) (lexerClauses decls) = some (r, t)) :
    ∃ (k line col : Nat), firstFaultAt parse decls = some (r, k) ∧ ts[k]? = some (t, line, col) ∧
      load R p parse text = .ok (.error ⟨r, (k + 1) % 2 ^ 32, 1, none⟩) := by
  have := load_safe hR p parse hl hf hld hs
  obtain ⟨k, h1, h2⟩ := firstFaultAt_some hr
  rw [h1] at this
  rw [← hf.2.2, List.getElem?_map, Option.map_eq_some_iff] at h2
  obtain ⟨⟨t', line, col⟩, h3, h4⟩ := h2
  cases h4
  exact ⟨k, line, col, h1, h3, this⟩

end

example : firstReason exParse (parserClauses exAdvDecls) (lexerClauses exAdvDecls) = none := by
  decide +kernel

/-- Three reasons, the first of which counts. -/
example : firstReason exParse
    (parserClauses [.rule ⟨['a'], [⟨[.str ['x']], none⟩, ⟨[.call "Regexp".toList "(".toList], none⟩]⟩,
      .lexer [⟨['a'], [⟨[.call "foo".toList "[0-9]".toList], none⟩]⟩]])
    (lexerClauses [.rule ⟨['a'], [⟨[.str ['x']], none⟩, ⟨[.call "Regexp".toList "(".toList], none⟩]⟩,
      .lexer [⟨['a'], [⟨[.call "foo".toList "[0-9]".toList], none⟩]⟩]]) =
    some ("regex parse error", .string "(".toList) := by decide +kernel

/-- The position in `a ::= "x" | Regexp("("); lexer { a ::= foo("[0-9]"); }`. -/
example : firstFaultAt exParse
    [.rule ⟨['a'], [⟨[.str ['x']], none⟩, ⟨[.call "Regexp".toList "(".toList], none⟩]⟩,
      .lexer [⟨['a'], [⟨[.call "foo".toList "[0-9]".toList], none⟩]⟩]] =
    some ("regex parse error", 6) := by decide +kernel

/-- The position in `a ::= "x"; lexer { a ::= foo("[0-9]"); }`: the second `a`. -/
example : firstFaultAt exParse [.rule ⟨['a'], [⟨[.str ['x']], none⟩]⟩,
      .lexer [⟨['a'], [⟨[.call "foo".toList "[0-9]".toList], none⟩]⟩]] =
    some ("lhs shared between parser and lexer: a", 6) := by decide +kernel

/-! ## C97 -/

/-- C97 is violated: the line of an error is not that of the blamed token. -/
theorem C97_violated_line {R : Recognizer Terminal}
    (hR : R.Correct advSyntax Nonterminal.start) (p : Profile) (parse : Text → Except String Hir)
    (hp : ∀ hir, parse ['x'] = .ok hir → hir.Plain) :
    Lexed [] "a ::= foo(\"x\");".toList [(.ident ['a'], 1, 1), (.bnfOp, 1, 3),
      (.ident ['f', 'o', 'o'], 1, 7), (.lparen, 1, 10), (.string ['x'], 1, 11), (.rparen, 1, 14),
      (.semicolon, 1, 15)] [] ∧
    load R p parse "a ::= foo(\"x\");".toList =
      .ok (.error ⟨"expected 'Regexp', found 'foo'", 3, 1, none⟩) := by
  obtain ⟨h1, h2⟩ := lexed_file (text := "a ::= foo(\"x\");".toList)
    (ts := [(.ident ['a'], 1, 1), (.bnfOp, 1, 3),
      (.ident ['f', 'o', 'o'], 1, 7), (.lparen, 1, 10), (.string ['x'], 1, 11), (.rparen, 1, 14),
      (.semicolon, 1, 15)])
    (decls := [.rule ⟨['a'], [⟨[.call ['f', 'o', 'o'] ['x']], none⟩]⟩])
    (by decide +kernel) (by decide +kernel) (by simp) (by simp [Decl.Ok, Stmt.Ok]) rfl
  refine ⟨h1, ?_⟩
  obtain ⟨k, line, col, -, h3, h4⟩ := C97_rejected_partial hR p parse h1 h2 ⟨⟨_, rfl⟩, by decide⟩ (by
    simp only [fileElems, parserClauses, lexerClauses, Stmt.clauses, List.flatMap_cons,
      List.flatMap_nil, List.map_cons, List.map_nil, List.append_nil, List.mem_singleton]
    rintro e rfl
    exact hp) (r := "expected 'Regexp', found 'foo'") (t := .ident ['f', 'o', 'o']) (by
      have h1 : ['f', 'o', 'o'] ≠ "Regexp".toList := by decide +kernel
      have h2 : "expected 'Regexp', found '" ++ String.ofList ['f', 'o', 'o'] ++ "'" =
          "expected 'Regexp', found 'foo'" := by decide +kernel
      unfold firstReason parserClauses
      simp only [Stmt.clauses, List.flatMap_cons, List.flatMap_nil, List.map_cons, List.map_nil,
        List.append_nil, List.findSome?_cons, Clause.reason, Elem.reason, if_pos h1, h2,
        Option.some_or])
  rw [h4]
  have hk : k < 7 := (List.getElem?_eq_some_iff.1 h3).1
  have h5 := congrArg (Option.map Prod.fst) h3
  rw [← List.getElem?_map] at h5
  have key : ∀ k < 7, ([.ident ['a'], .bnfOp, .ident ['f', 'o', 'o'], .lparen, .string ['x'], .rparen,
      .semicolon] : List Token)[k]? = some (.ident ['f', 'o', 'o']) → k = 2 := by decide +kernel
  rw [key k hk h5]

/-! ## C99 -/

section

variable {R : Recognizer Terminal} (hR : R.Correct advSyntax Nonterminal.start)
  (p : Profile) (parse : Text → Except String Hir) {text : Text} {ts : List (Token × Nat × Nat)}
  {decls : List Decl} (hl : Lexed [] text ts []) (hf : IsFile decls (ts.map (·.1)))
  (hld : Loadable decls) (hs : ∀ e ∈ fileElems decls, e.Safe parse)
  (hr : firstReason parse (parserClauses decls) (lexerClauses decls) = none)
  (hno : ∀ n ∈ writtenNames (parserClauses decls ++ lexerClauses decls),
    ∀ i < (stringsOf (parserClauses decls ++ lexerClauses decls)).length, stringName i ≠ n)

include hR hl hf hld hs hr hno

/-- C99 (partial: no name in the file is the name for one of its strings). The language of every name
in the file is what its rules describe, where a string stands for its characters. -/
theorem C99_language_partial :
    ∃ G sym, load R p parse text = .ok (.ok G) ∧
      (∀ n s, (n, s) ∈ G.symMap ↔
        n ∈ namesOf (parserClauses decls ++ lexerClauses decls) ∧ s = sym n) ∧
      ∀ n ∈ writtenNames (parserClauses decls ++ lexerClauses decls), ∀ w,
        G.cfg.Lang (sym n) w ↔
          Describes (symAtom parse (parserClauses decls ++ lexerClauses decls) sym G.lexerMap.classes)
            (parserClauses decls ++ lexerClauses decls) [.name n .none] w := by
  obtain ⟨G, sym, e, h1, h2⟩ := loaded_of_none hR p parse hl hf hld hs hr
  exact ⟨G, sym, e, h2.symMap, fun n hn w => lang_describes h1 hno hn w⟩

/-- C100 (partial: the characters of literals are not exact). If the classes fit the tables, the lexer
map of a file can be computed, and then a text is accepted under a name if and only if it is one of
those that the rules describe, except that every literal character also stands for the next one. -/
theorem C100_text_partial (ht : ∀ e ∈ fileElems decls, e.Tabular parse) :
    ∃ G, ∃ sym : Text → Sym, ∃ m, load R p parse text = .ok (.ok G) ∧ G.lexerMap.compute = .ok m ∧
      (∀ n s, (n, s) ∈ G.symMap ↔
        n ∈ namesOf (parserClauses decls ++ lexerClauses decls) ∧ s = sym n) ∧
      ∀ n ∈ writtenNames (parserClauses decls ++ lexerClauses decls), ∀ t,
        Accepts G.cfg m (sym n) t ↔
          Describes (readAtom parse) (parserClauses decls ++ lexerClauses decls) [.name n .none] t := by
  obtain ⟨G, sym, e, h1, h2⟩ := loaded_of_none hR p parse hl hf hld hs hr
  have hs' : ∀ c ∈ parserClauses decls ++ lexerClauses decls, ∀ e ∈ c.elems, e.Safe parse :=
    fun c hc e he => hs e (List.mem_flatMap.2 ⟨c, hc, he⟩)
  obtain ⟨m, hm⟩ := loaded_compute h1 hs' fun c hc e he => ht e (List.mem_flatMap.2 ⟨c, hc, he⟩)
  exact ⟨G, sym, m, e, hm, h2.symMap, fun n hn t => accepts_describes h1 hs' hno hm hn t⟩

/-- C100 (partial: one direction, for ASCII literals in expressions). Every text that the rules
describe is accepted. -/
theorem C100_accepts_partial (ht : ∀ e ∈ fileElems decls, e.Tabular parse)
    (ha : ∀ func arg, .call func arg ∈ fileElems decls → ∀ hir, parse arg = .ok hir →
      ∀ b, .byte b ∈ hir.letters → b < 128) :
    ∃ G, ∃ sym : Text → Sym, ∃ m, load R p parse text = .ok (.ok G) ∧ G.lexerMap.compute = .ok m ∧
      (∀ n s, (n, s) ∈ G.symMap ↔
        n ∈ namesOf (parserClauses decls ++ lexerClauses decls) ∧ s = sym n) ∧
      ∀ n ∈ writtenNames (parserClauses decls ++ lexerClauses decls), ∀ t,
        Describes (textAtom parse) (parserClauses decls ++ lexerClauses decls) [.name n .none] t →
          Accepts G.cfg m (sym n) t := by
  obtain ⟨G, sym, m, h1, h2, h3, h4⟩ := C100_text_partial hR p parse hl hf hld hs hr hno ht
  refine ⟨G, sym, m, h1, h2, h3, fun n hn t hd => (h4 n hn t).2 ?_⟩
  refine Describes.mono (fun e => ∀ func arg, e = .call func arg → ∀ hir, parse arg = .ok hir →
      ∀ b, .byte b ∈ hir.letters → b < 128) ?_ ?_ ?_ ?_ hd
  · rintro c hc e he func arg rfl
    exact ha func arg (List.mem_flatMap.2 ⟨c, hc, he⟩)
  · intro n _ func arg h
    cases h
  · intro e t he h
    cases e with
    | name => exact h.elim
    | str s =>
      have : t = s := h
      subst this
      exact List.forall₂_same.2 fun c _ => ⟨(c.toNat, c.toNat + 1), by simp [charClass], by simp⟩
    | call func arg =>
      obtain ⟨hir, h1, h2⟩ := h
      obtain ⟨ls, h3, h4⟩ := text_letters hir (he func arg rfl hir h1) t h2
      exact ⟨hir, ls, h1, h3, h4⟩
  · intro e he func arg h
    rw [List.mem_singleton.1 he] at h
    cases h

/-- C100 (partial: for files without literals). A text is accepted under a name if and only if the
rules describe it. -/
theorem C100_classes_partial (ht : ∀ e ∈ fileElems decls, e.Tabular parse)
    (hstr : ∀ s, .str s ∉ fileElems decls)
    (ha : ∀ func arg, .call func arg ∈ fileElems decls → ∀ hir, parse arg = .ok hir →
      ∀ b, .byte b ∉ hir.letters) :
    ∃ G, ∃ sym : Text → Sym, ∃ m, load R p parse text = .ok (.ok G) ∧ G.lexerMap.compute = .ok m ∧
      (∀ n s, (n, s) ∈ G.symMap ↔
        n ∈ namesOf (parserClauses decls ++ lexerClauses decls) ∧ s = sym n) ∧
      ∀ n ∈ writtenNames (parserClauses decls ++ lexerClauses decls), ∀ t,
        Accepts G.cfg m (sym n) t ↔
          Describes (textAtom parse) (parserClauses decls ++ lexerClauses decls) [.name n .none] t := by
  obtain ⟨G, sym, m, h1, h2, h3, h4⟩ := C100_text_partial hR p parse hl hf hld hs hr hno ht
  refine ⟨G, sym, m, h1, h2, h3, fun n hn t => (h4 n hn t).trans ?_⟩
  constructor
  · refine Describes.mono (fun e => (∀ s, e ≠ .str s) ∧
        ∀ func arg, e = .call func arg → ∀ hir, parse arg = .ok hir → ∀ b, .byte b ∉ hir.letters)
      ?_ ?_ ?_ ?_
    · refine fun c hc e he => ⟨?_, ?_⟩
      · rintro s rfl
        exact hstr s (List.mem_flatMap.2 ⟨c, hc, he⟩)
      · rintro func arg rfl
        exact ha func arg (List.mem_flatMap.2 ⟨c, hc, he⟩)
    · exact fun n _ => ⟨fun s h => (by cases h), fun func arg h => (by cases h)⟩
    · rintro e t ⟨he1, he2⟩ h
      cases e with
      | name => exact h.elim
      | str s => exact absurd rfl (he1 s)
      | call func arg =>
        obtain ⟨hir, ls, h1, h2, h3⟩ := h
        exact ⟨hir, h1, letters_text hir (he2 func arg rfl hir h1) t ls h2 h3⟩
    · intro e he
      rw [List.mem_singleton.1 he]
      exact ⟨fun s h => (by cases h), fun func arg h => (by cases h)⟩
  · refine Describes.mono (fun e => (∀ s, e ≠ .str s) ∧
        ∀ func arg, e = .call func arg → ∀ hir, parse arg = .ok hir → ∀ b, .byte b ∉ hir.letters)
      ?_ ?_ ?_ ?_
    · refine fun c hc e he => ⟨?_, ?_⟩
      · rintro s rfl
        exact hstr s (List.mem_flatMap.2 ⟨c, hc, he⟩)
      · rintro func arg rfl
        exact ha func arg (List.mem_flatMap.2 ⟨c, hc, he⟩)
    · exact fun n _ => ⟨fun s h => (by cases h), fun func arg h => (by cases h)⟩
    · rintro e t ⟨he1, he2⟩ h
      cases e with
      | name => exact h.elim
      | str s => exact absurd rfl (he1 s)
      | call func arg =>
        obtain ⟨hir, h1, h2⟩ := h
        obtain ⟨ls, h3, h4⟩ :=
          text_letters hir (fun b hb => absurd hb (he2 func arg rfl hir h1 b)) t h2
        exact ⟨hir, ls, h1, h3, h4⟩
    · intro e he
      rw [List.mem_singleton.1 he]
      exact ⟨fun s h => (by cases h), fun func arg h => (by cases h)⟩

end

theorem exAdv_names : ∀ n ∈ writtenNames (parserClauses exAdvDecls ++ lexerClauses exAdvDecls),
    ∀ i < (stringsOf (parserClauses exAdvDecls ++ lexerClauses exAdvDecls)).length,
      stringName i ≠ n := by decide +kernel

theorem exAdv_tabular : ∀ e ∈ fileElems exAdvDecls, e.Tabular exParse := by
  have : ∀ e ∈ fileElems exAdvDecls, ∀ s ∈ e.strings, ∀ c ∈ s, IsChar (c.toNat + 2) := by
    decide +kernel
  exact fun e he => ex_tabular (this e he)

example : ∀ func arg, .call func arg ∈ fileElems exAdvDecls → ∀ hir, exParse arg = .ok hir →
    ∀ b, .byte b ∈ hir.letters → b < 128 :=
  fun _ _ _ _ h b hb => absurd hb (ex_letters h b)

/-- The text `ifab!`. -/
example : Describes (textAtom exParse) (parserClauses exAdvDecls ++ lexerClauses exAdvDecls)
    [.name ['a'] .none] "ifab!".toList := by
  have hb : Describes (textAtom exParse) (parserClauses exAdvDecls ++ lexerClauses exAdvDecls)
      [.call "Regexp".toList "[a-z]+".toList, .str ['!']] "ab!".toList := by
    refine .atom (t := ['a', 'b']) (u := ['!']) ⟨_, rfl, ?_⟩ (.atom (t := ['!']) (u := []) rfl .nil)
    rw [Hir.MatchesText]
    refine ⟨[['a'], ['b']], by simp, by simp, ?_, rfl⟩
    intro v hv
    simp only [List.mem_cons, List.not_mem_nil, or_false] at hv
    rw [Hir.MatchesText]
    rcases hv with rfl | rfl
    · exact ⟨'a', rfl, by decide⟩
    · exact ⟨'b', rfl, by decide⟩
  refine Describes.single (c := ⟨['a'], [.str ['i', 'f'], .name ['b'] .oneOrMore], some ['g', 'o']⟩)
    (by decide) ?_
  refine .atom (t := ['i', 'f']) (u := "ab!".toList) rfl ?_
  exact .some (c := ⟨['b'], [.call "Regexp".toList "[a-z]+".toList, .str ['!']], none⟩)
    (t := "ab!".toList) (u := []) (by decide) hb (.none .nil)

/-- A file without literals: `a ::= Regexp("[a-z]+") ~ a | Regexp("[0-9]");`. -/
def exClassText : Text := "a ::= Regexp(\"[a-z]+\") ~ a | Regexp(\"[0-9]\");".toList

/-- Its declarations. -/
def exClassDecls : List Decl :=
  [.rule ⟨['a'], [⟨[.call "Regexp".toList "[a-z]+".toList, .name ['a'] .none], none⟩,
    ⟨[.call "Regexp".toList "[0-9]".toList], none⟩]⟩]

example : (∃ ts, Lexed [] exClassText ts [] ∧ IsFile exClassDecls (ts.map (·.1))) ∧
    Loadable exClassDecls ∧ (∀ e ∈ fileElems exClassDecls, e.Safe exParse) ∧
    firstReason exParse (parserClauses exClassDecls) (lexerClauses exClassDecls) = none ∧
    (∀ n ∈ writtenNames (parserClauses exClassDecls ++ lexerClauses exClassDecls),
      ∀ i < (stringsOf (parserClauses exClassDecls ++ lexerClauses exClassDecls)).length,
        stringName i ≠ n) ∧
    (∀ e ∈ fileElems exClassDecls, e.Tabular exParse) ∧ (∀ s, .str s ∉ fileElems exClassDecls) ∧
    (∀ func arg, .call func arg ∈ fileElems exClassDecls → ∀ hir, exParse arg = .ok hir →
      ∀ b, .byte b ∉ hir.letters) := by
  refine ⟨⟨_, lexed_file (ts := match tokenize exClassText with | .ok ts => ts | _ => [])
    (by decide +kernel) (by decide +kernel) (by simp [exClassDecls])
    (by simp [exClassDecls, Decl.Ok, Stmt.Ok]) (by decide +kernel)⟩, ⟨⟨_, rfl⟩, by decide⟩, ?_,
    by decide +kernel, by decide +kernel, ?_, ?_, fun _ _ _ _ h b => ex_letters h b⟩
  · have : ∀ e ∈ fileElems exClassDecls, ∀ s ∈ e.strings, ∀ c ∈ s, IsChar (c.toNat + 1) := by
      decide +kernel
    exact fun e he => ex_safe (this e he)
  · have : ∀ e ∈ fileElems exClassDecls, ∀ s ∈ e.strings, ∀ c ∈ s, IsChar (c.toNat + 2) := by
      decide +kernel
    exact fun e he => ex_tabular (this e he)
  · have : ∀ e ∈ fileElems exClassDecls, e.strings = [] := by decide +kernel
    exact fun s hs => absurd (this _ hs) (by simp [Elem.strings])

/-- A file with a name that is also the name for a string. -/
def exClash : List Decl :=
  [.rule ⟨['a'], [⟨[.str ['x']], none⟩]⟩, .rule ⟨"__lex0".toList, [⟨[.str ['y']], none⟩]⟩]

/-- C99 is violated: in the file `a ::= "x"; __lex0 ::= "y";` the name `a` also stands for `y`. -/
theorem C99_violated_name {R : Recognizer Terminal}
    (hR : R.Correct advSyntax Nonterminal.start) (p : Profile) (parse : Text → Except String Hir) :
    ∃ G, ∃ sym : Text → Sym, ∃ k, load R p parse "a ::= \"x\"; __lex0 ::= \"y\";".toList = .ok (.ok G) ∧
      (['a'], sym ['a']) ∈ G.symMap ∧ (charClass 'y', k) ∈ G.lexerMap.classes ∧
      G.cfg.Lang (sym ['a']) [k] ∧
      ¬ Describes (symAtom parse (parserClauses exClash) sym G.lexerMap.classes)
        (parserClauses exClash) [.name ['a'] .none] [k] := by
  obtain ⟨h1, h2⟩ := lexed_file (text := "a ::= \"x\"; __lex0 ::= \"y\";".toList) (decls := exClash)
    (ts := [(.ident ['a'], 1, 1), (.bnfOp, 1, 3), (.string ['x'], 1, 7), (.semicolon, 1, 10),
      (.ident "__lex0".toList, 1, 12), (.bnfOp, 1, 19), (.string ['y'], 1, 23),
      (.semicolon, 1, 26)])
    (by decide +kernel) (by decide +kernel) (by simp [exClash])
    (by simp [exClash, Decl.Ok, Stmt.Ok]) rfl
  obtain ⟨G, sym, e, hG, hr⟩ := loaded_of_none hR p parse h1 h2 ⟨⟨_, rfl⟩, by decide⟩ (by
    simp [exClash, fileElems, parserClauses, lexerClauses, Stmt.clauses, Elem.Safe, IsChar]) rfl
  have hcs : parserClauses exClash ++ lexerClauses exClash =
      [⟨['a'], [.str ['x']], none⟩, ⟨"__lex0".toList, [.str ['y']], none⟩] := rfl
  have hst : stringsOf (parserClauses exClash ++ lexerClauses exClash) = [['x'], ['y']] := by
    decide +kernel
  have ha : ['a'] ∈ namesOf (parserClauses exClash ++ lexerClauses exClash) := by decide +kernel
  obtain ⟨k, hk⟩ := (hG.classesIff (charClass 'y')).2 ⟨_, by rw [hcs]; exact .tail _ (.head _),
    .str ['y'], .head _, by simp [Elem.classes]⟩
  refine ⟨G, sym, k, e, (hr.symMap _ _).2 ⟨ha, rfl⟩, hk, (hG.lang _ ha _).2 ?_, ?_⟩
  · refine inLang_iff.2 ⟨?_, fun a h => .inl ⟨_, (List.mem_singleton.1 h) ▸ hk⟩⟩
    have d1 : Der (advProd parse (parserClauses exClash ++ lexerClauses exClash) sym
        G.lexerMap.classes) [sym (stringName 1)] [k] :=
      Der.prod (.inr ⟨1, ['y'], by rw [hst]; rfl, rfl, .cons hk .nil⟩)
    have d2 : Der (advProd parse (parserClauses exClash ++ lexerClauses exClash) sym
        G.lexerMap.classes) [sym "__lex0".toList] [sym (stringName 1)] :=
      Der.prod (.inl ⟨⟨"__lex0".toList, [.str ['y']], none⟩, by rw [hcs]; exact .tail _ (.head _), rfl,
        [[sym (stringName 1)]],
        .cons ⟨1, by rw [hst]; rfl, rfl⟩ .nil, rfl⟩)
    have d3 : Der (advProd parse (parserClauses exClash ++ lexerClauses exClash) sym
        G.lexerMap.classes) [sym ['a']] [sym "__lex0".toList] :=
      Der.prod (.inl ⟨⟨['a'], [.str ['x']], none⟩, by rw [hcs]; exact .head _, rfl, [[sym (stringName 0)]],
        .cons ⟨0, by rw [hst]; rfl, rfl⟩ .nil, by
          rw [show stringName 0 = "__lex0".toList by decide +kernel]; rfl⟩)
    exact (d3.trans d2).trans d1
  · intro hd
    rcases hd.once with ⟨h3, -⟩ | ⟨c, hc, h3, h4⟩
    · exact h3 ⟨['a'], [.str ['x']], none⟩ (by decide) rfl
    · have : c = ⟨['a'], [.str ['x']], none⟩ := by
        have hc : c ∈ [(⟨['a'], [.str ['x']], none⟩ : Clause), ⟨"__lex0".toList, [.str ['y']], none⟩] := hc
        simp only [List.mem_cons, List.not_mem_nil, or_false] at hc
        rcases hc with rfl | rfl
        · rfl
        · exact absurd h3 (by decide)
      subst this
      generalize hw : [k] = w at h4
      cases h4 with
      | @atom _ _ t u h5 h6 =>
        cases h6
        rw [List.append_nil] at hw
        subst hw
        cases h5 with
        | cons h5 _ =>
          have := congrArg Prod.fst (List.inj_on_of_nodup_map hG.classSyms h5 hk rfl)
          dsimp only at this
          exact absurd this (by decide)

/-- C100 is violated: the file `a ::= "x";` accepts the text `y`. -/
theorem C100_violated_next_char {R : Recognizer Terminal}
    (hR : R.Correct advSyntax Nonterminal.start) (p : Profile) (parse : Text → Except String Hir) :
    ∃ G m s, load R p parse "a ::= \"x\";".toList = .ok (.ok G) ∧ G.lexerMap.compute = .ok m ∧
      (['a'], s) ∈ G.symMap ∧ Accepts G.cfg m s ['y'] ∧
      ¬ Describes (textAtom parse) [⟨['a'], [.str ['x']], none⟩] [.name ['a'] .none] ['y'] := by
  obtain ⟨h1, h2⟩ := lexed_file (text := "a ::= \"x\";".toList)
    (decls := [.rule ⟨['a'], [⟨[.str ['x']], none⟩]⟩])
    (ts := [(.ident ['a'], 1, 1), (.bnfOp, 1, 3), (.string ['x'], 1, 7), (.semicolon, 1, 10)])
    (by decide +kernel) (by decide +kernel) (by simp) (by simp [Decl.Ok, Stmt.Ok]) rfl
  obtain ⟨G, sym, m, h3, h4, h5, h6⟩ := C100_text_partial hR p parse h1 h2 ⟨⟨_, rfl⟩, by decide⟩ (by
    simp [fileElems, parserClauses, lexerClauses, Stmt.clauses, Elem.Safe, IsChar]) rfl
    (by decide +kernel) (by
      simp [fileElems, parserClauses, lexerClauses, Stmt.clauses, Elem.Tabular, IsChar])
  refine ⟨G, m, sym ['a'], h3, h4, (h5 _ _).2 ⟨by decide +kernel, rfl⟩,
    (h6 ['a'] (by decide) ['y']).2 ?_, ?_⟩
  · refine Describes.single (c := ⟨['a'], [.str ['x']], none⟩) (.head _) ?_
    exact .atom (t := ['y']) (u := []) (.cons ⟨('x'.toNat, 'x'.toNat + 1), .head _, by decide⟩ .nil) .nil
  · intro hd
    rcases hd.once with h | ⟨c, hc, -, h⟩
    · exact h
    · rw [List.mem_singleton.1 hc] at h
      generalize hw : ['y'] = w at h
      cases h with
      | atom h5 h6 =>
        cases h6
        rw [List.append_nil] at hw
        subst hw
        have h5 : ['y'] = ['x'] := h5
        exact absurd h5 (by decide)

end Verif
