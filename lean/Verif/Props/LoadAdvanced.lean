import Verif.Proofs.LoadAdvParse

/-! # The advanced loader: C93, C94 -/

namespace Verif

open Advanced

/-! ## C93 -/

/-- C93: if the text consists of tokens and blanks, the tokeniser returns exactly its tokens, each
with the line and column where it starts. -/
theorem C93_tokens {text : Text} {ts : List (Token × Nat × Nat)} (hl : Lexed [] text ts []) :
    tokenize text = .ok ts := by
  obtain ⟨r, e, hr⟩ := tokenize_spec text
  rw [e]
  cases hr with
  | ok h => rw [List.nil_append, (lexed_unique h hl (.inl rfl) (.inl rfl)).1]
  | stuck h _ hs =>
    have := (lexed_unique h hl (.inr (.inl hs)) (.inl rfl)).2
    obtain ⟨c, t, e, -⟩ := hs
    rw [this] at e
    cases e
  | «open» h _ hs =>
    have := (lexed_unique h hl (.inr (.inr hs)) (.inl rfl)).2
    obtain ⟨t, e, -⟩ := hs
    rw [this] at e
    cases e

/-- C93: otherwise it returns the tokens before the first position where neither a token nor a blank
starts, and then an error token with this position, except that the error of a string which does not
end has the position of the end of the text. -/
theorem C93_error {text : Text} {ts : List (Token × Nat × Nat)} {line col line' col' : Nat}
    (he : LexError text ts line col line' col') :
    tokenize text = .ok (ts ++ [(.error line' col', line, col)]) := by
  obtain ⟨r, e, hr⟩ := tokenize_spec text
  rw [e]
  obtain ⟨pre, bad, rfl, hl, rfl, rfl, hcase⟩ := he
  have hb : Ends bad := by
    rcases hcase with ⟨h, -⟩ | ⟨h, -⟩
    · exact .inr (.inl h)
    · exact .inr (.inr h)
  have hexcl : Stuck bad → Unterminated bad → False := by
    rintro ⟨c, t, e, -, -, h, -⟩ ⟨t', e', -⟩
    rw [e] at e'
    cases e'
    exact h rfl
  cases hr with
  | ok h =>
    have := (lexed_unique h hl (.inl rfl) hb).2
    rw [← this] at hcase
    rcases hcase with ⟨⟨c, t, e, -⟩, -⟩ | ⟨⟨t, e, -⟩, -⟩ <;> cases e
  | @stuck ts' mid bad' h e' hs =>
    obtain ⟨rfl, rfl⟩ := lexed_unique h hl (.inr (.inl hs)) hb
    rw [List.append_left_inj] at e'
    subst e'
    rcases hcase with ⟨-, rfl, rfl⟩ | ⟨h, -⟩
    · rfl
    · exact absurd h (hexcl hs)
  | @«open» ts' mid bad' h e' hs =>
    obtain ⟨rfl, rfl⟩ := lexed_unique h hl (.inr (.inr hs)) hb
    rw [List.append_left_inj] at e'
    subst e'
    rcases hcase with ⟨h, -⟩ | ⟨-, rfl, rfl⟩
    · exact absurd hs (hexcl h)
    · rfl

/-- C93: every text is one or the other, and the tokens and the position are unique. -/
theorem C93_exhaustive (text : Text) : (∃ ts, Lexed [] text ts []) ∨
    ∃ ts line col line' col', LexError text ts line col line' col' := by
  obtain ⟨r, e, hr⟩ := tokenize_spec text
  cases hr with
  | ok h => exact .inl ⟨_, h⟩
  | @stuck ts mid bad h et hs =>
    exact .inr ⟨ts, _, _, _, _, mid, bad, et, h, rfl, rfl, .inl ⟨hs, rfl, rfl⟩⟩
  | @«open» ts mid bad h et hs =>
    exact .inr ⟨ts, _, _, _, _, mid, bad, et, h, rfl, rfl, .inr ⟨hs, rfl, rfl⟩⟩

theorem C93_unique {text rest rest' : Text} {ts ts' : List (Token × Nat × Nat)}
    (h : Lexed [] text ts rest) (h' : Lexed [] text ts' rest') (hr : Ends rest) (hr' : Ends rest') :
    ts = ts' ∧ rest = rest' := lexed_unique h h' hr hr'

instance (t : Token) : Decidable (Plain t) :=
  match t with
  | .whitespace => .isFalse fun h => h.1 rfl
  | .error a b => .isFalse fun h => h.2 a b rfl
  | .ident _ | .string _ | .bnfOp | .semicolon | .pipe | .plus | .mul | .tildeOp | .lparen | .rparen
  | .lbrace | .rbrace | .gtOp | .lexerKeyword => .isTrue ⟨nofun, nofun⟩

/-- What the tokeniser returns tells the structure of the text. -/
theorem lexed_of_tokenize {text : Text} {ts : List (Token × Nat × Nat)} (e : tokenize text = .ok ts)
    (hp : ∀ t ∈ ts, Plain t.1) : Lexed [] text ts [] := by
  rcases C93_exhaustive text with ⟨ts', h⟩ | ⟨ts', line, col, line', col', h⟩
  · rw [C93_tokens h] at e
    cases e
    exact h
  · rw [C93_error h] at e
    cases e
    exact absurd rfl ((hp _ (List.mem_append.2 (.inr (List.mem_singleton.2 rfl)))).2 line' col')

theorem lexError_of_tokenize {text : Text} {ts : List (Token × Nat × Nat)} {line col line' col' : Nat}
    (e : tokenize text = .ok (ts ++ [(.error line' col', line, col)])) :
    LexError text ts line col line' col' := by
  rcases C93_exhaustive text with ⟨ts', h⟩ | ⟨ts', l, c, l', c', h⟩
  · rw [C93_tokens h] at e
    cases e
    exact absurd rfl ((lexed_plain h _ (List.mem_append.2 (.inr (List.mem_singleton.2 rfl)))).2 _ _)
  · rw [C93_error h, Res.ok.injEq] at e
    obtain ⟨rfl, e2⟩ := List.append_inj' e rfl
    cases e2
    exact h

/-- A text that meets the hypothesis of `C93_tokens`. -/
example : Lexed [] "a ::= \"\\\"x\" ~ b*;\nlexer { b ::= Regexp(\"c\"); }".toList
    [(.ident "a".toList, 1, 1), (.bnfOp, 1, 3), (.string "\"x".toList, 1, 7), (.tildeOp, 1, 13),
      (.ident "b".toList, 1, 15), (.mul, 1, 16), (.semicolon, 1, 17), (.lexerKeyword, 2, 1),
      (.lbrace, 2, 7), (.ident "b".toList, 2, 9), (.bnfOp, 2, 11), (.ident "Regexp".toList, 2, 15),
      (.lparen, 2, 21), (.string "c".toList, 2, 22), (.rparen, 2, 25), (.semicolon, 2, 26),
      (.rbrace, 2, 28)] [] :=
  lexed_of_tokenize (by decide +kernel) (by decide +kernel)

/-- Texts that meet the hypothesis of `C93_error`. -/
example : LexError "a ::=\n 1".toList [(.ident "a".toList, 1, 1), (.bnfOp, 1, 3)] 2 2 2 2 ∧
    LexError "a ::= \"b\n;".toList [(.ident "a".toList, 1, 1), (.bnfOp, 1, 3)] 1 7 2 2 :=
  ⟨lexError_of_tokenize (by decide +kernel), lexError_of_tokenize (by decide +kernel)⟩

/-! ## C94 -/

theorem viable_prefix {a b : List Token} (h : Viable (a ++ b)) : Viable a := by
  obtain ⟨more, decls, h⟩ := h
  exact ⟨b ++ more, decls, by rwa [← List.append_assoc]⟩

theorem firstBad_not_viable {ts : List (Token × Nat × Nat)} {t : Token} {line col : Nat}
    (h : FirstBad ts t line col) : ¬ Viable (ts.map (·.1)) := by
  obtain ⟨pre, post, rfl, -, h⟩ := h
  intro hv
  rw [List.map_append, List.map_cons, ← List.singleton_append, ← List.append_assoc] at hv
  exact h (viable_prefix hv)

theorem firstBad_unique {ts : List (Token × Nat × Nat)} {t t' : Token} {line col line' col' : Nat}
    (h : FirstBad ts t line col) (h' : FirstBad ts t' line' col') :
    t = t' ∧ line = line' ∧ col = col' := by
  have key : ∀ {pre pre' post post' : List (Token × Nat × Nat)} {t t' : Token}
      {line col line' col' : Nat}, pre ++ (t, line, col) :: post = pre' ++ (t', line', col') :: post' →
      ¬ Viable (pre.map (·.1) ++ [t]) → Viable (pre'.map (·.1)) → pre'.length ≤ pre.length := by
    intro pre pre' post post' t t' line col line' col' e h1 h2
    by_contra hlt
    apply h1
    have hpre : pre ++ [(t, line, col)] <+: pre' := by
      refine List.prefix_of_prefix_length_le (l₃ := pre' ++ (t', line', col') :: post')
        ⟨post, by rw [← e]; simp⟩ ⟨_, rfl⟩ (by simp; omega)
    obtain ⟨z, rfl⟩ := hpre
    rw [List.map_append, List.map_append] at h2
    exact viable_prefix h2
  obtain ⟨pre, post, e, h1, h2⟩ := h
  obtain ⟨pre', post', e', h1', h2'⟩ := h'
  rw [e] at e'
  have hle := key e' h2 h1'
  have hle' := key e'.symm h2' h1
  obtain ⟨rfl, e2⟩ := List.append_inj e' (by omega)
  cases e2
  exact ⟨rfl, rfl, rfl⟩

theorem file_viable {ts : List Token} {decls : List Decl} (h : IsFile decls ts) : Viable ts :=
  ⟨[], decls, by rwa [List.append_nil]⟩

theorem ends_nil : Ends [] := .inl rfl

theorem lexError_ends {text : Text} {ts : List (Token × Nat × Nat)} {line col line' col' : Nat}
    (h : LexError text ts line col line' col') : ∃ bad, Lexed [] text ts bad ∧ Ends bad ∧ bad ≠ [] := by
  obtain ⟨pre, bad, -, hl, -, -, h⟩ := h
  refine ⟨bad, hl, ?_, ?_⟩
  · rcases h with ⟨h, -⟩ | ⟨h, -⟩
    · exact .inr (.inl h)
    · exact .inr (.inr h)
  · rintro rfl
    rcases h with ⟨⟨c, t, e, -⟩, -⟩ | ⟨⟨t, e, -⟩, -⟩ <;> cases e

section

variable {R : Recognizer Terminal} (hR : R.Correct advSyntax Nonterminal.start)
  (p : Profile) (parse : Text → Except String Hir) {text : Text} {ts : List (Token × Nat × Nat)}

include hR

/-- C94: if the tokens of the text, up to an error of the lexical structure, do not start a valid
file, then the error names the first token that no valid file has at this place, with the line and
column where it starts. -/
theorem C94_parse_failed {rest : Text} (hl : Lexed [] text ts rest) (he : Ends rest) {t : Token}
    {line col : Nat} (hb : FirstBad ts t line col) : load R p parse text =
      .ok (.error ⟨"parse failed", line % 2 ^ 32, col % 2 ^ 32, some t⟩) := by
  have h := load_spec hR p parse text
  generalize load R p parse text = r at h
  cases h with
  | parse hl' he' hb' =>
    obtain ⟨rfl, -⟩ := lexed_unique hl hl' he he'
    obtain ⟨rfl, rfl, rfl⟩ := firstBad_unique hb hb'
    rfl
  | lex h hv =>
    obtain ⟨bad, hl', he', -⟩ := lexError_ends h
    obtain ⟨rfl, -⟩ := lexed_unique hl hl' he he'
    exact absurd hv (firstBad_not_viable hb)
  | incomplete hl' hv _ =>
    obtain ⟨rfl, -⟩ := lexed_unique hl hl' he ends_nil
    exact absurd hv (firstBad_not_viable hb)
  | unloadable hl' hf _ =>
    obtain ⟨rfl, -⟩ := lexed_unique hl hl' he ends_nil
    exact absurd (file_viable hf) (firstBad_not_viable hb)
  | build hl' hf =>
    obtain ⟨rfl, -⟩ := lexed_unique hl hl' he ends_nil
    exact absurd (file_viable hf) (firstBad_not_viable hb)

/-- C94: if the tokens before an error of the lexical structure start a valid file, then this error
is returned, with its position. -/
theorem C94_failed_to_tokenize {line col line' col' : Nat} (hl : LexError text ts line col line' col')
    (hv : Viable (ts.map (·.1))) : load R p parse text =
      .ok (.error ⟨"failed to tokenize", line' % 2 ^ 32, col' % 2 ^ 32, none⟩) := by
  obtain ⟨bad, hl', he', hne⟩ := lexError_ends hl
  have h := load_spec hR p parse text
  generalize load R p parse text = r at h
  cases h with
  | parse hl2 he2 hb =>
    obtain ⟨rfl, -⟩ := lexed_unique hl' hl2 he' he2
    exact absurd hv (firstBad_not_viable hb)
  | lex h hv =>
    have := (C93_error hl).symm.trans (C93_error h)
    rw [Res.ok.injEq] at this
    obtain ⟨rfl, e2⟩ := List.append_inj' this rfl
    cases e2
    rfl
  | incomplete hl2 _ _ => exact absurd (lexed_unique hl' hl2 he' ends_nil).2 hne
  | unloadable hl2 _ _ => exact absurd (lexed_unique hl' hl2 he' ends_nil).2 hne
  | build hl2 => exact absurd (lexed_unique hl' hl2 he' ends_nil).2 hne

/-- C94: if the text stops before the end of a valid file, an error without a position is
returned. -/
theorem C94_incomplete (hl : Lexed [] text ts []) (hv : Viable (ts.map (·.1)))
    (hno : ∀ decls, ¬ IsFile decls (ts.map (·.1))) :
    load R p parse text = .ok (.error ⟨"parse failed: no result", 0, 0, none⟩) := by
  have h := load_spec hR p parse text
  generalize load R p parse text = r at h
  cases h with
  | parse hl2 he2 hb =>
    obtain ⟨rfl, -⟩ := lexed_unique hl hl2 ends_nil he2
    exact absurd hv (firstBad_not_viable hb)
  | lex h _ =>
    obtain ⟨bad, hl', he', hne⟩ := lexError_ends h
    exact absurd (lexed_unique hl hl' ends_nil he').2.symm hne
  | incomplete hl2 _ _ => rfl
  | unloadable hl2 hf _ =>
    obtain ⟨rfl, -⟩ := lexed_unique hl hl2 ends_nil ends_nil
    exact absurd hf (hno _)
  | build hl2 hf =>
    obtain ⟨rfl, -⟩ := lexed_unique hl hl2 ends_nil ends_nil
    exact absurd hf (hno _)

/-- C94: a grammar is only returned for a text that is a valid file. -/
theorem C94_only_files {G : AdvancedGrammar} (h : load R p parse text = .ok (.ok G)) :
    ∃ ts decls, Lexed [] text ts [] ∧ IsFile decls (ts.map (·.1)) := by
  have h' := load_spec hR p parse text
  rw [h] at h'
  generalize er : Res.ok (Except.ok G) = r at h'
  cases h' with
  | parse => cases er
  | lex => cases er
  | incomplete => cases er
  | unloadable => cases er
  | build hl hf => exact ⟨_, _, hl, hf⟩

end

/-- C94: every text is a valid file or falls under one of the three theorems about errors. -/
theorem C94_exhaustive (text : Text) :
    (∃ ts rest t line col, Lexed [] text ts rest ∧ Ends rest ∧ FirstBad ts t line col) ∨
    (∃ ts line col line' col', LexError text ts line col line' col' ∧ Viable (ts.map (·.1))) ∨
    ∃ ts, Lexed [] text ts [] ∧ Viable (ts.map (·.1)) := by
  have key' : ∀ ts done : List (Token × Nat × Nat), Viable (done.map (·.1)) →
      Viable ((done ++ ts).map (·.1)) ∨ ∃ t line col, FirstBad (done ++ ts) t line col := by
    intro ts
    induction ts with
    | nil => exact fun done h => .inl (by simpa using h)
    | cons x ts ih =>
      intro done hd
      obtain ⟨t, line, col⟩ := x
      by_cases h : Viable ((done ++ [(t, line, col)]).map (·.1))
      · simpa using ih _ h
      · exact .inr ⟨t, line, col, done, ts, rfl, hd, by simpa using h⟩
  have key : ∀ ts : List (Token × Nat × Nat), Viable (ts.map (·.1)) ∨
      ∃ t line col, FirstBad ts t line col := fun ts => key' ts [] viable_nil
  rcases C93_exhaustive text with ⟨ts, h⟩ | ⟨ts, line, col, line', col', h⟩
  · rcases key ts with hv | ⟨t, line, col, hb⟩
    · exact .inr (.inr ⟨ts, h, hv⟩)
    · exact .inl ⟨ts, [], t, line, col, h, ends_nil, hb⟩
  · rcases key ts with hv | ⟨t, l, c, hb⟩
    · exact .inr (.inl ⟨ts, line, col, line', col', h, hv⟩)
    · obtain ⟨bad, hl, he, -⟩ := lexError_ends h
      exact .inl ⟨ts, bad, t, l, c, hl, he, hb⟩

/-- The files of a token sequence are unique. -/
theorem C94_unique {decls decls' : List Decl} {ts : List Token} (h : IsFile decls ts)
    (h' : IsFile decls' ts) : decls = decls' := isFile_unique h h'

/-- A text that meets the hypotheses of `C94_parse_failed`: a semicolon too many. -/
example : Lexed [] "a ::= b;\n;".toList [(.ident "a".toList, 1, 1), (.bnfOp, 1, 3),
      (.ident "b".toList, 1, 7), (.semicolon, 1, 8), (.semicolon, 2, 1)] [] ∧
    FirstBad [(.ident "a".toList, 1, 1), (.bnfOp, 1, 3), (.ident "b".toList, 1, 7),
      (.semicolon, 1, 8), (.semicolon, 2, 1)] .semicolon 2 1 := by
  have hok : Stmt.Ok ⟨"a".toList, [⟨[.name "b".toList .none], none⟩]⟩ := by simp [Stmt.Ok]
  refine ⟨lexed_of_tokenize (by decide +kernel) (by decide +kernel),
    [(.ident "a".toList, 1, 1), (.bnfOp, 1, 3), (.ident "b".toList, 1, 7), (.semicolon, 1, 8)], [],
    rfl, ?_, ?_⟩
  · exact ⟨[], [.rule ⟨"a".toList, [⟨[.name "b".toList .none], none⟩]⟩], by simp,
      by simpa [Decl.Ok] using hok, rfl⟩
  · rintro ⟨more, decls, hne, hall, e⟩
    cases decls with
    | nil => exact hne rfl
    | cons d decls =>
      rw [List.flatMap_cons] at e
      cases d with
      | lexer ss => cases e
      | rule s =>
        obtain ⟨-, e2⟩ := stmt_unique (s := ⟨"a".toList, [⟨[.name "b".toList .none], none⟩]⟩)
          (r := .semicolon :: more) hok (hall (.rule s) (by simp)) e
        cases decls with
        | nil => cases e2
        | cons d decls => cases d <;> cases e2

/-- A text that meets the hypotheses of `C94_failed_to_tokenize`: there are no numbers. -/
example : LexError "a ::=\n 1".toList [(.ident "a".toList, 1, 1), (.bnfOp, 1, 3)] 2 2 2 2 ∧
    Viable [.ident "a".toList, .bnfOp] :=
  ⟨lexError_of_tokenize (by decide +kernel), [.semicolon], [.rule ⟨"a".toList, [⟨[], none⟩]⟩],
    by simp, by simp [Decl.Ok, Stmt.Ok], rfl⟩

/-- A text that meets the hypotheses of `C94_incomplete`. -/
example : Lexed [] "a ::=".toList [(.ident "a".toList, 1, 1), (.bnfOp, 1, 3)] [] ∧
    Viable [.ident "a".toList, .bnfOp] ∧ ∀ decls, ¬ IsFile decls [.ident "a".toList, .bnfOp] := by
  refine ⟨lexed_of_tokenize (by decide +kernel) (by decide +kernel),
    ⟨[.semicolon], [.rule ⟨"a".toList, [⟨[], none⟩]⟩], by simp, by simp [Decl.Ok, Stmt.Ok], rfl⟩, ?_⟩
  rintro decls ⟨hne, hall, e⟩
  cases decls with
  | nil => exact hne rfl
  | cons d decls =>
    rw [List.flatMap_cons] at e
    cases d with
    | lexer ss => cases e
    | rule s => simp [Decl.tokens, Stmt.tokens] at e

end Verif
