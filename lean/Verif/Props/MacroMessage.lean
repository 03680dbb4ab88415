import Verif.Proofs.MacroMessage

/-! # Property C117: the message of `cfg_regexp!` -/

namespace Verif.Macro

open Advanced

/-- **C117.** The source text that the macro makes for a reason is a call of `compile_error!` that shows
the reason exactly if there is no double quote, backslash or carriage return in it. (Partial: there are
such reasons, see `C117_violated`.) -/
theorem C117_shown_partial (reason : String) :
    Shows (errorSource reason) reason.toList ↔
      ∀ c ∈ reason.toList, c ≠ '"' ∧ c ≠ '\\' ∧ c ≠ '\r' := by
  rw [shows_iff]
  constructor
  · intro h c hc
    have := (body_length h).2 rfl c hc
    exact ⟨fun e => this (.inl e), fun e => this (.inr (.inl e)), fun e => this (.inr (.inr e))⟩
  · exact fun h => body_of_plain fun c hc => by
      rintro (e | e | e)
      exacts [(h c hc).1 e, (h c hc).2.1 e, (h c hc).2.2 e]

/-- **C117.** For every stream of tokens, if the macro reports an error, then the source text shows its
reason, or the reason is that of an expression in the stream that cannot be parsed. (Partial: the
latter.) -/
theorem C117_macro_partial {R : Recognizer Terminal} (hR : R.Correct advSyntax Nonterminal.start)
    {p : Profile} {parse : Text → Except String Hir} {stream : List TokenTree}
    {ls : List (Text × Span)} (hl : Lines (pieces stream) ls) {reason : String} {span : Option Span}
    (h : cfgRegexp R p parse stream = .ok (.compileError reason span)) :
    Shows (errorSource reason) reason.toList ∨
    ∃ ts arg, Lexed [] (code ls) ts [] ∧ .string arg ∈ ts.map (·.1) ∧ parse arg = .error reason := by
  have key : ∃ e, load R p parse (code ls) = .ok (.error e) ∧ e.reason = reason := by
    rw [cfgRegexp_eq R p parse hl] at h
    obtain ⟨r, h1, h⟩ := Res.bind_eq_ok.1 h
    split at h
    · split at h <;> cases h
    · rename_i e
      refine ⟨e, h1, ?_⟩
      split at h
      · obtain ⟨_, -, h⟩ := Res.bind_eq_ok.1 h
        cases h
        rfl
      · cases h
        rfl
  obtain ⟨e, he, rfl⟩ := key
  have fixed : ∀ (a b : String) (n : Text), IsWord n → (∀ c ∈ a.toList, ¬ Special c) →
      (∀ c ∈ b.toList, ¬ Special c) →
      ∀ c ∈ (a ++ String.ofList n ++ b).toList, c ≠ '"' ∧ c ≠ '\\' ∧ c ≠ '\r' := by
    intro a b n hn ha hb c hc
    have hsp : ¬ Special c := by
      rw [String.toList_append, String.toList_append, String.toList_ofList, List.mem_append,
        List.mem_append] at hc
      rcases hc with (hc | hc) | hc
      exacts [ha c hc, wordChar_plain (hn.2 c hc), hb c hc]
    exact ⟨fun e => hsp (.inl e), fun e => hsp (.inr (.inl e)), fun e => hsp (.inr (.inr e))⟩
  rcases load_reason hR he with h | h | h | ⟨n, hn, h | h⟩ | h
  · rw [h]; exact .inl ((C117_shown_partial _).2 (by decide +kernel))
  · rw [h]; exact .inl ((C117_shown_partial _).2 (by decide +kernel))
  · rw [h]; exact .inl ((C117_shown_partial _).2 (by decide +kernel))
  · refine .inl ((C117_shown_partial _).2 ?_)
    have := fixed "lhs shared between parser and lexer: " "" n hn (by unfold Special; decide +kernel)
      (by simp)
    rw [h]
    simpa using this
  · refine .inl ((C117_shown_partial _).2 ?_)
    have := fixed "expected 'Regexp', found '" "'" n hn (by unfold Special; decide +kernel)
      (by unfold Special; decide +kernel)
    rw [h]
    exact this
  · exact .inr h

/-- The call `a ::= Regexp ("\\\\d(") ;`. -/
def exDigit : List TokenTree :=
  exStart ++ [.ident "Regexp".toList ⟨6, 12⟩,
    .group .parenthesis [.literal ['"', '\\', '\\', 'd', '(', '"'] ⟨14, 20⟩] ⟨13, 14⟩ ⟨20, 21⟩,
    .punct ';' ⟨21, 22⟩]

/-- The lines of the call. -/
def exDigitLines : List (Text × Span) := [(['a'], ⟨0, 1⟩), ([':', ':', '='], ⟨4, 5⟩),
    ("Regexp".toList, ⟨6, 12⟩), (['('], ⟨13, 14⟩), (['"', '\\', '\\', 'd', '(', '"'], ⟨14, 20⟩),
    ([')'], ⟨20, 21⟩), ([';'], ⟨21, 22⟩)]

theorem exDigit_lines : Lines (pieces exDigit) exDigitLines :=
  .piece rfl (.joined rfl rfl (.joined rfl rfl (.piece rfl (.piece rfl (.piece rfl (.piece rfl
    (.piece rfl (.piece rfl .nil))))))))

/-- The reason that `regex_syntax` gives for the expression `\d(`: it has the expression in it. -/
def exDigitReason : String := "regex parse error:\n    \\d(\n      ^\nerror: unclosed group"

/-- **C117** is violated: for `a ::= Regexp ("\\\\d(") ;` the source text is no call of `compile_error!`
with a string literal, whatever its value. -/
theorem C117_violated {R : Recognizer Terminal} (hR : R.Correct advSyntax Nonterminal.start) (p : Profile)
    {parse : Text → Except String Hir} (hp : parse ['\\', 'd', '('] = .error exDigitReason) :
    cfgRegexp R p parse exDigit = .ok (.compileError exDigitReason (some ⟨14, 20⟩)) ∧
    ∀ message, ¬ Shows (errorSource exDigitReason) message := by
  refine ⟨?_, fun m h => ?_⟩
  · obtain ⟨l, h1, h2⟩ := C110_rejected_partial hR p parse
      (decls := [.rule ⟨['a'], [⟨[.call "Regexp".toList ['\\', 'd', '(']], none⟩]⟩])
      (reason := exDigitReason) (k := 4) exDigit_lines
      (.cons (.word (s := ['a']) ⟨⟨_, _, rfl, by decide⟩, by decide⟩) (.cons (.punct .bnfOp)
        (.cons (.word (s := "Regexp".toList) ⟨⟨'R', "egexp".toList, by decide +kernel, by decide⟩, by decide +kernel⟩) (.cons (.punct .lparen)
          (.cons (.string (s := ['\\', '\\', 'd', '('])
              (.escape (.plain (by decide) (by decide) (.plain (by decide) (by decide) .nil))))
            (.cons (.punct .rparen) (.cons (.punct .semicolon) .nil)))))))
      ⟨by simp, by simp [Decl.Ok, Stmt.Ok], rfl⟩ ⟨⟨_, rfl⟩, by decide⟩
      (by
        intro e he
        obtain rfl : e = .call "Regexp".toList ['\\', 'd', '('] := List.mem_singleton.1 he
        intro hir h
        rw [hp] at h
        cases h)
      (by
        simp [firstFaultAt, parserPlaces, lexerPlaces, Stmt.places, altStarts, starts, Alt.place,
          elemStarts, Place.fault, Elem.fault, hp])
      (by decide)
    rw [h2]
    obtain rfl := Option.some.inj h1
    rfl
  · rw [shows_iff] at h
    exact not_body_digit "regex parse error:\n    ".toList (by decide +kernel)
      "(\n      ^\nerror: unclosed group".toList m (by
        have : "regex parse error:\n    ".toList ++ '\\' :: 'd' ::
            "(\n      ^\nerror: unclosed group".toList = exDigitReason.toList := by decide +kernel
        rw [this]; exact h)

/-- A parser that gives this reason. -/
example : ∃ parse : Text → Except String Hir, parse ['\\', 'd', '('] = .error exDigitReason :=
  ⟨fun _ => .error exDigitReason, rfl⟩

/-- Two literals and their values: quotes must be escaped. -/
example : StringBody ['a', '\\', '"', '\\', 'x', '4', '1'] ['a', '"', 'A'] ∧
    ¬ ∃ v, StringBody ['a', '"'] v := by
  refine ⟨.char (by decide) (by decide) (by decide) (.escape (e := ['"']) .doubleQuote
    (.escape (e := ['x', '4', '1']) (s := []) (.ascii (m := 4) (n := 1) (by decide) (by decide) (by decide))
      .nil)), ?_⟩
  rintro ⟨v, h⟩
  cases h with
  | char _ _ _ h =>
    cases h with
    | char h => exact h rfl

/-- An error whose reason is shown, as in `C110_incomplete`. -/
example : Shows (errorSource "parse failed: no result") "parse failed: no result".toList :=
  (C117_shown_partial _).2 (by decide +kernel)

end Verif.Macro
