import Verif.Props.LoadAdvGrammar
import Verif.Proofs.LoadAdvStop

/-! # The advanced loader: exactly when it panics, rejects and loads (C95 to C98) -/

namespace Verif

open Advanced

section

variable {R : Recognizer Terminal} (hR : R.Correct advSyntax Nonterminal.start)
  (parse : Text → Except String Hir) (hp : ∀ arg hir, parse arg = .ok hir → hir.Parsed)
  {text : Text}

include hR hp

/-- C95 to C98, exact for debug builds: what happens with a file that starts with a rule and has at
most one lexer block is decided by the first element, in the order of loading, that cannot be
translated or is to be rejected. If there is none, the file is loaded as specified. -/
theorem C95_exact_file {ts : List (Token × Nat × Nat)} {decls : List Decl}
    (hl : Lexed [] text ts []) (hf : IsFile decls (ts.map (·.1))) (hld : Loadable decls) :
    match firstStop parse decls with
    | some .panic => load R .debug parse text = .panic
    | some (.reject r k) => load R .debug parse text = .ok (.error ⟨r, (k + 1) % 2 ^ 32, 1, none⟩)
    | none => ∃ G sym, load R .debug parse text = .ok (.ok G) ∧
        Loaded parse (parserClauses decls) (lexerClauses decls) G sym ∧
        Records (parserClauses decls) (lexerClauses decls) G sym := by
  rcases load_file hR .debug parse hl hf with ⟨h, -⟩ | ⟨-, rs, lex, k1, k2, e⟩
  · exact absurd hld h
  · cases hs : firstStop parse decls with
    | some s =>
      have := build_stop hp k1 k2 hs
      cases s with
      | panic => exact e.trans this
      | reject r k => exact e.trans this
    | none =>
      obtain ⟨h1, h2⟩ := firstStop_none hp k1 k2 hs
      have := build_spec .debug k1 k2 h1 (clauses_ne hf hld)
      rw [h2] at this
      dsimp only at this ⊢
      rw [e]
      exact this

/-- C95, exact for debug builds: loading a text never hangs, and it panics exactly if the text is a
valid file that starts with a lexer block or has two of them, or whose first element that cannot be
loaded is a string with a character that has no next one, or an expression with look-around, byte 255
or bounds that are too large or inverted. -/
theorem C95_exact :
    load R .debug parse text ≠ .diverge ∧
    (load R .debug parse text = .panic ↔ ∃ ts decls, Lexed [] text ts [] ∧
      IsFile decls (ts.map (·.1)) ∧ (¬ Loadable decls ∨ firstStop parse decls = some .panic)) := by
  have returns : ∀ r, load R .debug parse text = .ok r →
      (∀ ts decls, Lexed [] text ts [] → IsFile decls (ts.map (·.1)) →
        Loadable decls ∧ firstStop parse decls ≠ some .panic) →
      load R .debug parse text ≠ .diverge ∧
      (load R .debug parse text = .panic ↔ ∃ ts decls, Lexed [] text ts [] ∧
        IsFile decls (ts.map (·.1)) ∧ (¬ Loadable decls ∨ firstStop parse decls = some .panic)) := by
    intro r e h
    rw [e]
    refine ⟨(by intro h; cases h), (by intro h; cases h), ?_⟩
    rintro ⟨ts, decls, hl, hf, h1 | h1⟩
    · exact absurd (h ts decls hl hf).1 h1
    · exact absurd h1 (h ts decls hl hf).2
  have panics : load R .debug parse text = .panic → ∀ ts decls, Lexed [] text ts [] →
      IsFile decls (ts.map (·.1)) → (¬ Loadable decls ∨ firstStop parse decls = some .panic) →
      load R .debug parse text ≠ .diverge ∧
      (load R .debug parse text = .panic ↔ ∃ ts decls, Lexed [] text ts [] ∧
        IsFile decls (ts.map (·.1)) ∧ (¬ Loadable decls ∨ firstStop parse decls = some .panic)) := by
    intro e ts decls hl hf h
    rw [e]
    exact ⟨(by intro h; cases h), fun _ => ⟨ts, decls, hl, hf, h⟩, fun _ => rfl⟩
  rcases C94_exhaustive text with ⟨ts, rest, t, line, col, hl, he, hb⟩ |
    ⟨ts, line, col, line', col', hl, hv⟩ | ⟨ts, hl, hv⟩
  · refine returns _ (C94_parse_failed hR .debug parse hl he hb) fun ts' decls hl' hf => ?_
    obtain ⟨rfl, -⟩ := lexed_unique hl' hl ends_nil he
    exact absurd (file_viable hf) (firstBad_not_viable hb)
  · refine returns _ (C94_failed_to_tokenize hR .debug parse hl hv) fun ts' decls hl' hf => ?_
    obtain ⟨bad, hb, he', hne⟩ := lexError_ends hl
    exact absurd (lexed_unique hl' hb ends_nil he').2.symm hne
  · by_cases hf : ∃ decls, IsFile decls (ts.map (·.1))
    · obtain ⟨decls, hf⟩ := hf
      by_cases hld : Loadable decls
      · have hx := C95_exact_file hR parse hp hl hf hld
        have huniq : ∀ ts' decls', Lexed [] text ts' [] → IsFile decls' (ts'.map (·.1)) →
            decls' = decls := by
          intro ts' decls' hl' hf'
          obtain ⟨rfl, -⟩ := lexed_unique hl' hl ends_nil ends_nil
          exact isFile_unique hf' hf
        cases hs : firstStop parse decls with
        | none =>
          rw [hs] at hx
          obtain ⟨G, sym, e, -⟩ := hx
          refine returns _ e fun ts' decls' hl' hf' => ?_
          rw [huniq ts' decls' hl' hf', hs]
          exact ⟨hld, by simp⟩
        | some s =>
          rw [hs] at hx
          cases s with
          | panic => exact panics hx ts decls hl hf (.inr hs)
          | reject r k =>
            refine returns _ hx fun ts' decls' hl' hf' => ?_
            rw [huniq ts' decls' hl' hf', hs]
            exact ⟨hld, by simp⟩
      · exact panics (C95_panics hR .debug parse hl hf hld) ts decls hl hf (.inl hld)
    · refine returns _ (C94_incomplete hR .debug parse hl hv fun decls h => hf ⟨decls, h⟩)
        fun ts' decls' hl' hf' => ?_
      obtain ⟨rfl, -⟩ := lexed_unique hl' hl ends_nil ends_nil
      exact absurd ⟨decls', hf'⟩ hf

end

/-! ## Examples -/

theorem exParse_parsed : ∀ arg hir, exParse arg = .ok hir → hir.Parsed := by
  intro arg hir h
  rcases exParse_ok h with rfl | rfl <;> simp [Hir.Parsed, Apart]

/-- A file that is loaded. -/
example : firstStop exParse exAdvDecls = none := by
  have h : ∀ arg hir, exParse arg = .ok hir → ¬ hir.Trouble := by
    intro arg hir h
    rcases exParse_ok h with rfl | rfl <;> simp [Hir.Trouble, Sequence.Fits]
  have h1 : exParse ['[', '0', '-', '9', ']'] = .ok (.cls [(0x30, 0x39)]) := rfl
  have h2 : exParse ['[', 'a', '-', 'z', ']', '+'] = .ok (.repetition 1 none (.cls [(0x61, 0x7A)])) := rfl
  have k1 := h _ _ h1
  have k2 := h _ _ h2
  simp [firstStop, exAdvDecls, parserPlaces, lexerPlaces, stmtsPlaces, Stmt.places, altStarts, starts,
    Alt.place, elemStarts, Place.stop, Place.lexerStop, Elem.stop, IsChar, h1, h2, k1, k2]

/-- Two files with the same elements in two orders: the first one is rejected, the second one
panics. -/
example :
    firstStop exParse [.rule ⟨['a'], [⟨[.call ['x'] ['y'], .str [lastChar]], none⟩]⟩] =
      some (.reject "expected 'Regexp', found 'x'" 2) ∧
    firstStop exParse [.rule ⟨['a'], [⟨[.str [lastChar], .call ['x'] ['y']], none⟩]⟩] =
      some .panic := by
  have h : ¬ IsChar (lastChar.toNat + 1) := by decide +kernel
  constructor <;>
    simp [firstStop, parserPlaces, Stmt.places, altStarts, starts,
      Alt.place, elemStarts, Place.stop, Elem.stop, h]

end Verif
