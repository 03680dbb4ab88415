import Verif.Spec.RustString
import Verif.Props.Macro

/-! # Proofs about the message of `cfg_regexp!` -/

namespace Verif.Macro

open Advanced

/-! ## Literals -/

/-- The characters that a string literal cannot have as they are. -/
def Special (c : Char) : Prop := c = '"' ∨ c = '\\' ∨ c = '\r'

theorem body_of_plain {s : Text} (h : ∀ c ∈ s, ¬ Special c) : StringBody s s := by
  induction s with
  | nil => exact .nil
  | cons c s ih =>
    have h1 := h c (by simp)
    exact .char (fun e => h1 (.inl e)) (fun e => h1 (.inr (.inl e))) (fun e => h1 (.inr (.inr e)))
      (ih fun d hd => h d (by simp [hd]))

theorem Escape.length_pos {e : Text} {c : Char} (h : Escape e c) : 0 < e.length := by
  cases h <;> simp

/-- A value is as long as its literal only if the literal has no escapes. -/
theorem body_length {s v : Text} (h : StringBody s v) :
    v.length ≤ s.length ∧ (v.length = s.length → ∀ c ∈ s, ¬ Special c) := by
  induction h with
  | nil => simp
  | @char c s v h1 h2 h3 _ ih =>
    refine ⟨by simpa using ih.1, fun e d hd => ?_⟩
    rcases List.mem_cons.1 hd with rfl | hd
    · rintro (e | e | e)
      exacts [h1 e, h2 e, h3 e]
    · exact ih.2 (by simpa using e) d hd
  | @escape e s v c he _ ih =>
    have := he.length_pos
    have h1 := ih.1
    refine ⟨by simp; omega, fun e => ?_⟩
    simp at e
    omega
  | @lineBreak ws s v _ _ _ ih =>
    have h1 := ih.1
    refine ⟨by simp; omega, fun e => ?_⟩
    simp at e
    omega

theorem shows_iff {reason : String} {v : Text} :
    Shows (errorSource reason) v ↔ StringBody reason.toList v := by
  unfold Shows errorSource
  constructor
  · rintro ⟨body, e, h⟩
    have := List.append_cancel_right e
    rwa [List.append_cancel_left this]
  · exact fun h => ⟨_, rfl, h⟩

/-- No literal has an escape `\\d`. -/
theorem not_body_digit (s : Text) (h : '\\' ∉ s) (t : Text) : ∀ v, ¬ StringBody (s ++ '\\' :: 'd' :: t) v := by
  induction s with
  | nil =>
    intro v hb
    rw [List.nil_append] at hb
    generalize e : '\\' :: 'd' :: t = x at hb
    cases hb with
    | nil => cases e
    | char _ h2 => cases e; exact h2 rfl
    | escape he => cases he <;> cases e
    | lineBreak => cases e
  | cons c s ih =>
    intro v hb
    rw [List.cons_append] at hb
    generalize e : c :: (s ++ '\\' :: 'd' :: t) = x at hb
    cases hb with
    | nil => cases e
    | char _ _ _ hb =>
      obtain ⟨rfl, rfl⟩ := List.cons.inj e
      exact ih (fun hm => h (List.mem_cons_of_mem _ hm)) _ hb
    | escape he => exact h (by rw [(List.cons.inj e).1]; simp)
    | lineBreak => exact h (by rw [(List.cons.inj e).1]; simp)

/-! ## Reasons -/

/-- Where a reason of the loop comes from. -/
def RuleReason (parse : Text → Except String Hir) (c : Clause) (reason : String) : Prop :=
  reason = "lhs shared between parser and lexer: " ++ String.ofList c.lhs ∨
  ∃ func arg, .call func arg ∈ c.elems ∧
    (reason = "expected 'Regexp', found '" ++ String.ofList func ++ "'" ∨ parse arg = .error reason)

theorem fragment_reason {p : Profile} {parse : Text → Except String Hir} {st : State} {f : Fragment}
    {e : LoadError} (h : st.fragment p parse f = .ok (.error e)) :
    ∃ func arg, f.elem = .call func arg ∧
      (e.reason = "expected 'Regexp', found '" ++ String.ofList func ++ "'" ∨
        parse arg = .error e.reason) := by
  cases f with
  | rhs ident rep =>
    unfold State.fragment at h
    obtain ⟨_, -, h⟩ := Res.bind_eq_ok.1 h
    cases h
  | lex s span =>
    unfold State.fragment at h
    obtain ⟨_, -, h⟩ := Res.bind_eq_ok.1 h
    cases h
  | call func arg argSpan span =>
    refine ⟨func, arg, rfl, ?_⟩
    change st.call p parse func arg argSpan span = _ at h
    unfold State.call at h
    split at h
    · cases h
      exact .inl rfl
    · split at h
      · rename_i err he
        cases h
        exact .inr he
      · obtain ⟨_, -, h⟩ := Res.bind_eq_ok.1 h
        obtain ⟨_, -, h⟩ := Res.bind_eq_ok.1 h
        cases h

theorem fragments_reason {p : Profile} {parse : Text → Except String Hir} {e : LoadError}
    (fs : List Fragment) : ∀ {st : State}, fragments p parse st fs = .ok (.error e) →
    ∃ func arg, .call func arg ∈ fs.map Fragment.elem ∧
      (e.reason = "expected 'Regexp', found '" ++ String.ofList func ++ "'" ∨
        parse arg = .error e.reason) := by
  induction fs with
  | nil => intro st h; cases h
  | cons f fs ih =>
    intro st h
    unfold fragments at h
    obtain ⟨r, h1, h⟩ := Res.bind_eq_ok.1 h
    split at h
    · cases h
      obtain ⟨func, arg, h2, h3⟩ := fragment_reason h1
      exact ⟨func, arg, by simp [h2], h3⟩
    · obtain ⟨r, h2, h⟩ := Res.bind_eq_ok.1 h
      split at h
      · cases h
        obtain ⟨func, arg, h3, h4⟩ := ih h2
        exact ⟨func, arg, by rw [List.map_cons]; exact List.mem_cons_of_mem _ h3, h4⟩
      · cases h

theorem loadRule_reason {p : Profile} {parse : Text → Except String Hir} {e : LoadError} {st : State}
    {idx : Nat} {rule : Rule} {isLexer : Bool}
    (h : st.loadRule p parse idx rule isLexer = .ok (.error e)) :
    RuleReason parse rule.clause e.reason := by
  have key : ∀ {st : State}, st.loadRhs p parse idx rule isLexer = .ok (.error e) →
      RuleReason parse rule.clause e.reason := by
    intro st h
    unfold State.loadRhs at h
    obtain ⟨r, h1, h⟩ := Res.bind_eq_ok.1 h
    split at h
    · cases h
      exact .inr (fragments_reason _ h1)
    · obtain ⟨_, -, h⟩ := Res.bind_eq_ok.1 h
      cases h
  unfold State.loadRule at h
  dsimp only at h
  split at h
  · split at h
    · cases h
      exact .inl rfl
    · exact key h
  · exact key h

theorem loadRules_reason {p : Profile} {parse : Text → Except String Hir} {e : LoadError}
    (rules : List (Rule × Bool)) : ∀ {st : State} {idx : Nat},
    loadRules p parse st idx rules = .ok (.error e) →
    ∃ r ∈ rules, RuleReason parse r.1.clause e.reason := by
  induction rules with
  | nil => intro st idx h; cases h
  | cons r rules ih =>
    intro st idx h
    unfold loadRules at h
    obtain ⟨x, h1, h⟩ := Res.bind_eq_ok.1 h
    split at h
    · cases h
      exact ⟨_, by simp, loadRule_reason h1⟩
    · obtain ⟨r', h2, h3⟩ := ih h
      exact ⟨r', by simp [h2], h3⟩

/-! ## Names are words -/

theorem Lexed_word {pre text rest : Text} {ts : List (Token × Nat × Nat)} (h : Lexed pre text ts rest) :
    ∀ s, .ident s ∈ ts.map (·.1) → IsWord s := by
  induction h with
  | done => simp
  | blank _ _ ih => exact ih
  | punct hp _ ih =>
    intro s hs
    rw [List.map_cons, List.mem_cons] at hs
    rcases hs with hs | hs
    · dsimp only at hs
      subst hs
      cases hp
    · exact ih s hs
  | @word pre w _ _ _ hw _ _ ih =>
    intro s hs
    rw [List.map_cons, List.mem_cons] at hs
    rcases hs with hs | hs
    · unfold wordToken at hs
      dsimp only at hs
      split at hs
      · cases hs
      · cases hs
        exact hw
    · exact ih s hs
  | string _ _ ih =>
    intro s hs
    rw [List.map_cons, List.mem_cons] at hs
    rcases hs with hs | hs
    · cases hs
    · exact ih s hs

theorem mem_intersperse {α : Type} {a sep : α} {l : List α} (h : a ∈ l) : a ∈ l.intersperse sep := by
  induction l with
  | nil => cases h
  | cons b l ih =>
    cases l with
    | nil => exact h
    | cons c l =>
      rw [List.intersperse_cons_cons]
      rcases List.mem_cons.1 h with rfl | h
      · simp
      · exact List.mem_cons_of_mem _ (List.mem_cons_of_mem _ (ih h))

theorem stmt_tokens {s : Stmt} {c : Clause} (hc : c ∈ s.clauses) : .ident c.lhs ∈ s.tokens ∧
    ∀ func arg, .call func arg ∈ c.elems → .ident func ∈ s.tokens ∧ .string arg ∈ s.tokens := by
  unfold Stmt.clauses at hc
  obtain ⟨a, ha, rfl⟩ := List.mem_map.1 hc
  refine ⟨by simp [Stmt.tokens], fun func arg hf => ?_⟩
  have key : ∀ t ∈ (Elem.call func arg).tokens, t ∈ s.tokens := by
    intro t ht
    have h1 : t ∈ a.tokens := by
      unfold Alt.tokens
      refine List.mem_append_left _ (List.mem_flatten.2 ⟨_, ?_, ht⟩)
      exact mem_intersperse (List.mem_map_of_mem hf)
    unfold Stmt.tokens
    refine List.mem_append_left _ (List.mem_cons_of_mem _ (List.mem_cons_of_mem _ ?_))
    exact List.mem_flatten.2 ⟨_, mem_intersperse (List.mem_map_of_mem ha), h1⟩
  exact ⟨key _ (by simp [Elem.tokens]), key _ (by simp [Elem.tokens])⟩

theorem clause_tokens {decls : List Decl} {c : Clause}
    (hc : c ∈ parserClauses decls ++ lexerClauses decls) :
    .ident c.lhs ∈ decls.flatMap Decl.tokens ∧ ∀ func arg, .call func arg ∈ c.elems →
      .ident func ∈ decls.flatMap Decl.tokens ∧ .string arg ∈ decls.flatMap Decl.tokens := by
  obtain ⟨s, hs, hsub⟩ : ∃ s : Stmt, c ∈ s.clauses ∧ ∀ t ∈ s.tokens, t ∈ decls.flatMap Decl.tokens := by
    rcases List.mem_append.1 hc with h | h
    · obtain ⟨d, hd, h⟩ := List.mem_flatMap.1 h
      cases d with
      | rule s => exact ⟨s, h, fun t ht => List.mem_flatMap.2 ⟨_, hd, ht⟩⟩
      | lexer ss => cases h
    · obtain ⟨d, hd, h⟩ := List.mem_flatMap.1 h
      cases d with
      | rule s => cases h
      | lexer ss =>
        obtain ⟨s, hs, h⟩ := List.mem_flatMap.1 h
        refine ⟨s, h, fun t ht => List.mem_flatMap.2 ⟨_, hd, ?_⟩⟩
        unfold Decl.tokens
        have : t ∈ ss.flatMap Stmt.tokens := List.mem_flatMap.2 ⟨s, hs, ht⟩
        simp [this]
  obtain ⟨h1, h2⟩ := stmt_tokens hs
  exact ⟨hsub _ h1, fun f a h => ⟨hsub _ (h2 f a h).1, hsub _ (h2 f a h).2⟩⟩

/-- The reasons of the loader. -/
theorem load_reason {R : Recognizer Terminal} (hR : R.Correct advSyntax Nonterminal.start)
    {p : Profile} {parse : Text → Except String Hir} {text : Text} {e : LoadError}
    (h : load R p parse text = .ok (.error e)) :
    e.reason = "parse failed" ∨ e.reason = "failed to tokenize" ∨ e.reason = "parse failed: no result" ∨
    (∃ name, IsWord name ∧ (e.reason = "lhs shared between parser and lexer: " ++ String.ofList name ∨
      e.reason = "expected 'Regexp', found '" ++ String.ofList name ++ "'")) ∨
    ∃ ts arg, Lexed [] text ts [] ∧ .string arg ∈ ts.map (·.1) ∧ parse arg = .error e.reason := by
  have h' := load_spec hR p parse text
  rw [h] at h'
  generalize er : Res.ok (Except.error e) = r at h'
  cases h' with
  | parse => cases er; exact .inl rfl
  | lex => cases er; exact .inr (.inl rfl)
  | incomplete => cases er; exact .inr (.inr (.inl rfl))
  | unloadable => cases er
  | @build ts decls rs lex hl hf hld k1 k2 =>
    unfold Advanced.build at er
    obtain ⟨x, h1, er⟩ := Res.bind_eq_ok.1 er.symm
    split at er
    · cases er
      obtain ⟨r, hr, h2⟩ := loadRules_reason _ h1
      have hc : r.1.clause ∈ parserClauses decls ++ lexerClauses decls := by
        rw [← (placed_clause k1).trans (parserPlaces_clause decls 0),
          ← (placed_clause k2).trans (lexerPlaces_clause decls 0), ← List.map_append]
        refine List.mem_map_of_mem ?_
        rcases List.mem_append.1 hr with h | h
        · obtain ⟨y, hy, rfl⟩ := List.mem_map.1 h
          exact List.mem_append_left _ hy
        · obtain ⟨y, hy, rfl⟩ := List.mem_map.1 h
          exact List.mem_append_right _ hy
      obtain ⟨t1, t2⟩ := clause_tokens hc
      rw [← hf.2.2] at t1 t2
      rcases h2 with h2 | ⟨func, arg, hm, h2 | h2⟩
      · exact .inr (.inr (.inr (.inl ⟨_, Lexed_word hl _ t1, .inl h2⟩)))
      · exact .inr (.inr (.inr (.inl ⟨_, Lexed_word hl _ (t2 _ _ hm).1, .inr h2⟩)))
      · exact .inr (.inr (.inr (.inr ⟨ts, arg, hl, (t2 _ _ hm).2, h2⟩)))
    · obtain ⟨_, -, er⟩ := Res.bind_eq_ok.1 er
      cases er

theorem wordChar_plain {c : Char} (h : WordChar c) : ¬ Special c := by
  rintro (rfl | rfl | rfl) <;> revert h <;> decide

end Verif.Macro
