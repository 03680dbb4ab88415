import Verif.Spec.Load
import Verif.Proofs.Tactics

/-! # Proofs about the tokenisers -/

namespace Verif

theorem identStart_iff {c : Char} : identStart c = true ↔ WordStart c := by
  unfold identStart WordStart Char.isAlpha Char.isUpper Char.isLower
  simp only [Bool.or_eq_true, Bool.and_eq_true, decide_eq_true_eq, beq_iff_eq]
  constructor
  · rintro ((h | h) | h)
    · exact .inl (.inr h)
    · exact .inl (.inl h)
    · exact .inr h
  · rintro ((h | h) | h)
    · exact .inl (.inr h)
    · exact .inl (.inl h)
    · exact .inr h

theorem identChar_iff {c : Char} : identChar c = true ↔ WordChar c := by
  unfold identChar
  rw [Bool.or_eq_true, identStart_iff]
  unfold WordStart WordChar Char.isAlphanum Char.isDigit
  simp only [Bool.or_eq_true, Bool.and_eq_true, decide_eq_true_eq]
  constructor
  · rintro ((h | h) | h)
    · exact .inl (.inl h)
    · exact .inr h
    · exact .inl (.inr h)
  · rintro ((h | h) | h)
    · exact .inl (.inl h)
    · exact .inr h
    · exact .inl (.inr h)

theorem WordStart.char {c : Char} (h : WordStart c) : WordChar c :=
  identChar_iff.1 (by unfold identChar; rw [identStart_iff.2 h]; rfl)

/-! ## Positions -/

namespace Lexer

/-- The lexer is at the right position of the text. -/
def At (text : Text) (l : Lexer) : Prop :=
  ∃ pre, text = pre ++ l.chars ∧ l.lineNo = lineAfter pre ∧ l.colNo = colAfter pre

theorem At.start (text : Text) : At text ⟨text, 1, 1⟩ := ⟨[], rfl, rfl, rfl⟩

theorem At.advance {text : Text} {l : Lexer} (h : At text l) : At text l.advance := by
  obtain ⟨pre, h1, h2, h3⟩ := h
  obtain ⟨chars, line, col⟩ := l
  cases chars with
  | nil => exact ⟨pre, h1, h2, h3⟩
  | cons c chars =>
    dsimp only at h1 h2 h3
    refine ⟨pre ++ [c], ?_, ?_⟩
    · rw [h1]; unfold Lexer.advance; dsimp only; split <;> simp
    · unfold Lexer.advance lineAfter colAfter
      dsimp only
      split
      · rename_i hc
        subst hc
        unfold lineAfter at h2
        simp [h2]
        omega
      · rename_i hc
        unfold lineAfter at h2
        unfold colAfter at h3
        simp [h2, h3, hc]
        omega

/-- The lexer after some more characters. -/
def skip : Nat → Lexer → Lexer
  | 0, l => l
  | n + 1, l => skip n l.advance

theorem At.skip {text : Text} (n : Nat) {l : Lexer} (h : At text l) : At text (l.skip n) := by
  induction n generalizing l with
  | zero => exact h
  | succ n ih => exact ih h.advance

theorem advance_chars (l : Lexer) : l.advance.chars = l.chars.tail := by
  unfold advance
  split
  · rename_i h; rw [h]; rfl
  · rename_i h
    rw [h]
    split <;> rfl

theorem skip_chars (n : Nat) (l : Lexer) : (l.skip n).chars = l.chars.drop n := by
  induction n generalizing l with
  | zero => rfl
  | succ n ih => rw [skip, ih, advance_chars, List.drop_tail]

theorem skip_add (m n : Nat) (l : Lexer) : l.skip (m + n) = (l.skip m).skip n := by
  induction m generalizing l with
  | zero => rw [Nat.zero_add]; rfl
  | succ m ih => rw [Nat.succ_add, skip, skip, ih]

theorem skipIdent_eq (line col : Nat) (t : Text) :
    skipIdent line col t = skip (t.takeWhile identChar).length ⟨t, line, col⟩ := by
  induction t generalizing line col with
  | nil => rfl
  | cons c t ih =>
    unfold skipIdent
    rw [List.takeWhile_cons]
    split
    · rename_i hc
      rw [List.length_cons, skip]
      have := ih (advance ⟨c :: t, line, col⟩).lineNo (advance ⟨c :: t, line, col⟩).colNo
      rw [this]
      congr 1
      unfold advance
      dsimp only
      split <;> rfl
    · rfl

end Lexer

/-! ## Tokens of the basic syntax -/

namespace Basic

/-- The identifier at the start of a text. -/
theorem word_split {c : Char} {t : Text} (hc : WordStart c) :
    IsWord (c :: t.takeWhile identChar) ∧ WordEnd (t.dropWhile identChar) := by
  refine ⟨⟨⟨c, _, rfl, hc⟩, ?_⟩, ?_⟩
  · intro d hd
    rcases List.mem_cons.1 hd with rfl | hd
    · exact hc.char
    · exact identChar_iff.1 (List.all_eq_true.1 List.all_takeWhile d hd)
  · intro d u h hd
    have := List.head_dropWhile_not identChar (l := t) (by rw [h]; simp)
    simp only [h, List.head_cons] at this
    rw [identChar_iff.2 hd] at this
    cases this

theorem eatIdent_eq {l : Lexer} {c : Char} {t : Text} (h : l.chars = c :: t) :
    eatIdent l = (.ident (c :: t.takeWhile identChar), l.skip (1 + (t.takeWhile identChar).length)) := by
  unfold eatIdent
  dsimp only
  have e : l.advance.chars = t := by rw [Lexer.advance_chars, h]; rfl
  have e2 : Lexer.skipIdent l.advance.lineNo l.advance.colNo l.advance.chars =
      l.skip (1 + (t.takeWhile identChar).length) := by
    rw [Lexer.skipIdent_eq, Lexer.skip_add, e]
    congr 1
    rw [← e]
    rfl
  rw [e2, Lexer.skip_chars, h]
  congr 2
  have hl := List.takeWhile_append_dropWhile (p := identChar) (l := t)
  have hlen := congrArg List.length hl
  rw [List.length_append] at hlen
  rw [List.length_drop, List.length_cons,
    show t.length + 1 - (t.length + 1 - (1 + (t.takeWhile identChar).length)) =
      (t.takeWhile identChar).length + 1 from by omega, List.take_succ_cons]
  congr 1
  conv => lhs; arg 2; rw [← hl]
  rw [List.take_left]

/-- One call of `eat`. -/
inductive EatSpec (l : Lexer) : Token × Lexer → Prop
  | stuck : Stuck l.chars → EatSpec l (.error l.lineNo l.colNo, l)
  | blank {c : Char} {t : Text} : l.chars = c :: t → Blank c → EatSpec l (.whitespace, l.skip 1)
  | punct {s t : Text} {tok : Token} : l.chars = s ++ t → Punct s tok →
      EatSpec l (tok, l.skip s.length)
  | word {s t : Text} : l.chars = s ++ t → IsWord s → WordEnd t →
      EatSpec l (.ident s, l.skip s.length)

theorem stuck_of {c : Char} {t : Text} (h1 : ¬ WordStart c) (h2 : ¬ Blank c)
    (h3 : ¬ [':', ':', '='] <+: c :: t) (h4 : c ≠ ';' ∧ c ≠ '|' ∧ c ≠ '+' ∧ c ≠ '*' ∧ c ≠ '(' ∧ c ≠ ')') :
    Stuck (c :: t) := by
  refine ⟨c, t, rfl, h2, h1, ?_⟩
  intro s tok hp hs
  cases hp
  case bnfOp => exact h3 hs
  all_goals
    rw [List.cons_prefix_cons] at hs
    obtain ⟨rfl, -⟩ := hs
    simp at h4

theorem eat_spec {l : Lexer} {c : Char} {t : Text} (h : l.chars = c :: t) : EatSpec l (eat l c) := by
  unfold eat
  split
  · rename_i hc
    rw [eatIdent_eq h, Nat.add_comm, ← List.length_cons (a := c)]
    obtain ⟨h1, h2⟩ := word_split (t := t) (identStart_iff.1 hc)
    refine .word (t := t.dropWhile identChar) ?_ h1 h2
    rw [h, List.cons_append, List.takeWhile_append_dropWhile]
  rename_i hw
  rw [identStart_iff] at hw
  split
  · rename_i hc
    subst hc
    split
    · rename_i hp
      obtain ⟨u, hu⟩ := hp
      exact .punct hu.symm .bnfOp
    · rename_i hp
      refine .stuck ?_
      rw [h] at hp ⊢
      exact stuck_of hw (by rintro (h | h | h) <;> cases h) hp (by decide)
  rename_i hcolon
  split
  · rename_i hc; subst hc; exact .punct (s := [';']) h .semicolon
  rename_i h1
  split
  · rename_i hc; subst hc; exact .punct (s := ['|']) h .pipe
  rename_i h2
  split
  · rename_i hc; subst hc; exact .punct (s := ['+']) h .plus
  rename_i h3
  split
  · rename_i hc; subst hc; exact .punct (s := ['*']) h .mul
  rename_i h4
  split
  · rename_i hc; subst hc; exact .punct (s := ['(']) h .lparen
  rename_i h5
  split
  · rename_i hc; subst hc; exact .punct (s := [')']) h .rparen
  rename_i h6
  split
  · rename_i hc; exact .blank h hc
  · rename_i hc
    refine .stuck ?_
    rw [h]
    refine stuck_of hw hc ?_ ⟨h1, h2, h3, h4, h5, h6⟩
    rw [List.cons_prefix_cons]
    rintro ⟨e, -⟩
    exact hcolon e.symm

theorem punct_ne {s : Text} {t : Token} (h : Punct s t) : s ≠ [] := by cases h <;> simp

theorem punct_token {s : Text} {t : Token} (h : Punct s t) :
    t ≠ .whitespace ∧ ∀ a b, t ≠ .error a b := by cases h <;> simp

theorem word_ne {s : Text} (h : IsWord s) : s ≠ [] := by
  obtain ⟨⟨c, t, rfl, -⟩, -⟩ := h; simp

/-- What the loop of `tokenize` returns. -/
inductive LoopSpec (text rest : Text) (acc : List Token) : Except (Nat × Nat) (List Token) → Prop
  | ok {ts : List Token} : Lexed rest ts [] → LoopSpec text rest acc (.ok (acc ++ ts))
  | error {ts : List Token} {pre bad : Text} : Lexed rest ts bad → text = pre ++ bad → Stuck bad →
      LoopSpec text rest acc (.error (lineAfter pre, colAfter pre))

theorem LoopSpec.cons {text rest rest' : Text} {acc : List Token} {ts0 : List Token}
    {r : Except (Nat × Nat) (List Token)}
    (h : ∀ ts bad, Lexed rest ts bad → Lexed rest' (ts0 ++ ts) bad)
    (hr : LoopSpec text rest (acc ++ ts0) r) : LoopSpec text rest' acc r := by
  cases hr with
  | ok h1 => rw [List.append_assoc]; exact .ok (h _ _ h1)
  | error h1 h2 h3 => exact .error (h _ _ h1) h2 h3

theorem tokenizeLoop_spec {text : Text} (fuel : Nat) (l : Lexer) (acc : List Token)
    (hat : l.At text) (hf : l.chars.length ≤ fuel) :
    ∃ r, tokenizeLoop fuel l acc = .ok r ∧ LoopSpec text l.chars acc r := by
  induction fuel generalizing l acc with
  | zero =>
    have e : l.chars = [] := List.length_eq_zero_iff.1 (Nat.le_zero.1 hf)
    unfold tokenizeLoop eatToken Lexer.peek
    rw [e]
    exact ⟨.ok acc, rfl, by simpa using LoopSpec.ok (acc := acc) (Lexed.done [])⟩
  | succ fuel ih =>
    unfold tokenizeLoop eatToken Lexer.peek
    cases e : l.chars with
    | nil => exact ⟨.ok acc, rfl, by simpa using LoopSpec.ok (acc := acc) (Lexed.done [])⟩
    | cons c t =>
      have hs := eat_spec e
      rw [List.head?_cons, Option.map_some]
      generalize hr : eat l c = r at hs
      rw [e] at hf
      cases hs with
      | stuck hs =>
        obtain ⟨pre, h1, h2, h3⟩ := hat
        refine ⟨_, rfl, ?_⟩
        rw [h2, h3]
        rw [e] at h1 hs
        exact .error (.done _) h1 hs
      | @blank c' t' he hb =>
        rw [e] at he
        cases he
        obtain ⟨r, h1, h2⟩ := ih (l.skip 1) acc (hat.skip 1) (by
          rw [Lexer.skip_chars, e, List.drop_succ_cons, List.drop_zero]
          simpa using hf)
        refine ⟨r, by simpa using h1, ?_⟩
        rw [Lexer.skip_chars, e, List.drop_succ_cons, List.drop_zero] at h2
        rw [← List.append_nil acc] at h2
        exact h2.cons fun ts bad hl => .blank hb hl
      | @punct s t' tok he hp =>
        rw [e] at he
        have hlen : 1 ≤ s.length := List.length_pos_iff.2 (punct_ne hp)
        obtain ⟨r, h1, h2⟩ := ih (l.skip s.length) (acc ++ [tok]) (hat.skip _) (by
          rw [Lexer.skip_chars, e, List.length_drop]
          omega)
        rw [Lexer.skip_chars, e, he, List.drop_left] at h2
        refine ⟨r, ?_, ?_⟩
        · obtain ⟨k1, k2⟩ := punct_token hp
          rw [← h1]
          cases tok with
          | error a b => exact absurd rfl (k2 a b)
          | whitespace => exact absurd rfl k1
          | _ => rfl
        · rw [he]
          exact h2.cons fun ts bad hl => .punct hp hl
      | @word s t' he hw hend =>
        rw [e] at he
        have hlen : 1 ≤ s.length := List.length_pos_iff.2 (word_ne hw)
        obtain ⟨r, h1, h2⟩ := ih (l.skip s.length) (acc ++ [.ident s]) (hat.skip _) (by
          rw [Lexer.skip_chars, e, List.length_drop]
          omega)
        rw [Lexer.skip_chars, e, he, List.drop_left] at h2
        refine ⟨r, by simpa using h1, ?_⟩
        rw [he]
        exact h2.cons fun ts bad hl => .word hw hend hl

theorem tokenize_spec (text : Text) :
    ∃ r, tokenize text = .ok r ∧ LoopSpec text text [] r :=
  tokenizeLoop_spec text.length ⟨text, 1, 1⟩ [] (.start text) (Nat.le_refl _)

/-! ## The lexical structure is unique -/

theorem word_unique {s s' t t' : Text} (hs : IsWord s) (hs' : IsWord s') (ht : WordEnd t)
    (ht' : WordEnd t') (h : s ++ t = s' ++ t') : s = s' ∧ t = t' := by
  rcases List.append_eq_append_iff.1 h with ⟨a, e1, e2⟩ | ⟨a, e1, e2⟩
  · cases a with
    | nil => exact ⟨by simpa using e1.symm, by simpa using e2⟩
    | cons c a =>
      exact absurd (hs'.2 c (by rw [e1]; simp)) (ht c _ e2)
  · cases a with
    | nil => exact ⟨by simpa using e1, by simpa using e2.symm⟩
    | cons c a =>
      exact absurd (hs.2 c (by rw [e1]; simp)) (ht' c _ e2)

theorem blank_not_start {c : Char} (h : Blank c) : ¬ WordStart c := by
  rcases h with rfl | rfl | rfl <;> decide

theorem punct_head {s : Text} {t : Token} (h : Punct s t) :
    ∃ c u, s = c :: u ∧ ¬ Blank c ∧ ¬ WordStart c := by
  cases h <;> refine ⟨_, _, rfl, ?_, by decide⟩ <;> (unfold Blank; decide)

theorem punct_prefix {s s' u u' : Text} {t t' : Token} (h : Punct s t) (h' : Punct s' t')
    (e : s ++ u = s' ++ u') : s = s' ∧ t = t' ∧ u = u' := by
  cases h <;> cases h' <;> simp_all

theorem Stuck.cases {rest : Text} (h : Stuck rest) : (∀ c t, rest = c :: t → ¬ Blank c) ∧
    (∀ s t, rest = s ++ t → ¬ IsWord s) ∧ ∀ s t tok, rest = s ++ t → ¬ Punct s tok := by
  obtain ⟨c, t, rfl, h1, h2, h3⟩ := h
  refine ⟨?_, ?_, ?_⟩
  · intro c' t' e; cases e; exact h1
  · rintro s t' e ⟨⟨c', u, rfl, hw⟩, -⟩
    cases e
    exact h2 hw
  · intro s t' tok e hp
    exact h3 s tok hp ⟨t', e.symm⟩

/-- A text has one lexical structure up to where it ends or is stuck. -/
theorem lexed_unique {text rest rest' : Text} {ts ts' : List Token} (h : Lexed text ts rest)
    (h' : Lexed text ts' rest') (hr : rest = [] ∨ Stuck rest) (hr' : rest' = [] ∨ Stuck rest') :
    ts = ts' ∧ rest = rest' := by
  have nil_of : ∀ {text rest : Text} {ts : List Token}, Lexed text ts rest → text = [] ∨ Stuck text →
      ts = [] ∧ rest = text := by
    intro text rest ts h hs
    cases h with
    | done => exact ⟨rfl, rfl⟩
    | @blank c text _ _ hb _ =>
      rcases hs with hs | hs
      · cases hs
      · exact absurd hb (hs.cases.1 c text rfl)
    | @punct s text _ t _ hp _ =>
      rcases hs with hs | hs
      · exact absurd (List.append_eq_nil_iff.1 hs).1 (punct_ne hp)
      · exact absurd hp (hs.cases.2.2 s text t rfl)
    | @word s text _ _ hw _ _ =>
      rcases hs with hs | hs
      · exact absurd (List.append_eq_nil_iff.1 hs).1 (word_ne hw)
      · exact absurd hw (hs.cases.2.1 s text rfl)
  induction h generalizing ts' with
  | done rest =>
    obtain ⟨rfl, rfl⟩ := nil_of h' hr
    exact ⟨rfl, rfl⟩
  | @blank c text rest ts hb hl ih =>
    generalize ht : c :: text = text' at h'
    cases h' with
    | done =>
      obtain ⟨h1, h2⟩ := nil_of (.blank hb hl) (ht ▸ hr')
      exact ⟨h1, h2.trans ht⟩
    | blank hb' hl' => cases ht; exact ih hl' hr
    | punct hp hl' =>
      obtain ⟨d, u, rfl, h1, -⟩ := punct_head hp
      cases ht
      exact absurd hb h1
    | word hw _ _ =>
      obtain ⟨⟨d, u, rfl, h1⟩, -⟩ := hw
      cases ht
      exact absurd h1 (blank_not_start hb)
  | @punct s text rest t ts hp hl ih =>
    generalize ht : s ++ text = text' at h'
    cases h' with
    | done =>
      have := nil_of (.punct hp hl) (ht ▸ hr')
      cases this.1
    | blank hb' hl' =>
      obtain ⟨d, u, rfl, h1, -⟩ := punct_head hp
      cases ht
      exact absurd hb' h1
    | punct hp' hl' =>
      obtain ⟨rfl, rfl, rfl⟩ := punct_prefix hp hp' ht
      obtain ⟨h1, h2⟩ := ih hl' hr
      exact ⟨by rw [h1], h2⟩
    | word hw _ _ =>
      obtain ⟨d, u, rfl, -, h1⟩ := punct_head hp
      obtain ⟨⟨d', u', rfl, h2⟩, -⟩ := hw
      rw [List.cons_append, List.cons_append, List.cons.injEq] at ht
      rw [ht.1] at h1
      exact absurd h2 h1
  | @word s text rest ts hw he hl ih =>
    generalize ht : s ++ text = text' at h'
    cases h' with
    | done =>
      have := nil_of (.word hw he hl) (ht ▸ hr')
      cases this.1
    | blank hb' hl' =>
      obtain ⟨⟨d, u, rfl, h1⟩, -⟩ := hw
      cases ht
      exact absurd h1 (blank_not_start hb')
    | punct hp' hl' =>
      obtain ⟨d, u, rfl, -, h1⟩ := punct_head hp'
      obtain ⟨⟨d', u', rfl, h2⟩, -⟩ := hw
      rw [List.cons_append, List.cons_append, List.cons.injEq] at ht
      rw [← ht.1] at h1
      exact absurd h2 h1
    | word hw' he' hl' =>
      obtain ⟨rfl, rfl⟩ := word_unique hw hw' he he' ht
      obtain ⟨h1, h2⟩ := ih hl' hr
      exact ⟨by rw [h1], h2⟩

end Basic

end Verif
