import Verif.Spec.LoadAdvanced
import Verif.Proofs.LoadLex

/-! # Proofs about the tokeniser of the advanced loader -/

namespace Verif

/-- The lexer is where the text before it ends. -/
def Lexer.After (pre : Text) (l : Lexer) : Prop := l.lineNo = lineAfter pre ∧ l.colNo = colAfter pre

theorem Lexer.After.advance {pre : Text} {l : Lexer} {c : Char} {t : Text} (h : l.After pre)
    (hc : l.chars = c :: t) : l.advance.After (pre ++ [c]) := by
  obtain ⟨h2, h3⟩ := h
  obtain ⟨chars, line, col⟩ := l
  cases hc
  dsimp only at h2 h3
  unfold Lexer.advance Lexer.After lineAfter colAfter
  dsimp only
  split
  · rename_i hc
    subst hc
    unfold lineAfter at h2
    simp [h2]
    omega
  · rename_i hc
    unfold lineAfter at h2
    unfold colAfter at h3
    simp [h2, h3, hc]
    omega

theorem Lexer.After.skip {s : Text} {pre : Text} {l : Lexer} {t : Text} (h : l.After pre)
    (hc : l.chars = s ++ t) : (l.skip s.length).After (pre ++ s) := by
  induction s generalizing pre l with
  | nil => rw [List.append_nil]; exact h
  | cons c s ih =>
    have := ih (h.advance hc) (l := l.advance) (by rw [advance_chars, hc]; rfl)
    rw [List.append_assoc] at this
    exact this

namespace Advanced

open Basic (word_split word_unique word_ne blank_not_start)

theorem eatIdent_eq {l : Lexer} {c : Char} {t : Text} (h : l.chars = c :: t) (hc : WordStart c) :
    eatIdent l = (wordToken (c :: t.takeWhile identChar),
      l.skip (c :: t.takeWhile identChar).length) := by
  unfold eatIdent
  dsimp only
  have e2 : Lexer.skipIdent l.lineNo l.colNo l.chars =
      l.skip (c :: t.takeWhile identChar).length := by
    rw [Lexer.skipIdent_eq, h, List.takeWhile_cons, if_pos (identChar_iff.2 hc.char), ← h]
  rw [e2, Lexer.skip_chars, h]
  have hl := List.takeWhile_append_dropWhile (p := identChar) (l := t)
  have hlen := congrArg List.length hl
  rw [List.length_append] at hlen
  have e3 : (c :: t).take ((c :: t).length - ((c :: t).drop (c :: t.takeWhile identChar).length).length) =
      c :: t.takeWhile identChar := by
    rw [List.length_drop, List.length_cons, List.length_cons,
      show t.length + 1 - (t.length + 1 - ((t.takeWhile identChar).length + 1)) =
        (t.takeWhile identChar).length + 1 from by omega, List.take_succ_cons]
    congr 1
    conv => lhs; arg 2; rw [← hl]
    rw [List.take_left]
  rw [e3]
  unfold wordToken
  split <;> rfl

/-- The loop over a string. -/
theorem stringLoop_spec (t : Text) : ∀ (line col : Nat) (res : Text),
    (∃ s v u, t = s ++ '"' :: u ∧ Quoted s v ∧
      stringLoop line col res t = (res ++ v, Lexer.skip s.length ⟨t, line, col⟩)) ∨
    ((∀ s v u, Quoted s v → t ≠ s ++ '"' :: u) ∧
      (stringLoop line col res t).2 = Lexer.skip t.length ⟨t, line, col⟩) := by
  induction h : t.length using Nat.strongRecOn generalizing t with
  | _ n ih =>
    intro line col res
    subst h
    cases t with
    | nil => exact .inr ⟨by simp, by unfold stringLoop; rfl⟩
    | cons c t =>
      have hadv : (Lexer.advance ⟨c :: t, line, col⟩) =
          ⟨t, (Lexer.advance ⟨c :: t, line, col⟩).lineNo,
            (Lexer.advance ⟨c :: t, line, col⟩).colNo⟩ := by
        unfold Lexer.advance; dsimp only; split <;> rfl
      by_cases hq : c = '"'
      · subst hq
        refine .inl ⟨[], [], t, rfl, .nil, ?_⟩
        unfold stringLoop
        simp [Lexer.skip]
      · by_cases hb : c = '\\'
        · subst hb
          cases t with
          | nil =>
            refine .inr ⟨?_, ?_⟩
            · intro s v u hs e
              cases hs with
              | nil => simp at e
              | plain h1 h2 _ => simp at e
              | escape _ => simp at e
            · unfold stringLoop
              simp only [hq, if_false, if_true]
              rfl
          | cons d t =>
            have hadv2 : (Lexer.advance ⟨d :: t, (Lexer.advance ⟨'\\' :: d :: t, line, col⟩).lineNo,
                (Lexer.advance ⟨'\\' :: d :: t, line, col⟩).colNo⟩) =
              ⟨t, (Lexer.advance ⟨d :: t, (Lexer.advance ⟨'\\' :: d :: t, line, col⟩).lineNo,
                (Lexer.advance ⟨'\\' :: d :: t, line, col⟩).colNo⟩).lineNo,
                (Lexer.advance ⟨d :: t, (Lexer.advance ⟨'\\' :: d :: t, line, col⟩).lineNo,
                (Lexer.advance ⟨'\\' :: d :: t, line, col⟩).colNo⟩).colNo⟩ := by
              unfold Lexer.advance; dsimp only; split <;> rfl
            have e : stringLoop line col res ('\\' :: d :: t) =
                stringLoop (Lexer.skip 2 ⟨'\\' :: d :: t, line, col⟩).lineNo
                  (Lexer.skip 2 ⟨'\\' :: d :: t, line, col⟩).colNo (res ++ [d]) t := by
              rw [stringLoop]
              simp only [hq, if_false, if_true]
              rw [Lexer.skip, Lexer.skip, Lexer.skip, hadv, hadv2]
            have es : Lexer.skip 2 ⟨'\\' :: d :: t, line, col⟩ =
                ⟨t, (Lexer.skip 2 ⟨'\\' :: d :: t, line, col⟩).lineNo,
                  (Lexer.skip 2 ⟨'\\' :: d :: t, line, col⟩).colNo⟩ := by
              rw [Lexer.skip, Lexer.skip, Lexer.skip, hadv, hadv2]
            rcases ih t.length (by simp only [List.length_cons]; omega) t rfl
              (Lexer.skip 2 ⟨'\\' :: d :: t, line, col⟩).lineNo
              (Lexer.skip 2 ⟨'\\' :: d :: t, line, col⟩).colNo (res ++ [d]) with
              ⟨s, v, u, h1, h2, h3⟩ | ⟨h1, h2⟩
            · refine .inl ⟨'\\' :: d :: s, d :: v, u, by rw [h1]; rfl, .escape h2, ?_⟩
              rw [e, h3, ← es, ← Lexer.skip_add, List.length_cons, List.length_cons]
              rw [show 2 + s.length = s.length + 1 + 1 from by omega]
              simp
            · refine .inr ⟨?_, ?_⟩
              · intro s v u hs he
                cases hs with
                | nil => simp at he
                | plain h3 h4 _ =>
                  rw [List.cons_append, List.cons.injEq] at he
                  exact h4 he.1.symm
                | @escape c s v hs =>
                  rw [List.cons_append, List.cons_append, List.cons.injEq, List.cons.injEq] at he
                  exact h1 s v u hs he.2.2
              · rw [e, h2, ← es, ← Lexer.skip_add, List.length_cons, List.length_cons]
                rw [show 2 + t.length = t.length + 1 + 1 from by omega]
        · have e : stringLoop line col res (c :: t) =
              stringLoop (Lexer.skip 1 ⟨c :: t, line, col⟩).lineNo
                (Lexer.skip 1 ⟨c :: t, line, col⟩).colNo (res ++ [c]) t := by
            rw [stringLoop]
            · simp only [hq, hb, if_false]
              rfl
          have es : Lexer.skip 1 ⟨c :: t, line, col⟩ =
              ⟨t, (Lexer.skip 1 ⟨c :: t, line, col⟩).lineNo,
                (Lexer.skip 1 ⟨c :: t, line, col⟩).colNo⟩ := by
            rw [Lexer.skip, Lexer.skip, hadv]
          rcases ih t.length (by simp) t rfl
            (Lexer.skip 1 ⟨c :: t, line, col⟩).lineNo
            (Lexer.skip 1 ⟨c :: t, line, col⟩).colNo (res ++ [c]) with
            ⟨s, v, u, h1, h2, h3⟩ | ⟨h1, h2⟩
          · refine .inl ⟨c :: s, c :: v, u, by rw [h1]; rfl, .plain hq hb h2, ?_⟩
            rw [e, h3, ← es, ← Lexer.skip_add, List.length_cons]
            rw [show 1 + s.length = s.length + 1 from by omega]
            simp
          · refine .inr ⟨?_, ?_⟩
            · intro s v u hs he
              cases hs with
              | nil =>
                rw [List.nil_append, List.cons.injEq] at he
                exact hq he.1
              | @plain c s v _ _ hs =>
                rw [List.cons_append, List.cons.injEq] at he
                exact h1 s v u hs he.2
              | escape hs =>
                rw [List.cons_append, List.cons.injEq] at he
                exact hb he.1
            · rw [e, h2, ← es, ← Lexer.skip_add, List.length_cons]
              rw [show 1 + t.length = t.length + 1 from by omega]

/-- One call of `eat`. -/
inductive EatSpec (l : Lexer) : Token × Lexer → Prop
  | stuck : Stuck l.chars → EatSpec l (.error l.lineNo l.colNo, l)
  | open : Unterminated l.chars → EatSpec l (.error (l.skip l.chars.length).lineNo
      (l.skip l.chars.length).colNo, l.skip l.chars.length)
  | blank {c : Char} {t : Text} : l.chars = c :: t → Blank c → EatSpec l (.whitespace, l.skip 1)
  | punct {s t : Text} {tok : Token} : l.chars = s ++ t → Punct s tok →
      EatSpec l (tok, l.skip s.length)
  | word {s t : Text} : l.chars = s ++ t → IsWord s → WordEnd t →
      EatSpec l (wordToken s, l.skip s.length)
  | string {s v t : Text} : l.chars = ('"' :: (s ++ ['"'])) ++ t → Quoted s v →
      EatSpec l (.string v, l.skip ('"' :: (s ++ ['"'])).length)

theorem stuck_of {c : Char} {t : Text} (h1 : ¬ WordStart c) (h2 : ¬ Blank c) (h0 : c ≠ '"')
    (h3 : ¬ [':', ':', '='] <+: c :: t) (h4 : c ≠ ';' ∧ c ≠ '|' ∧ c ≠ '+' ∧ c ≠ '*' ∧ c ≠ '~' ∧
      c ≠ '(' ∧ c ≠ ')' ∧ c ≠ '{' ∧ c ≠ '}' ∧ c ≠ '>') :
    Stuck (c :: t) := by
  refine ⟨c, t, rfl, h2, h1, h0, ?_⟩
  intro s tok hp hs
  cases hp
  case bnfOp => exact h3 hs
  all_goals
    rw [List.cons_prefix_cons] at hs
    obtain ⟨rfl, -⟩ := hs
    simp at h4

theorem eatString_spec {l : Lexer} {t : Text} (h : l.chars = '"' :: t) :
    EatSpec l (eatString l) := by
  have e1 : l.advance.chars = t := by rw [Lexer.advance_chars, h]; rfl
  unfold eatString
  dsimp only
  rw [e1]
  rcases stringLoop_spec t l.advance.lineNo l.advance.colNo [] with
    ⟨s, v, u, h1, h2, h3⟩ | ⟨h1, h2⟩
  · rw [h3]
    have e2 : Lexer.skip s.length ⟨t, l.advance.lineNo, l.advance.colNo⟩ = l.skip (s.length + 1) := by
      rw [← e1]; rfl
    rw [e2]
    dsimp only
    have e3 : (l.skip (s.length + 1)).chars = '"' :: u := by
      rw [Lexer.skip_chars, h, List.drop_succ_cons, h1, List.drop_left]
    unfold Lexer.peek
    rw [e3, List.head?_cons, if_pos rfl, List.nil_append]
    have e4 : (l.skip (s.length + 1)).advance = l.skip ('"' :: (s ++ ['"'])).length := by
      rw [List.length_cons, List.length_append, List.length_singleton,
        show s.length + 1 + 1 = (s.length + 1) + 1 from rfl, Lexer.skip_add (s.length + 1) 1]
      rfl
    rw [e4]
    exact .string (t := u) (by rw [h, h1]; simp) h2
  · generalize hr : stringLoop l.advance.lineNo l.advance.colNo [] t = r at h2
    obtain ⟨res, l'⟩ := r
    have e2 : Lexer.skip t.length ⟨t, l.advance.lineNo, l.advance.colNo⟩ =
        l.skip l.chars.length := by
      rw [h, ← e1]; rfl
    rw [e2] at h2
    dsimp only at h2 ⊢
    subst h2
    have e3 : (l.skip l.chars.length).chars = [] := by rw [Lexer.skip_chars]; simp
    unfold Lexer.peek
    rw [e3]
    simp only [List.head?_nil, reduceCtorEq, if_false]
    refine .open ⟨t, h, ?_⟩
    rintro s v hs ⟨u, hu⟩
    exact h1 s v u hs (by rw [← hu]; simp)

theorem eat_spec {l : Lexer} {c : Char} {t : Text} (h : l.chars = c :: t) : EatSpec l (eat l c) := by
  unfold eat
  by_cases hc : identStart c = true
  · rw [if_pos hc, eatIdent_eq h (identStart_iff.1 hc)]
    obtain ⟨h1, h2⟩ := word_split (t := t) (identStart_iff.1 hc)
    refine .word (t := t.dropWhile identChar) ?_ h1 h2
    rw [h, List.cons_append, List.takeWhile_append_dropWhile]
  rw [if_neg hc]
  rw [identStart_iff] at hc
  by_cases hcolon : c = ':'
  · rw [if_pos hcolon]
    subst hcolon
    by_cases hp : [':', ':', '='] <+: l.chars
    · rw [if_pos hp]
      obtain ⟨u, hu⟩ := hp
      exact .punct hu.symm .bnfOp
    · rw [if_neg hp]
      refine .stuck ?_
      rw [h] at hp ⊢
      exact stuck_of hc (by rintro (h | h | h) <;> cases h) (by decide) hp (by decide)
  rw [if_neg hcolon]
  by_cases h1 : c = ';'
  · rw [if_pos h1]; subst h1; exact .punct (s := [';']) h .semicolon
  rw [if_neg h1]
  by_cases h2 : c = '|'
  · rw [if_pos h2]; subst h2; exact .punct (s := ['|']) h .pipe
  rw [if_neg h2]
  by_cases h3 : c = '+'
  · rw [if_pos h3]; subst h3; exact .punct (s := ['+']) h .plus
  rw [if_neg h3]
  by_cases h4 : c = '*'
  · rw [if_pos h4]; subst h4; exact .punct (s := ['*']) h .mul
  rw [if_neg h4]
  by_cases h5 : c = '~'
  · rw [if_pos h5]; subst h5; exact .punct (s := ['~']) h .tilde
  rw [if_neg h5]
  by_cases h6 : c = '('
  · rw [if_pos h6]; subst h6; exact .punct (s := ['(']) h .lparen
  rw [if_neg h6]
  by_cases h7 : c = ')'
  · rw [if_pos h7]; subst h7; exact .punct (s := [')']) h .rparen
  rw [if_neg h7]
  by_cases h8 : c = '{'
  · rw [if_pos h8]; subst h8; exact .punct (s := ['{']) h .lbrace
  rw [if_neg h8]
  by_cases h9 : c = '}'
  · rw [if_pos h9]; subst h9; exact .punct (s := ['}']) h .rbrace
  rw [if_neg h9]
  by_cases h10 : c = '>'
  · rw [if_pos h10]; subst h10; exact .punct (s := ['>']) h .gt
  rw [if_neg h10]
  by_cases hb : c = ' ' ∨ c = '\n' ∨ c = '\t'
  · rw [if_pos hb]; exact .blank h hb
  rw [if_neg hb]
  by_cases hq : c = '"'
  · rw [if_pos hq]
    subst hq
    exact eatString_spec h
  · rw [if_neg hq]
    refine .stuck ?_
    rw [h]
    refine stuck_of hc hb hq ?_ ⟨h1, h2, h3, h4, h5, h6, h7, h8, h9, h10⟩
    rw [List.cons_prefix_cons]
    rintro ⟨e, -⟩
    exact hcolon e.symm

theorem punct_ne {s : Text} {t : Token} (h : Punct s t) : s ≠ [] := by cases h <;> simp

/-- A token that `tokenize` returns, other than an error. -/
def Plain (t : Token) : Prop := t ≠ .whitespace ∧ ∀ a b, t ≠ .error a b

theorem punct_plain {s : Text} {t : Token} (h : Punct s t) : Plain t := by cases h <;> simp [Plain]

theorem word_plain (s : Text) : Plain (wordToken s) := by
  unfold wordToken; split <;> simp [Plain]

theorem lexed_plain {pre text rest : Text} {ts : List (Token × Nat × Nat)} (h : Lexed pre text ts rest) :
    ∀ t ∈ ts, Plain t.1 := by
  induction h with
  | done => simp
  | blank _ _ ih => exact ih
  | punct hp _ ih =>
    intro t ht
    rcases List.mem_cons.1 ht with rfl | ht
    · exact punct_plain hp
    · exact ih t ht
  | word _ _ _ ih =>
    intro t ht
    rcases List.mem_cons.1 ht with rfl | ht
    · exact word_plain _
    · exact ih t ht
  | string _ _ ih =>
    intro t ht
    rcases List.mem_cons.1 ht with rfl | ht
    · simp [Plain]
    · exact ih t ht

/-- What the loop of `tokenize` returns, started after `pre` on `rest`. -/
inductive LoopSpec (pre rest : Text) (acc : List (Token × Nat × Nat)) :
    List (Token × Nat × Nat) → Prop
  | ok {ts : List (Token × Nat × Nat)} : Lexed pre rest ts [] → LoopSpec pre rest acc (acc ++ ts)
  | stuck {ts : List (Token × Nat × Nat)} {mid bad : Text} : Lexed pre rest ts bad →
      rest = mid ++ bad → Stuck bad →
      LoopSpec pre rest acc (acc ++ ts ++ [(.error (lineAfter (pre ++ mid)) (colAfter (pre ++ mid)),
        lineAfter (pre ++ mid), colAfter (pre ++ mid))])
  | open {ts : List (Token × Nat × Nat)} {mid bad : Text} : Lexed pre rest ts bad →
      rest = mid ++ bad → Unterminated bad →
      LoopSpec pre rest acc (acc ++ ts ++ [(.error (lineAfter (pre ++ rest)) (colAfter (pre ++ rest)),
        lineAfter (pre ++ mid), colAfter (pre ++ mid))])

theorem LoopSpec.cons {pre s rest : Text} {acc r ts0 : List (Token × Nat × Nat)}
    (h : ∀ ts bad, Lexed (pre ++ s) rest ts bad → Lexed pre (s ++ rest) (ts0 ++ ts) bad)
    (hr : LoopSpec (pre ++ s) rest (acc ++ ts0) r) : LoopSpec pre (s ++ rest) acc r := by
  cases hr with
  | ok h1 => rw [List.append_assoc]; exact .ok (h _ _ h1)
  | @stuck ts mid bad h1 h2 h3 =>
    have := LoopSpec.stuck (acc := acc) (mid := s ++ mid) (h _ _ h1) (by rw [h2]; simp) h3
    rw [← List.append_assoc pre, ← List.append_assoc acc] at this
    exact this
  | @«open» ts mid bad h1 h2 h3 =>
    have := LoopSpec.open (acc := acc) (mid := s ++ mid) (h _ _ h1) (by rw [h2]; simp) h3
    rw [← List.append_assoc pre, ← List.append_assoc pre, ← List.append_assoc acc] at this
    exact this

theorem tokenizeLoop_plain {fuel : Nat} {l l' : Lexer} {acc : List (Token × Nat × Nat)} {tok : Token}
    (h : eatToken l = some (tok, l')) (hp : Plain tok) :
    tokenizeLoop (fuel + 1) l acc = tokenizeLoop fuel l' (acc ++ [(tok, l.lineNo, l.colNo)]) := by
  conv => lhs; unfold tokenizeLoop
  rw [h]
  obtain ⟨k1, k2⟩ := hp
  cases tok with
  | error a b => exact absurd rfl (k2 a b)
  | whitespace => exact absurd rfl k1
  | _ => rfl

theorem tokenizeLoop_spec (fuel : Nat) (pre : Text) (l : Lexer) (acc : List (Token × Nat × Nat))
    (hat : l.After pre) (hf : l.chars.length ≤ fuel) :
    ∃ r, tokenizeLoop fuel l acc = .ok r ∧ LoopSpec pre l.chars acc r := by
  induction fuel generalizing pre l acc with
  | zero =>
    have e : l.chars = [] := List.length_eq_zero_iff.1 (Nat.le_zero.1 hf)
    unfold tokenizeLoop eatToken Lexer.peek
    rw [e]
    exact ⟨acc, rfl, by simpa using LoopSpec.ok (acc := acc) (Lexed.done pre [])⟩
  | succ fuel ih =>
    cases e : l.chars with
    | nil =>
      unfold tokenizeLoop eatToken Lexer.peek
      rw [e]
      exact ⟨acc, rfl, by simpa using LoopSpec.ok (acc := acc) (Lexed.done pre [])⟩
    | cons c t =>
      have hs := eat_spec e
      have het : eatToken l = some (eat l c) := by
        unfold eatToken Lexer.peek; rw [e]; rfl
      generalize hr : eat l c = r at hs het
      rw [e] at hf
      -- a token that is no blank
      have step : ∀ {s t' : Text} {tok : Token}, c :: t = s ++ t' → s ≠ [] → Plain tok →
          eatToken l = some (tok, l.skip s.length) →
          (∀ ts bad, Lexed (pre ++ s) t' ts bad →
            Lexed pre (s ++ t') ((tok, lineAfter pre, colAfter pre) :: ts) bad) →
          ∃ r, tokenizeLoop (fuel + 1) l acc = .ok r ∧ LoopSpec pre (c :: t) acc r := by
        intro s t' tok he hne hp het hl
        have hlen : 1 ≤ s.length := List.length_pos_iff.2 hne
        have hc : (l.skip s.length).chars = t' := by
          rw [Lexer.skip_chars, e, he, List.drop_left]
        obtain ⟨r, h1, h2⟩ := ih (pre ++ s) (l.skip s.length) (acc ++ [(tok, l.lineNo, l.colNo)])
          (hat.skip (t := t') (by rw [e, he])) (by
            rw [hc]
            have := congrArg List.length he
            rw [List.length_append] at this
            omega)
        rw [hc] at h2
        refine ⟨r, by rw [tokenizeLoop_plain het hp, h1], ?_⟩
        rw [he]
        refine LoopSpec.cons (ts0 := [(tok, l.lineNo, l.colNo)]) ?_ h2
        intro ts bad h
        rw [hat.1, hat.2]
        exact hl ts bad h
      cases hs with
      | stuck hs =>
        obtain ⟨h2, h3⟩ := hat
        refine ⟨_, by unfold tokenizeLoop; rw [het], ?_⟩
        rw [h2, h3]
        rw [e] at hs
        have := LoopSpec.stuck (acc := acc) (mid := []) (Lexed.done pre (c :: t)) rfl hs
        simpa using this
      | «open» hs =>
        have hend : (l.skip l.chars.length).After (pre ++ l.chars) := hat.skip (t := []) (by simp)
        obtain ⟨h2, h3⟩ := hat
        refine ⟨_, by unfold tokenizeLoop; rw [het], ?_⟩
        rw [hend.1, hend.2, h2, h3]
        rw [e] at hs ⊢
        have := LoopSpec.open (acc := acc) (mid := []) (Lexed.done pre (c :: t)) rfl hs
        simpa using this
      | @blank c' t' he hb =>
        rw [e] at he
        cases he
        have hc : (l.skip 1).chars = t := by
          rw [Lexer.skip_chars, e, List.drop_succ_cons, List.drop_zero]
        obtain ⟨r, h1, h2⟩ := ih (pre ++ [c]) (l.skip 1) acc (hat.skip (s := [c]) (t := t) e) (by
          rw [hc]; simpa using hf)
        rw [hc] at h2
        refine ⟨r, by unfold tokenizeLoop; rw [het]; simpa using h1, ?_⟩
        rw [← List.append_nil acc] at h2
        exact LoopSpec.cons (s := [c]) (ts0 := []) (fun ts bad hl => Lexed.blank hb hl) h2
      | @punct s t' tok he hp =>
        rw [e] at he
        exact step he (punct_ne hp) (punct_plain hp) het fun ts bad h => .punct hp h
      | @word s t' he hw hend =>
        rw [e] at he
        exact step he (word_ne hw) (word_plain s) het fun ts bad h => .word hw hend h
      | @string s v t' he hq =>
        rw [e] at he
        refine step he (by simp) (by simp [Plain]) het fun ts bad h => ?_
        have := Lexed.string hq h
        simpa using this

theorem tokenize_spec (text : Text) :
    ∃ r, tokenize text = .ok r ∧ LoopSpec [] text [] r :=
  tokenizeLoop_spec text.length [] ⟨text, 1, 1⟩ [] ⟨rfl, rfl⟩ (Nat.le_refl _)

/-! ## The lexical structure is unique -/

theorem punct_head {s : Text} {t : Token} (h : Punct s t) :
    ∃ c u, s = c :: u ∧ ¬ Blank c ∧ ¬ WordStart c ∧ c ≠ '"' := by
  cases h <;> refine ⟨_, _, rfl, ?_, by decide, by decide⟩ <;> (unfold Blank; decide)

theorem punct_prefix {s s' u u' : Text} {t t' : Token} (h : Punct s t) (h' : Punct s' t')
    (e : s ++ u = s' ++ u') : s = s' ∧ t = t' ∧ u = u' := by
  cases h <;> cases h' <;> simp_all

theorem quoted_unique {s s' v v' u u' : Text} (h : Quoted s v) (h' : Quoted s' v')
    (e : s ++ '"' :: u = s' ++ '"' :: u') : s = s' ∧ v = v' ∧ u = u' := by
  induction h generalizing s' v' with
  | nil =>
    cases h' with
    | nil => simpa using e
    | plain h1 _ _ =>
      rw [List.nil_append, List.cons_append, List.cons.injEq] at e
      exact absurd e.1.symm h1
    | escape _ => simp at e
  | @plain c s v h1 h2 h ih =>
    cases h' with
    | nil =>
      rw [List.nil_append, List.cons_append, List.cons.injEq] at e
      exact absurd e.1 h1
    | plain h1' h2' h' =>
      rw [List.cons_append, List.cons_append, List.cons.injEq] at e
      obtain ⟨rfl, rfl, rfl⟩ := ih h' e.2
      exact ⟨by rw [e.1], by rw [e.1], rfl⟩
    | escape h' =>
      rw [List.cons_append, List.cons_append, List.cons.injEq] at e
      exact absurd e.1 h2
  | @escape c s v h ih =>
    cases h' with
    | nil => simp at e
    | plain h1' h2' h' =>
      simp only [List.cons_append, List.cons.injEq] at e
      exact absurd e.1.symm h2'
    | escape h' =>
      simp only [List.cons_append, List.cons.injEq, true_and] at e
      obtain ⟨rfl, rfl, rfl⟩ := ih h' e.2
      exact ⟨by rw [e.1], by rw [e.1], rfl⟩

theorem Ends.nil_of {pre text rest : Text} {ts : List (Token × Nat × Nat)}
    (h : Lexed pre text ts rest) (hs : Ends text) : ts = [] ∧ rest = text := by
  cases h with
  | done => exact ⟨rfl, rfl⟩
  | @blank _ c text _ _ hb _ =>
    rcases hs with hs | ⟨d, t, e, h1, -⟩ | ⟨t, e, -⟩
    · cases hs
    · cases e; exact absurd hb h1
    · cases e; exact absurd hb (by unfold Blank; decide)
  | @punct _ s text _ t _ hp _ =>
    rcases hs with hs | ⟨d, u, e, h1, -, -, h2⟩ | ⟨u, e, -⟩
    · exact absurd (List.append_eq_nil_iff.1 hs).1 (punct_ne hp)
    · exact absurd ⟨text, rfl⟩ (h2 s t hp)
    · obtain ⟨c, u', rfl, -, -, hc⟩ := punct_head hp
      rw [List.cons_append, List.cons.injEq] at e
      exact absurd e.1 hc
  | @word _ s text _ _ hw _ _ =>
    rcases hs with hs | ⟨d, u, e, -, h1, -⟩ | ⟨u, e, -⟩
    · exact absurd (List.append_eq_nil_iff.1 hs).1 (word_ne hw)
    · obtain ⟨⟨c, u', rfl, hc⟩, -⟩ := hw
      rw [List.cons_append, List.cons.injEq] at e
      exact absurd (e.1 ▸ hc) h1
    · obtain ⟨⟨c, u', rfl, hc⟩, -⟩ := hw
      rw [List.cons_append, List.cons.injEq] at e
      exact absurd (e.1 ▸ hc) (by decide)
  | @string _ s v text _ _ hq _ =>
    rcases hs with hs | ⟨d, u, e, -, -, h1, -⟩ | ⟨u, e, h1⟩
    · cases hs
    · cases e; exact absurd rfl h1
    · cases e
      exact absurd ⟨text, by simp⟩ (h1 s v hq)

/-- A text has one lexical structure up to where it ends. -/
theorem lexed_unique {pre text rest rest' : Text} {ts ts' : List (Token × Nat × Nat)}
    (h : Lexed pre text ts rest) (h' : Lexed pre text ts' rest') (hr : Ends rest) (hr' : Ends rest') :
    ts = ts' ∧ rest = rest' := by
  induction h generalizing ts' with
  | done pre rest =>
    obtain ⟨rfl, rfl⟩ := hr.nil_of h'
    exact ⟨rfl, rfl⟩
  | @blank pre c text rest ts hb hl ih =>
    generalize ht : c :: text = text' at h'
    cases h' with
    | done =>
      obtain ⟨h1, h2⟩ := (ht ▸ hr' : Ends (c :: text)).nil_of (.blank hb hl)
      exact ⟨h1, h2.trans ht⟩
    | blank hb' hl' => cases ht; exact ih hl' hr
    | punct hp hl' =>
      obtain ⟨d, u, rfl, h1, -⟩ := punct_head hp
      cases ht
      exact absurd hb h1
    | word hw _ _ =>
      obtain ⟨⟨d, u, rfl, h1⟩, -⟩ := hw
      cases ht
      exact absurd h1 (blank_not_start hb)
    | string hq _ =>
      cases ht
      exact absurd hb (by unfold Blank; decide)
  | @punct pre s text rest t ts hp hl ih =>
    generalize ht : s ++ text = text' at h'
    cases h' with
    | done =>
      have := (ht ▸ hr' : Ends (s ++ text)).nil_of (.punct hp hl)
      cases this.1
    | blank hb' hl' =>
      obtain ⟨d, u, rfl, h1, -⟩ := punct_head hp
      cases ht
      exact absurd hb' h1
    | punct hp' hl' =>
      obtain ⟨rfl, rfl, rfl⟩ := punct_prefix hp hp' ht
      obtain ⟨h1, h2⟩ := ih hl' hr
      exact ⟨by rw [h1], h2⟩
    | word hw _ _ =>
      obtain ⟨d, u, rfl, -, h1, -⟩ := punct_head hp
      obtain ⟨⟨d', u', rfl, h2⟩, -⟩ := hw
      rw [List.cons_append, List.cons_append, List.cons.injEq] at ht
      rw [ht.1] at h1
      exact absurd h2 h1
    | string hq _ =>
      obtain ⟨d, u, rfl, -, -, h1⟩ := punct_head hp
      rw [List.cons_append, List.cons.injEq] at ht
      exact absurd ht.1 h1
  | @word pre s text rest ts hw he hl ih =>
    generalize ht : s ++ text = text' at h'
    cases h' with
    | done =>
      have := (ht ▸ hr' : Ends (s ++ text)).nil_of (.word hw he hl)
      cases this.1
    | blank hb' hl' =>
      obtain ⟨⟨d, u, rfl, h1⟩, -⟩ := hw
      cases ht
      exact absurd h1 (blank_not_start hb')
    | punct hp' hl' =>
      obtain ⟨d, u, rfl, -, h1, -⟩ := punct_head hp'
      obtain ⟨⟨d', u', rfl, h2⟩, -⟩ := hw
      rw [List.cons_append, List.cons_append, List.cons.injEq] at ht
      rw [← ht.1] at h1
      exact absurd h2 h1
    | word hw' he' hl' =>
      obtain ⟨rfl, rfl⟩ := word_unique hw hw' he he' ht
      obtain ⟨h1, h2⟩ := ih hl' hr
      exact ⟨by rw [h1], h2⟩
    | string hq _ =>
      obtain ⟨⟨d', u', rfl, h2⟩, -⟩ := hw
      rw [List.cons_append, List.cons.injEq] at ht
      rw [ht.1] at h2
      exact absurd h2 (by decide)
  | @string pre s v text rest ts hq hl ih =>
    generalize ht : '"' :: (s ++ '"' :: text) = text' at h'
    cases h' with
    | done =>
      have := (ht ▸ hr' : Ends ('"' :: (s ++ '"' :: text))).nil_of (.string hq hl)
      cases this.1
    | blank hb' hl' =>
      cases ht
      exact absurd hb' (by unfold Blank; decide)
    | punct hp' hl' =>
      obtain ⟨d, u, rfl, -, -, h1⟩ := punct_head hp'
      rw [List.cons_append, List.cons.injEq] at ht
      exact absurd ht.1.symm h1
    | word hw' he' hl' =>
      obtain ⟨⟨d', u', rfl, h2⟩, -⟩ := hw'
      rw [List.cons_append, List.cons.injEq] at ht
      rw [← ht.1] at h2
      exact absurd h2 (by decide)
    | string hq' hl' =>
      rw [List.cons.injEq] at ht
      obtain ⟨rfl, rfl, rfl⟩ := quoted_unique hq hq' ht.2
      obtain ⟨h1, h2⟩ := ih hl' hr
      exact ⟨by rw [h1], h2⟩

end Advanced

end Verif
