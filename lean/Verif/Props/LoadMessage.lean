import Verif.Model.LoadMessage
import Verif.Proofs.LoadState
import Verif.Proofs.Stringify

/-! # What the message of a loading error tells (C143) -/

namespace Verif

/-- One of the loaders returns the error for some text. -/
def LoadError.Returned (e : LoadError) : Prop :=
  (∃ R p text, Basic.load R p text = .ok (.error e)) ∨
    ∃ R p parse text, Advanced.load R p parse text = .ok (.error e)

/-! ## Errors with a token -/

/-- The error has no token or a fixed reason. -/
def LoadError.Plain (e : LoadError) : Prop := e.token = none ∨ e.reason = "parse failed"

namespace Basic

theorem scan_plain {R : Recognizer Terminal} {e : LoadError} (tokens : List Token) :
    ∀ {scanned i}, scan R scanned i tokens = .error e → e.Plain := by
  induction tokens with
  | nil => intro scanned i h; cases h
  | cons t tokens ih =>
    intro scanned i h
    unfold scan at h
    split at h
    · rename_i e' he
      cases h
      cases t <;> cases he
      exact .inl rfl
    · exact ih h
    · dsimp only at h
      split at h
      · exact ih h
      · cases h; exact .inl rfl

theorem load_plain {R : Recognizer Terminal} {p : Profile} {text : Text} {e : LoadError}
    (h : load R p text = .ok (.error e)) : e.Plain := by
  unfold load at h
  obtain ⟨x, -, h⟩ := Res.bind_eq_ok.1 h
  cases x with
  | error x => cases h
  | ok tokens =>
    dsimp only at h
    split at h
    · rename_i e' he
      cases h
      exact scan_plain _ he
    · unfold finish at h
      split at h
      · cases h; exact .inl rfl
      · obtain ⟨v, -, h⟩ := Res.bind_eq_ok.1 h
        unfold build at h
        split at h
        · obtain ⟨st, -, h⟩ := Res.bind_eq_ok.1 h
          cases h
        · cases h; exact .inl rfl

end Basic

namespace Advanced

theorem scan_plain {R : Recognizer Terminal} {e : LoadError} (tokens : List (Token × Nat × Nat)) :
    ∀ {scanned i}, scan R scanned i tokens = .error e → e.Plain := by
  induction tokens with
  | nil => intro scanned i h; cases h
  | cons t tokens ih =>
    obtain ⟨t, line, col⟩ := t
    intro scanned i h
    unfold scan at h
    split at h
    · rename_i e' he
      cases h
      cases t <;> cases he
      exact .inl rfl
    · exact ih h
    · dsimp only at h
      split at h
      · exact ih h
      · cases h; exact .inr rfl

section

variable {p : Profile} {parse : Text → Except String Hir} {e : LoadError}

theorem fragment_plain {st : State} {f : Fragment} (h : st.fragment p parse f = .ok (.error e)) :
    e.Plain := by
  cases f with
  | call func arg argSpan span =>
    change st.call p parse func arg argSpan span = _ at h
    unfold State.call at h
    split at h
    · cases h; exact .inl rfl
    · split at h
      · cases h; exact .inl rfl
      · obtain ⟨x, -, h⟩ := Res.bind_eq_ok.1 h
        obtain ⟨y, -, h⟩ := Res.bind_eq_ok.1 h
        cases h
  | lex s _ =>
    unfold State.fragment at h
    obtain ⟨x, -, h⟩ := Res.bind_eq_ok.1 h
    cases h
  | rhs s _ =>
    unfold State.fragment at h
    obtain ⟨x, -, h⟩ := Res.bind_eq_ok.1 h
    cases h

theorem fragments_plain (fs : List Fragment) : ∀ {st : State},
    fragments p parse st fs = .ok (.error e) → e.Plain := by
  induction fs with
  | nil => intro st h; cases h
  | cons f fs ih =>
    intro st h
    unfold fragments at h
    obtain ⟨x, hx, h⟩ := Res.bind_eq_ok.1 h
    cases x with
    | error e' => cases h; exact fragment_plain hx
    | ok x =>
      dsimp only at h
      obtain ⟨y, hy, h⟩ := Res.bind_eq_ok.1 h
      cases y with
      | error e' => cases h; exact ih hy
      | ok y => cases h

theorem loadRhs_plain {st : State} {idx : Nat} {rule : Rule} {isLexer : Bool}
    (h : st.loadRhs p parse idx rule isLexer = .ok (.error e)) : e.Plain := by
  unfold State.loadRhs at h
  dsimp only at h
  obtain ⟨x, hx, h⟩ := Res.bind_eq_ok.1 h
  cases x with
  | error e' => cases h; exact fragments_plain _ hx
  | ok x =>
    dsimp only at h
    obtain ⟨y, -, h⟩ := Res.bind_eq_ok.1 h
    cases h

theorem loadRules_plain (rules : List (Rule × Bool)) : ∀ {st : State} {idx : Nat},
    loadRules p parse st idx rules = .ok (.error e) → e.Plain := by
  induction rules with
  | nil => intro st idx h; cases h
  | cons r rules ih =>
    obtain ⟨rule, isLexer⟩ := r
    intro st idx h
    unfold loadRules at h
    obtain ⟨x, hx, h⟩ := Res.bind_eq_ok.1 h
    cases x with
    | error e' =>
      cases h
      unfold State.loadRule at hx
      dsimp only at hx
      split at hx
      · split at hx
        · cases hx; exact .inl rfl
        · exact loadRhs_plain hx
      · exact loadRhs_plain hx
    | ok x => exact ih h

theorem load_plain {R : Recognizer Terminal} {text : Text}
    (h : load R p parse text = .ok (.error e)) : e.Plain := by
  unfold load at h
  obtain ⟨tokens, -, h⟩ := Res.bind_eq_ok.1 h
  split at h
  · rename_i e' he
    cases h
    exact scan_plain _ he
  · unfold finish at h
    split at h
    · cases h; exact .inl rfl
    · obtain ⟨v, -, h⟩ := Res.bind_eq_ok.1 h
      unfold build at h
      split at h
      · obtain ⟨x, hx, h⟩ := Res.bind_eq_ok.1 h
        cases x with
        | error e' => cases h; exact loadRules_plain _ hx
        | ok st =>
          dsimp only at h
          obtain ⟨x, -, h⟩ := Res.bind_eq_ok.1 h
          cases h
      · cases h; exact .inl rfl

end

end Advanced

theorem LoadError.Returned.plain {e : LoadError} (h : e.Returned) : e.Plain := by
  rcases h with ⟨R, p, text, h⟩ | ⟨R, p, parse, text, h⟩
  · exact Basic.load_plain h
  · exact Advanced.load_plain h

/-! ## Reading a message -/

/-- A number in front of a character that is no digit is read back. -/
theorem read_dec {n m : Nat} {c : Char} (hc : c.isDigit = false) {u v : Text}
    (h : (toString n).toList ++ c :: u = (toString m).toList ++ c :: v) : n = m ∧ u = v := by
  have key : ∀ {a b u v : Text}, (∀ x ∈ a, x.isDigit = true) → (∀ x ∈ b, x.isDigit = true) →
      a ++ c :: u = b ++ c :: v → a = b ∧ u = v := by
    intro a
    induction a with
    | nil =>
      intro b u v _ hb h
      cases b with
      | nil => exact ⟨rfl, (List.cons.inj h).2⟩
      | cons x b =>
        have := hb x (by simp)
        rw [← (List.cons.inj h).1, hc] at this
        cases this
    | cons x a ih =>
      intro b u v ha hb h
      cases b with
      | nil =>
        have := ha x (by simp)
        rw [(List.cons.inj h).1, hc] at this
        cases this
      | cons y b =>
        obtain ⟨h1, h2⟩ := List.cons.inj h
        obtain ⟨h3, h4⟩ := ih (fun z hz => ha z (by simp [hz])) (fun z hz => hb z (by simp [hz])) h2
        exact ⟨by rw [h1, h3], h4⟩
  obtain ⟨h1, h2⟩ := key (fun x hx => dec_isDigit hx) (fun x hx => dec_isDigit hx) h
  exact ⟨dec_inj h1, h2⟩

theorem last_none (dbg : Advanced.Token → Text) (u : Text) :
    (u ++ debugOption dbg none).getLast? = some 'e' := by
  have k : "None".toList = ['N', 'o', 'n'] ++ ['e'] := by decide
  unfold debugOption
  rw [k, ← List.append_assoc, List.getLast?_concat]

theorem last_some (dbg : Advanced.Token → Text) (u : Text) (t : Advanced.Token) :
    (u ++ debugOption dbg (some t)).getLast? = some ')' := by
  unfold debugOption
  rw [← List.append_assoc, List.getLast?_concat]

/-- C143: if two errors of the loaders have the same message, they have the same line, column and
reason, and tokens that print the same. -/
theorem C143_message (dbg : Advanced.Token → Text) {e e' : LoadError} (h : e.Returned)
    (h' : e'.Returned) (hd : e.display dbg = e'.display dbg) :
    e.line = e'.line ∧ e.col = e'.col ∧ e.reason = e'.reason ∧
      e.token.map dbg = e'.token.map dbg := by
  unfold LoadError.display at hd
  have k1 : " column ".toList = ' ' :: "column ".toList := by decide
  have k2 : ": reason: ".toList = ':' :: " reason: ".toList := by decide
  simp only [List.append_assoc] at hd
  have hd := List.append_cancel_left hd
  rw [k1, k2, List.cons_append, List.cons_append, List.cons_append, List.cons_append] at hd
  obtain ⟨hl, hd⟩ := read_dec (c := ' ') (by decide) hd
  have hd := List.append_cancel_left hd
  obtain ⟨hc, hd⟩ := read_dec (c := ':') (by decide) hd
  have hd := List.append_cancel_left hd
  refine ⟨hl, hc, ?_⟩
  have hinj : ∀ {s t : String}, s.toList = t.toList → s = t := fun h => String.toList_inj.1 h
  rcases e with ⟨r, l, c, t⟩
  rcases e' with ⟨r', l', c', t'⟩
  have h1 := h.plain
  have h2 := h'.plain
  dsimp only at hd ⊢
  cases t with
  | none =>
    cases t' with
    | none =>
      rw [← List.append_assoc, ← List.append_assoc] at hd
      exact ⟨hinj (List.append_cancel_right (List.append_cancel_right hd)), rfl⟩
    | some t' =>
      exfalso
      have := congrArg List.getLast? hd
      rw [← List.append_assoc, ← List.append_assoc, last_none, last_some] at this
      exact absurd this (by decide)
  | some t =>
    cases t' with
    | none =>
      exfalso
      have := congrArg List.getLast? hd
      rw [← List.append_assoc, ← List.append_assoc, last_none, last_some] at this
      exact absurd this (by decide)
    | some t' =>
      have e1 : r = "parse failed" := h1.resolve_left (fun h => by cases h)
      have e2 : r' = "parse failed" := h2.resolve_left (fun h => by cases h)
      subst e1 e2
      refine ⟨rfl, ?_⟩
      have hd := List.append_cancel_left hd
      have hd := List.append_cancel_left hd
      unfold debugOption at hd
      have hd := List.append_cancel_left (List.append_cancel_right hd)
      exact congrArg some hd

/-- Errors that the loaders return: one with and one without a token. -/
example : LoadError.Returned ⟨"parse failed", 1, 3, some (.ident ['b'])⟩ ∧
    LoadError.Returned ⟨"parse failed", 1, 1, none⟩ := by
  have e1 : Advanced.tokenize "a b".toList =
      .ok [(.ident ['a'], 1, 1), (.ident ['b'], 1, 3)] := by decide +kernel
  have e2 : Basic.tokenize "a".toList = .ok (.ok [.ident ['a']]) := by decide +kernel
  constructor
  · refine .inr ⟨⟨fun l => decide (l.length < 2), fun _ => none⟩, .debug, fun _ => .error "", "a b".toList, ?_⟩
    unfold Advanced.load
    rw [e1, Res.bind_ok]
    rfl
  · refine .inl ⟨⟨fun _ => false, fun _ => none⟩, .debug, "a".toList, ?_⟩
    unfold Basic.load
    rw [e2, Res.bind_ok]
    rfl

/-- A message. -/
example : LoadError.display (fun _ => []) ⟨"parse failed", 1, 12, none⟩ =
    "Parse error at line 1 column 12: reason: parse failed token: None".toList := by
  decide +kernel

end Verif
