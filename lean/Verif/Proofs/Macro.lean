import Verif.Spec.Macro
import Verif.Props.LoadAdvGrammar

/-! # The macro: lemmas -/

namespace Verif.Macro

open Advanced

/-- A piece as an element of the list that `flatten` fills. -/
def Piece.flat (x : Piece) : Flat := (x.text, x.span, !x.colon)

mutual

theorem flattenTree_eq : ∀ (t : TokenTree) (out : List Flat),
    flattenTree t out = out ++ t.pieces.map Piece.flat
  | .group d stream o c, out => by
    unfold flattenTree TokenTree.pieces
    cases d <;>
      simp [explicitDelimiters, Delimiter.texts, flatten_eq stream, Piece.flat]
  | .ident text span, out => by simp [flattenTree, TokenTree.pieces, Piece.flat]
  | .punct ch span, out => by simp [flattenTree, TokenTree.pieces, Piece.flat]
  | .literal text span, out => by simp [flattenTree, TokenTree.pieces, Piece.flat]

theorem flatten_eq : ∀ (ts : List TokenTree) (out : List Flat),
    flatten ts out = out ++ (pieces ts).map Piece.flat
  | [], out => by simp [flatten, pieces]
  | t :: ts, out => by
    rw [flatten, flattenTree_eq t, flatten_eq ts, pieces]
    simp

end

/-- Colons are written as colons. -/
def Piece.Ok (x : Piece) : Prop := x.colon = true → x.text = [':']

mutual

theorem tree_ok : ∀ (t : TokenTree), ∀ x ∈ t.pieces, x.Ok
  | .group d stream o c => by
    intro x hx
    unfold TokenTree.pieces at hx
    cases hd : d.texts with
    | none =>
      rw [hd] at hx
      exact pieces_ok stream x hx
    | some oc =>
      rw [hd] at hx
      rcases List.mem_cons.1 hx with rfl | hx
      · intro h; cases h
      · rcases List.mem_append.1 hx with hx | hx
        · exact pieces_ok stream x hx
        · obtain rfl := List.mem_singleton.1 hx
          intro h; cases h
  | .ident text span => by
    intro x hx
    obtain rfl := List.mem_singleton.1 (by rwa [TokenTree.pieces] at hx)
    intro h; cases h
  | .punct ch span => by
    intro x hx
    obtain rfl := List.mem_singleton.1 (by rwa [TokenTree.pieces] at hx)
    intro h
    rw [beq_iff_eq.1 h]
  | .literal text span => by
    intro x hx
    obtain rfl := List.mem_singleton.1 (by rwa [TokenTree.pieces] at hx)
    intro h; cases h

theorem pieces_ok : ∀ (ts : List TokenTree), ∀ x ∈ pieces ts, x.Ok
  | [], x, hx => by simp [pieces] at hx
  | t :: ts, x, hx => by
    rw [pieces] at hx
    rcases List.mem_append.1 hx with hx | hx
    · exact tree_ok t x hx
    · exact pieces_ok ts x hx

end

theorem assemble_eq {ps : List Piece} {ls : List (Text × Span)} (h : Lines ps ls) :
    (∀ x ∈ ps, x.Ok) → ∀ (c : Text) (spans : List Span),
      assemble (ps.map Piece.flat) c spans = (c ++ code ls, spans ++ ls.map (·.2)) := by
  induction h with
  | nil => intro _ c spans; simp [assemble, code]
  | @piece x ps ls hx _ ih =>
    intro hok c spans
    rw [List.map_cons, Piece.flat, assemble, hx]
    simp only [Bool.not_false, Bool.true_or, if_true]
    rw [ih (fun y hy => hok y (List.mem_cons_of_mem _ hy))]
    simp [code]
  | @lone x ps ls hx hgap _ ih =>
    intro hok c spans
    have hl : (x.text == [':'] &&
        some x.span.stop != (ps.map Piece.flat).head?.map (·.2.1.start)) = true := by
      rw [hok x (List.mem_cons_self ..) hx]
      simp only [BEq.rfl, Bool.true_and, bne_iff_ne, ne_eq]
      cases ps with
      | nil => simp
      | cons y ps =>
        simp only [List.map_cons, List.head?_cons, Option.map_some, Piece.flat, Option.some.injEq]
        exact hgap y rfl
    rw [List.map_cons, Piece.flat, assemble]
    simp only [hl, Bool.or_true, if_true]
    rw [ih (fun y hy => hok y (List.mem_cons_of_mem _ hy))]
    simp [code]
  | @joined x y ps t s ls hx hgap _ ih =>
    intro hok c spans
    rw [List.map_cons, Piece.flat, assemble, hx]
    simp only [Bool.not_true, Bool.false_or, List.map_cons, List.head?_cons, Option.map_some,
      Piece.flat]
    rw [if_neg (by simp [hgap])]
    have := ih (fun y hy => hok y (List.mem_cons_of_mem _ hy)) (c ++ x.text) spans
    rw [List.map_cons, Piece.flat] at this
    rw [this]
    simp [code]

/-- Every list of pieces is written on lines. -/
theorem lines_exists : ∀ ps : List Piece, ∃ ls, Lines ps ls ∧ (ps ≠ [] → ls ≠ [])
  | [] => ⟨[], .nil, fun h => absurd rfl h⟩
  | x :: ps => by
    obtain ⟨ls, h, hne⟩ := lines_exists ps
    cases hx : x.colon
    · exact ⟨_, .piece hx h, fun _ => by simp⟩
    · cases ps with
      | nil => exact ⟨_, .lone hx (by simp) h, fun _ => by simp⟩
      | cons y ps =>
        by_cases hg : x.span.stop = y.span.start
        · cases ls with
          | nil => exact absurd rfl (hne (by simp))
          | cons l ls => exact ⟨_, .joined hx hg h, fun _ => by simp⟩
        · refine ⟨_, .lone hx ?_ h, fun _ => by simp⟩
          intro z hz
          obtain rfl : y = z := by simpa using hz
          exact hg

theorem lines_unique {ps : List Piece} {ls ls' : List (Text × Span)} (h : Lines ps ls)
    (h' : Lines ps ls') : ls = ls' := by
  induction h generalizing ls' with
  | nil => cases h'; rfl
  | piece hx _ ih =>
    cases h' with
    | piece _ h => rw [ih h]
    | lone hc _ _ => rw [hx] at hc; cases hc
    | joined hc _ _ => rw [hx] at hc; cases hc
  | lone hx hg _ ih =>
    cases h' with
    | piece hc _ => rw [hx] at hc; cases hc
    | lone _ _ h => rw [ih h]
    | joined _ hg' _ => exact absurd hg' (hg _ rfl)
  | joined hx hg _ ih =>
    cases h' with
    | piece hc _ => rw [hx] at hc; cases hc
    | lone _ hg' _ => exact absurd hg (hg' _ rfl)
    | joined _ _ h =>
      cases ih h
      rfl

/-! ## The text of the lines -/

theorem code_append (a b : List (Text × Span)) : code (a ++ b) = code a ++ code b := by
  simp [code]

theorem code_cons (l : Text × Span) (ls : List (Text × Span)) :
    code (l :: ls) = l.1 ++ '\n' :: code ls := by
  simp [code]

theorem lineAfter_code (ls : List (Text × Span)) :
    lineAfter (code ls) = ls.length + breaks ls + 1 := by
  unfold lineAfter
  induction ls with
  | nil => rfl
  | cons l ls ih =>
    rw [code_cons, List.count_append, List.count_cons_self, List.length_cons,
      show breaks (l :: ls) = l.1.count '\n' + breaks ls from rfl]
    omega

theorem breaks_eq_zero {ls : List (Text × Span)} (h : ∀ l ∈ ls, '\n' ∉ l.1) : breaks ls = 0 := by
  induction ls with
  | nil => rfl
  | cons l ls ih =>
    rw [show breaks (l :: ls) = l.1.count '\n' + breaks ls from rfl,
      List.count_eq_zero.2 (h l (List.mem_cons_self ..)),
      ih fun l hl => h l (List.mem_cons_of_mem _ hl)]

theorem breaks_pos {ls : List (Text × Span)} {l : Text × Span} (h : l ∈ ls) (hl : '\n' ∈ l.1) :
    0 < breaks ls := by
  induction ls with
  | nil => cases h
  | cons x ls ih =>
    rw [show breaks (x :: ls) = x.1.count '\n' + breaks ls from rfl]
    rcases List.mem_cons.1 h with rfl | h
    · have := List.count_pos_iff.2 hl
      omega
    · have := ih h
      omega

theorem wordEnd_newline (t : Text) : WordEnd ('\n' :: t) := by
  intro c t e
  cases e
  unfold WordChar
  decide

theorem blank_newline : Blank '\n' := .inr (.inl rfl)

/-- A line that is one token starts the text with this token. -/
theorem lexed_line {l : Text} {t : Token} (h : Reads l t) {pre rest bad : Text}
    {ts : List (Token × Nat × Nat)} (hl : Lexed (pre ++ (l ++ ['\n'])) rest ts bad) :
    Lexed pre (l ++ '\n' :: rest) ((t, lineAfter pre, colAfter pre) :: ts) bad := by
  rw [← List.append_assoc] at hl
  cases h with
  | punct h => exact .punct h (.blank blank_newline hl)
  | word h => exact .word h (wordEnd_newline _) (.blank blank_newline hl)
  | @string s v h =>
    have := Lexed.string (pre := pre) (text := '\n' :: rest) h (.blank blank_newline hl)
    simpa using this

theorem lexed_lines {ls : List (Text × Span)} {tks : List Token}
    (h : List.Forall₂ (fun l t => Reads l.1 t) ls tks) :
    ∀ (pre rest bad : Text) (ts : List (Token × Nat × Nat)), Lexed (pre ++ code ls) rest ts bad →
      ∃ ts', ts'.map (·.1) = tks ∧ Lexed pre (code ls ++ rest) (ts' ++ ts) bad := by
  induction h with
  | nil =>
    intro pre rest bad ts hl
    exact ⟨[], rfl, by simpa [code] using hl⟩
  | @cons l t ls tks hlt _ ih =>
    intro pre rest bad ts hl
    rw [code_cons] at hl
    obtain ⟨ts', e, h⟩ := ih (pre ++ (l.1 ++ ['\n'])) rest bad ts (by simpa using hl)
    refine ⟨(t, lineAfter pre, colAfter pre) :: ts', ?_, ?_⟩
    · simp [e]
    · rw [code_cons]
      have := lexed_line hlt h
      simpa using this

/-- Every text has tokens up to some end. -/
theorem lexed_exists (pre text : Text) : ∃ ts bad, Lexed pre text ts bad ∧ Ends bad := by
  obtain ⟨r, -, h⟩ := tokenizeLoop_spec text.length pre ⟨text, lineAfter pre, colAfter pre⟩ []
    ⟨rfl, rfl⟩ (Nat.le_refl _)
  cases h with
  | ok h => exact ⟨_, _, h, .inl rfl⟩
  | stuck h _ hs => exact ⟨_, _, h, .inr (.inl hs)⟩
  | «open» h _ hs => exact ⟨_, _, h, .inr (.inr hs)⟩

theorem lexed_append {pre text rest bad : Text} {ts ts' : List (Token × Nat × Nat)}
    (h : Lexed pre text ts rest) :
    (∀ mid, text = mid ++ rest → Lexed (pre ++ mid) rest ts' bad) → Lexed pre text (ts ++ ts') bad := by
  induction h with
  | done pre rest => exact fun h' => by simpa using h' [] rfl
  | @blank pre c text rest ts hc _ ih =>
    intro h'
    exact .blank hc (ih fun mid e => by simpa using h' (c :: mid) (by rw [e]; rfl))
  | @punct pre s text rest t ts hs _ ih =>
    intro h'
    exact .punct hs (ih fun mid e => by simpa using h' (s ++ mid) (by rw [e]; simp))
  | @word pre s text rest ts hs hw _ ih =>
    intro h'
    exact .word hs hw (ih fun mid e => by simpa using h' (s ++ mid) (by rw [e]; simp))
  | @string pre s v text rest ts hs _ ih =>
    intro h'
    exact .string hs (ih fun mid e => by
      simpa using h' ('"' :: (s ++ '"' :: mid)) (by rw [e]; simp))

theorem lineAfter_append {pre s : Text} (h : '\n' ∉ s) : lineAfter (pre ++ s) = lineAfter pre := by
  unfold lineAfter
  rw [List.count_append, List.count_eq_zero.2 h, Nat.add_zero]

theorem wordEnd_append {text : Text} (h : WordEnd text) (r : Text) : WordEnd (text ++ '\n' :: r) := by
  cases text with
  | nil => exact wordEnd_newline r
  | cons c' t' =>
    intro c t e
    cases e
    exact h _ _ rfl

/-- The tokens of a line do not depend on what precedes and follows it. -/
theorem lexed_more {pre l bad : Text} {ts : List (Token × Nat × Nat)} (h : Lexed pre l ts bad)
    (r : Text) : '\n' ∉ l → ∀ pre', ∃ ts' mid, l = mid ++ bad ∧
      ts'.map (·.1) = ts.map (·.1) ∧ Lexed pre' (l ++ '\n' :: r) ts' (bad ++ '\n' :: r) ∧
      ∀ x ∈ ts', x.2.1 = lineAfter pre' := by
  induction h with
  | done pre rest' => exact fun _ pre' => ⟨[], [], rfl, rfl, .done _ _, fun x h => (nomatch h)⟩
  | @blank pre c text rest' ts hc _ ih =>
    intro hn pre'
    rw [List.mem_cons, not_or] at hn
    obtain ⟨ts', mid, e, h1, h2, h3⟩ := ih hn.2 (pre' ++ [c])
    rw [lineAfter_append (by simpa using hn.1)] at h3
    exact ⟨ts', c :: mid, by rw [e]; rfl, h1, .blank hc h2, h3⟩
  | @punct pre s text rest' t ts hs _ ih =>
    intro hn pre'
    rw [List.mem_append, not_or] at hn
    obtain ⟨ts', mid, e, h1, h2, h3⟩ := ih hn.2 (pre' ++ s)
    rw [lineAfter_append hn.1] at h3
    refine ⟨(t, lineAfter pre', colAfter pre') :: ts', s ++ mid, by rw [e]; simp, by simp [h1], by
      rw [List.append_assoc]; exact .punct hs h2, ?_⟩
    intro x hx
    rcases List.mem_cons.1 hx with rfl | hx
    · rfl
    · exact h3 x hx
  | @word pre s text rest' ts hs hw _ ih =>
    intro hn pre'
    rw [List.mem_append, not_or] at hn
    obtain ⟨ts', mid, e, h1, h2, h3⟩ := ih hn.2 (pre' ++ s)
    rw [lineAfter_append hn.1] at h3
    refine ⟨(wordToken s, lineAfter pre', colAfter pre') :: ts', s ++ mid, by rw [e]; simp,
      by simp [h1], by rw [List.append_assoc]; exact .word hs (wordEnd_append hw r) h2, ?_⟩
    intro x hx
    rcases List.mem_cons.1 hx with rfl | hx
    · rfl
    · exact h3 x hx
  | @string pre s v text rest' ts hs _ ih =>
    intro hn pre'
    have hn1 : '\n' ∉ '"' :: (s ++ ['"']) := fun h => hn (by
      simp only [List.mem_cons, List.mem_append, List.not_mem_nil, or_false] at h ⊢
      tauto)
    have hn2 : '\n' ∉ text := fun h => hn (by simp [h])
    obtain ⟨ts', mid, e, h1, h2, h3⟩ := ih hn2 (pre' ++ ('"' :: (s ++ ['"'])))
    rw [lineAfter_append hn1] at h3
    refine ⟨(.string v, lineAfter pre', colAfter pre') :: ts', '"' :: (s ++ '"' :: mid),
      by rw [e]; simp, by simp [h1], by
      have := Lexed.string (pre := pre') hs h2
      simpa using this, ?_⟩
    intro x hx
    rcases List.mem_cons.1 hx with rfl | hx
    · rfl
    · exact h3 x hx

/-- The tokens of the first lines, the next one, and what follows. -/
theorem lexed_code {a b : List (Text × Span)} {l : Text × Span} {tks : List Token} {bad : Text}
    {ts : List (Token × Nat × Nat)}
    (ha : List.Forall₂ (fun l t => Reads l.1 t) a tks) (hl : Lexed [] l.1 ts bad)
    (hn' : '\n' ∉ l.1) :
    ∃ ts1 ts2 ts3 end', ts1.map (·.1) = tks ∧ ts2.map (·.1) = ts.map (·.1) ∧
      Lexed [] (code (a ++ l :: b)) (ts1 ++ ts2 ++ ts3) end' ∧ Ends end' ∧
      ∀ x ∈ ts2, x.2.1 = a.length + breaks a + 1 := by
  obtain ⟨ts2, mid, e1, e2, h1, h2⟩ := lexed_more hl (code b) hn' ([] ++ code a)
  obtain ⟨ts3, end', h3, he⟩ := lexed_exists (code a ++ mid) (bad ++ '\n' :: code b)
  have h4 := lexed_append h1 (ts' := ts3) (bad := end') (by
    intro mid' e
    rw [e1, List.append_assoc] at e
    rw [← List.append_cancel_right e]
    exact h3)
  obtain ⟨ts1, e3, h5⟩ := lexed_lines ha [] _ _ _ h4
  refine ⟨ts1, ts2, ts3, end', e3, e2, ?_, he, ?_⟩
  · rw [code_append, code_cons, List.append_assoc]
    exact h5
  · rw [List.nil_append, lineAfter_code] at h2
    exact h2

theorem stuck_append {bad rest : Text} (h : Stuck bad) : Stuck (bad ++ '\n' :: rest) := by
  obtain ⟨c, t, rfl, h1, h2, h3, h4⟩ := h
  refine ⟨c, t ++ '\n' :: rest, rfl, h1, h2, h3, fun s k hs hp => h4 s k hs ?_⟩
  have hnl : '\n' ∉ s := by cases hs <;> decide
  rcases List.prefix_or_prefix_of_prefix hp (⟨'\n' :: rest, rfl⟩ :
    c :: t <+: c :: t ++ '\n' :: rest) with h | ⟨u, hu⟩
  · exact h
  · cases u with
    | nil => rw [← hu, List.append_nil]; exact List.prefix_rfl
    | cons d u =>
      exfalso
      obtain ⟨v, hv⟩ := hp
      rw [← hu, List.append_assoc] at hv
      have := List.append_cancel_left hv
      rw [List.cons_append] at this
      refine hnl ?_
      rw [← hu, show d = '\n' from (List.cons.inj this).1]
      simp

/-- The first place that is no token, in the line after some lines of one token each. -/
theorem lexError_code {a b : List (Text × Span)} {l : Text × Span} {tks : List Token} {bad : Text}
    {ts : List (Token × Nat × Nat)}
    (ha : List.Forall₂ (fun l t => Reads l.1 t) a tks) (hl : Lexed [] l.1 ts bad) (hb : Stuck bad)
    (hn' : '\n' ∉ l.1) :
    ∃ ts' col, ts'.map (·.1) = tks ++ ts.map (·.1) ∧
      LexError (code (a ++ l :: b)) ts' (a.length + breaks a + 1) col
        (a.length + breaks a + 1) col := by
  obtain ⟨ts1, mid, e1, e2, h1, -⟩ := lexed_more hl (code b) hn' ([] ++ code a)
  obtain ⟨ts', e3, h2⟩ := lexed_lines ha [] _ _ _ h1
  have hline : lineAfter (code a ++ mid) = a.length + breaks a + 1 := by
    rw [lineAfter_append fun h => hn' (by rw [e1]; simp [h]), lineAfter_code]
  refine ⟨ts' ++ ts1, colAfter (code a ++ mid), by simp [e2, e3], code a ++ mid,
    bad ++ '\n' :: code b, ?_, ?_, hline.symm, rfl, .inl ⟨stuck_append hb, rfl, rfl⟩⟩
  · rw [code_append, code_cons, e1]; simp
  · rw [code_append, code_cons]; exact h2

/-- The tokens of the first lines, the next one, which is one token, and what follows. -/
theorem lexed_code_token {a b : List (Text × Span)} {l : Text × Span} {tks : List Token} {t : Token}
    (ha : List.Forall₂ (fun l t => Reads l.1 t) a tks) (hl : Reads l.1 t) :
    ∃ ts1 col ts3 end', ts1.map (·.1) = tks ∧ Lexed [] (code (a ++ l :: b))
      (ts1 ++ (t, a.length + breaks a + 1, col) :: ts3) end' ∧ Ends end' := by
  obtain ⟨ts3, end', h3, he⟩ := lexed_exists ([] ++ code a ++ (l.1 ++ ['\n'])) (code b)
  have h4 := lexed_line hl h3
  obtain ⟨ts1, e1, h5⟩ := lexed_lines ha [] _ _ _ h4
  refine ⟨ts1, colAfter ([] ++ code a), ts3, end', e1, ?_, he⟩
  rw [code_append, code_cons, ← lineAfter_code]
  exact h5

/-- One of the tokens is the first that cannot continue a file. -/
theorem first_bad {tks : List Token} {us : List (Token × Nat × Nat)} : Viable tks →
    ¬ Viable (tks ++ us.map (·.1)) → ∃ us1 u us2, us = us1 ++ u :: us2 ∧
      Viable (tks ++ us1.map (·.1)) ∧ ¬ Viable (tks ++ us1.map (·.1) ++ [u.1]) := by
  induction us generalizing tks with
  | nil => intro h h'; exact absurd (by simpa using h) h'
  | cons u us ih =>
    intro h h'
    by_cases hu : Viable (tks ++ [u.1])
    · obtain ⟨us1, x, us2, rfl, h1, h2⟩ := ih hu (by simpa using h')
      exact ⟨u :: us1, x, us2, rfl, by simpa using h1, by simpa using h2⟩
    · exact ⟨[], u, us, rfl, by simpa using h, by simpa using hu⟩

/-! ## The result of the macro -/

theorem cfgRegexp_eq (R : Recognizer Terminal) (p : Profile) (parse : Text → Except String Hir)
    {stream : List TokenTree} {ls : List (Text × Span)} (h : Lines (pieces stream) ls) :
    cfgRegexp R p parse stream = (do
      match ← load R p parse (code ls) with
      | .ok G => if G.sbs.isEmpty then .ok .parser else .panic
      | .error e =>
        if e.line ≠ 0 then do
          let span ← Res.index (ls.map (·.2)) (e.line - 1)
          .ok (.compileError e.reason (some span))
        else .ok (.compileError e.reason none)) := by
  unfold cfgRegexp
  rw [flatten_eq, List.nil_append, assemble_eq h (pieces_ok stream)]
  simp only [List.nil_append]
  rfl

theorem cfgRegexp_error (R : Recognizer Terminal) (p : Profile) (parse : Text → Except String Hir)
    {stream : List TokenTree} {ls : List (Text × Span)} (h : Lines (pieces stream) ls)
    {reason : String} {k col : Nat} {t : Option Token} (hk : k + 1 < 2 ^ 32)
    (he : load R p parse (code ls) = .ok (.error ⟨reason, (k + 1) % 2 ^ 32, col, t⟩)) :
    cfgRegexp R p parse stream = (do
      .ok (.compileError reason (some (← Res.index (ls.map (·.2)) k)))) := by
  rw [cfgRegexp_eq R p parse h, he, Nat.mod_eq_of_lt hk]
  simp

theorem isEmpty_iff {b : BitSet} : BitSet.isEmpty b = true ↔ ∃ s, Has b s := by
  unfold BitSet.isEmpty Has
  rw [List.any_eq_true]
  constructor
  · rintro ⟨x, hx, rfl⟩
    exact List.mem_iff_getElem?.1 hx
  · exact fun h => ⟨true, List.mem_iff_getElem?.2 h, rfl⟩

theorem stringsOf_pos {decls : List Decl} {s : Text} (h : .str s ∈ fileElems decls) :
    0 < (stringsOf (parserClauses decls ++ lexerClauses decls)).length := by
  obtain ⟨c, hc, he⟩ := List.mem_flatMap.1 h
  exact List.length_pos_of_mem (mem_firstUses.2 (List.mem_flatMap.2 ⟨c, hc,
    List.mem_flatMap.2 ⟨_, he, List.mem_singleton.2 rfl⟩⟩))

theorem stringsOf_nil {decls : List Decl} (h : ∀ s, .str s ∉ fileElems decls) :
    stringsOf (parserClauses decls ++ lexerClauses decls) = [] := by
  refine List.eq_nil_iff_forall_not_mem.2 fun s hs => ?_
  obtain ⟨c, hc, h1⟩ := List.mem_flatMap.1 (mem_firstUses.1 hs)
  obtain ⟨e, he, h2⟩ := List.mem_flatMap.1 h1
  cases e with
  | name s r => cases h2
  | call f a => cases h2
  | str s' => exact h s' (List.mem_flatMap.2 ⟨c, hc, he⟩)

end Verif.Macro
