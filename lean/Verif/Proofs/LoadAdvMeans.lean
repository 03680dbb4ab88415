import Verif.Proofs.LoadAdvLoop

/-! # What the advanced loader returns -/

namespace Verif.Advanced

/-! ## Errors -/

/-- The error for a reason: its line is the number of the blamed token. -/
def faultError (r : String × Nat) : LoadError := ⟨r.1, (r.2 + 1) % 2 ^ 32, 1, none⟩

theorem findSome_fault {α β γ δ : Type} {R : α → β → Prop} {f : α → Option γ} {g : β → Option δ}
    {F : δ → γ} (hfg : ∀ a b, R a b → f a = (g b).map F) {l : List α} {l' : List β}
    (h : List.Forall₂ R l l') : l.findSome? f = (l'.findSome? g).map F := by
  induction h with
  | nil => rfl
  | cons h1 _ ih =>
    rw [List.findSome?_cons, List.findSome?_cons, hfg _ _ h1]
    cases g _ with
    | none => exact ih
    | some d => rfl

theorem placed_fault (parse : Text → Except String Hir) {ks : List Nat} {fs : List Fragment}
    (h : List.Forall₂ Fragment.Placed ks fs) : fs.findSome? (Fragment.fault parse) =
      ((ks.zip (fs.map Fragment.elem)).findSome? fun x => x.2.fault parse x.1).map faultError := by
  induction h with
  | nil => rfl
  | @cons k f ks fs h1 _ ih =>
    rw [List.map_cons, List.zip_cons_cons, List.findSome?_cons, List.findSome?_cons, ih]
    dsimp only
    have e : f.fault parse = (f.elem.fault parse k).map faultError := by
      unfold Fragment.fault
      cases f with
      | rhs => rfl
      | lex => rfl
      | call func arg argSpan span =>
        obtain ⟨e1, e2⟩ := h1
        unfold Fragment.elem Elem.reason Elem.fault Fragment.errorLine
        dsimp only
        by_cases hr : func ≠ "Regexp".toList
        · rw [if_pos hr, if_pos hr, if_pos hr, e1]; rfl
        · rw [if_neg hr, if_neg hr, if_neg hr, e2]
          cases parse arg <;> rfl
    rw [e]
    cases f.elem.fault parse k <;> rfl

theorem rule_fault (parse : Text → Except String Hir) {r : Rule} {c : Place} (h : r.Placed c) :
    r.fault parse = (c.fault parse).map faultError := by
  unfold Rule.fault Place.fault
  rw [placed_fault parse h.2.2, ← h.1]
  rfl

theorem lexerRule_fault (parse : Text → Except String Hir) (parser : List Place) {r : Rule} {c : Place}
    (h : r.Placed c) : r.lexerFault parse (parser.map (·.clause.lhs)) =
      (c.lexerFault parse parser).map faultError := by
  unfold Rule.lexerFault Place.lexerFault
  have e : r.lhs = c.clause.lhs := congrArg Clause.lhs h.1
  rw [← e]
  split
  · rw [h.2.1]; rfl
  · exact rule_fault parse h

theorem firstFault_lexer (parse : Text → Except String Hir) (pl : List Text) (rs : List Rule) :
    firstFault parse pl (rs.map (·, true)) = rs.findSome? (Rule.lexerFault parse pl) := by
  induction rs with
  | nil => rfl
  | cons r rs ih =>
    rw [List.map_cons, firstFault, List.findSome?_cons]
    show ((r.lexerFault parse pl).or (firstFault parse pl _)) = _
    rw [ih]
    cases r.lexerFault parse pl <;> rfl

theorem firstFault_parser (parse : Text → Except String Hir) (rs : List Rule) (more : List (Rule × Bool)) :
    ∀ pl, firstFault parse pl (rs.map (·, false) ++ more) =
      (rs.findSome? (Rule.fault parse)).or (firstFault parse (pl ++ rs.map Rule.lhs) more) := by
  induction rs with
  | nil => intro pl; simp
  | cons r rs ih =>
    intro pl
    rw [List.map_cons, List.cons_append, firstFault, List.findSome?_cons]
    show ((r.fault parse).or (firstFault parse (pl ++ [r.lhs]) _)) = _
    rw [ih]
    cases r.fault parse with
    | some e => rfl
    | none => simp

theorem firstFault_eq (parse : Text → Except String Hir) {rs ls : List Rule} {decls : List Decl}
    (hr : List.Forall₂ Rule.Placed rs (parserPlaces 0 decls))
    (hl : List.Forall₂ Rule.Placed ls (lexerPlaces 0 decls)) :
    firstFault parse [] (rs.map (·, false) ++ ls.map (·, true)) =
      (firstFaultAt parse decls).map faultError := by
  rw [firstFault_parser, firstFault_lexer, List.nil_append]
  unfold firstFaultAt
  have e : rs.map Rule.lhs = (parserPlaces 0 decls).map (·.clause.lhs) := by
    have := congrArg (List.map Clause.lhs) (placed_clause hr)
    rw [List.map_map, List.map_map] at this
    exact this
  rw [e, findSome_fault (R := Rule.Placed) (f := Rule.fault parse)
      (fun _ _ h => rule_fault parse h) hr,
    findSome_fault (R := Rule.Placed) (f := Rule.lexerFault parse _)
      (fun _ _ h => lexerRule_fault parse _ h) hl]
  cases (parserPlaces 0 decls).findSome? (Place.fault parse) <;> rfl

/-! ### The blamed token -/

/-- The reason is the same, and the position is that of the token. -/
def Fits (tokens : List Token) : Option (String × Nat) → Option (String × Token) → Prop
  | none, none => True
  | some (r, k), some (r', t) => r = r' ∧ tokens[k]? = some t
  | _, _ => False

theorem Fits.or {tokens : List Token} {a b : Option (String × Nat)} {a' b' : Option (String × Token)}
    (h : Fits tokens a a') (h' : Fits tokens b b') : Fits tokens (a.or b) (a'.or b') := by
  cases a with
  | none =>
    cases a' with
    | none => exact h'
    | some r => exact h.elim
  | some e =>
    cases a' with
    | none => exact h.elim
    | some r => exact h

theorem Fits.findSome {tokens : List Token} {α β : Type} {f : α → Option (String × Nat)}
    {g : β → Option (String × Token)} {F : α → β} {l : List α}
    (h : ∀ a ∈ l, Fits tokens (f a) (g (F a))) :
    Fits tokens (l.findSome? f) ((l.map F).findSome? g) := by
  induction l with
  | nil => trivial
  | cons a l ih =>
    have h1 := h a (by simp)
    have h2 := ih fun a ha => h a (by simp [ha])
    rw [List.map_cons, List.findSome?_cons, List.findSome?_cons]
    cases hf : f a with
    | none =>
      rw [hf] at h1
      cases hg : g (F a) with
      | none => exact h2
      | some r => rw [hg] at h1; exact h1.elim
    | some e =>
      rw [hf] at h1
      cases hg : g (F a) with
      | none => rw [hg] at h1; exact h1.elim
      | some r => rw [hg] at h1; exact h1

theorem prefix_split {tokens a b : List Token} {k : Nat} (h : a ++ b <+: tokens.drop k) :
    a <+: tokens.drop k ∧ b <+: tokens.drop (k + a.length) := by
  obtain ⟨t, h⟩ := h
  refine ⟨⟨b ++ t, by rw [← h, List.append_assoc]⟩, t, ?_⟩
  rw [← List.drop_drop, ← h, List.append_assoc, List.drop_left']
  rfl

theorem prefix_head {tokens : List Token} {t : Token} {ts : List Token} {k : Nat}
    (h : t :: ts <+: tokens.drop k) : tokens[k]? = some t := by
  obtain ⟨u, h⟩ := h
  have := congrArg List.head? h
  rw [List.head?_drop] at this
  exact this.symm

theorem starts_prefix {α : Type} (f : α → List Token) (sep : Token) {tokens : List Token} (l : List α) :
    ∀ k, ((l.map f).intersperse [sep]).flatten <+: tokens.drop k →
      List.Forall₂ (fun k a => f a <+: tokens.drop k) (starts 1 k (l.map fun a => (f a).length)) l := by
  induction l with
  | nil => intro k _; exact .nil
  | cons a l ih =>
    intro k h
    rw [List.map_cons, starts]
    cases l with
    | nil => exact .cons (by simpa using h) .nil
    | cons b l =>
      rw [List.map_cons, List.map_cons, List.intersperse_cons_cons, List.flatten_cons] at h
      obtain ⟨h1, h2⟩ := prefix_split h
      obtain ⟨-, h3⟩ := prefix_split (a := [sep]) h2
      exact .cons h1 (ih _ h3)

/-- The positions are those of the tokens. -/
def Place.At (tokens : List Token) (c : Place) : Prop :=
  tokens[c.lhsAt]? = some (.ident c.clause.lhs) ∧
    List.Forall₂ (fun k e => Elem.tokens e <+: tokens.drop k) c.elemsAt c.clause.elems

theorem places_at {tokens : List Token} (s : Stmt) {k : Nat} (h : s.tokens <+: tokens.drop k) :
    ∀ c ∈ s.places k, c.At tokens := by
  have h1 : tokens[k]? = some (.ident s.lhs) := prefix_head h
  have h2 : altTokens s.alts <+: tokens.drop (k + 2) := by
    have h' : [.ident s.lhs, .bnfOp] ++ (altTokens s.alts ++ [.semicolon]) <+: tokens.drop k := h
    exact (prefix_split (prefix_split h').2).1
  have h3 := starts_prefix Alt.tokens .pipe s.alts _ h2
  unfold Stmt.places altStarts
  generalize starts 1 (k + 2) (s.alts.map fun a => a.tokens.length) = ks at h3
  generalize s.alts = alts at h3
  intro c hc
  induction h3 with
  | nil => cases hc
  | @cons j a ks alts h4 _ ih =>
    rw [List.zipWith_cons_cons] at hc
    rcases List.mem_cons.1 hc with rfl | hc
    · refine ⟨h1, ?_⟩
      exact starts_prefix Elem.tokens .tildeOp _ _ (prefix_split h4).1
    · exact ih hc

theorem stmtsPlaces_at {tokens : List Token} (ss : List Stmt) : ∀ k,
    ss.flatMap Stmt.tokens <+: tokens.drop k → ∀ c ∈ stmtsPlaces k ss, c.At tokens := by
  induction ss with
  | nil => intro k _ c hc; cases hc
  | cons s ss ih =>
    intro k h c hc
    rw [List.flatMap_cons] at h
    obtain ⟨h1, h2⟩ := prefix_split h
    rw [stmtsPlaces] at hc
    rcases List.mem_append.1 hc with hc | hc
    · exact places_at s h1 c hc
    · exact ih _ h2 c hc

theorem declPlaces_at {tokens : List Token} (ds : List Decl) : ∀ k,
    ds.flatMap Decl.tokens <+: tokens.drop k →
      (∀ c ∈ parserPlaces k ds, c.At tokens) ∧ ∀ c ∈ lexerPlaces k ds, c.At tokens := by
  induction ds with
  | nil =>
    intro k _
    exact ⟨fun c hc => (nomatch hc), fun c hc => (nomatch hc)⟩
  | cons d ds ih =>
    intro k h
    rw [List.flatMap_cons] at h
    obtain ⟨h1, h2⟩ := prefix_split h
    obtain ⟨h3, h4⟩ := ih _ h2
    cases d with
    | rule s =>
      refine ⟨fun c hc => ?_, h4⟩
      rw [parserPlaces] at hc
      rcases List.mem_append.1 hc with hc | hc
      · exact places_at s h1 c hc
      · exact h3 c hc
    | lexer ss =>
      refine ⟨h3, fun c hc => ?_⟩
      rw [lexerPlaces] at hc
      rcases List.mem_append.1 hc with hc | hc
      · have h' : [.lexerKeyword, .lbrace] ++ (ss.flatMap Stmt.tokens ++ [.rbrace]) <+:
            tokens.drop k := h1
        exact stmtsPlaces_at ss _ (prefix_split (prefix_split h').2).1 c hc
      · exact h4 c hc

theorem place_fits {tokens : List Token} (parse : Text → Except String Hir) {c : Place}
    (h : c.At tokens) : Fits tokens (c.fault parse) (c.clause.reason parse) := by
  unfold Place.fault Clause.reason
  have h2 := h.2
  generalize c.elemsAt = ks at h2
  generalize c.clause.elems = es at h2
  induction h2 with
  | nil => trivial
  | @cons k e ks es h1 _ ih =>
    rw [List.zip_cons_cons, List.findSome?_cons, List.findSome?_cons]
    dsimp only
    cases e with
    | name => exact ih
    | str => exact ih
    | call func arg =>
      unfold Elem.fault Elem.reason
      dsimp only
      by_cases hr : func ≠ "Regexp".toList
      · rw [if_pos hr, if_pos hr]
        exact ⟨rfl, prefix_head h1⟩
      · rw [if_neg hr, if_neg hr]
        cases parse arg with
        | ok _ => exact ih
        | error err =>
          exact ⟨rfl, prefix_head (prefix_split (a := [.ident func, .lparen])
            (b := [.string arg, .rparen]) h1).2⟩

theorem firstFaultAt_fits (parse : Text → Except String Hir) (decls : List Decl) :
    Fits (decls.flatMap Decl.tokens) (firstFaultAt parse decls)
      (firstReason parse (parserClauses decls) (lexerClauses decls)) := by
  obtain ⟨h1, h2⟩ := declPlaces_at decls 0 (List.prefix_rfl : _ <+: (decls.flatMap Decl.tokens).drop 0)
  unfold firstFaultAt firstReason
  rw [← parserPlaces_clause decls 0, ← lexerPlaces_clause decls 0]
  refine Fits.or (Fits.findSome fun c h => place_fits parse (h1 c h)) (Fits.findSome fun c h => ?_)
  unfold Place.lexerFault Clause.lexerReason
  rw [List.map_map]
  change Fits _ _ (if c.clause.lhs ∈ (parserPlaces 0 decls).map (fun x => x.clause.lhs) then _ else _)
  by_cases hm : c.clause.lhs ∈ (parserPlaces 0 decls).map fun x => x.clause.lhs
  · rw [if_pos hm, if_pos hm]
    exact ⟨rfl, (h2 c h).1⟩
  · rw [if_neg hm, if_neg hm]
    exact place_fits parse (h2 c h)

theorem firstFaultAt_some {parse : Text → Except String Hir} {decls : List Decl} {r : String} {t : Token}
    (h : firstReason parse (parserClauses decls) (lexerClauses decls) = some (r, t)) :
    ∃ k, firstFaultAt parse decls = some (r, k) ∧ (decls.flatMap Decl.tokens)[k]? = some t := by
  have := firstFaultAt_fits parse decls
  rw [h] at this
  cases hf : firstFaultAt parse decls with
  | none => rw [hf] at this; exact this.elim
  | some x =>
    rw [hf] at this
    obtain ⟨r', k⟩ := x
    obtain ⟨rfl, h2⟩ := this
    exact ⟨k, rfl, h2⟩

theorem firstFaultAt_none {parse : Text → Except String Hir} {decls : List Decl} :
    firstFaultAt parse decls = none ↔
      firstReason parse (parserClauses decls) (lexerClauses decls) = none := by
  have := firstFaultAt_fits parse decls
  constructor <;> intro h <;> rw [h] at this
  · cases hf : firstReason parse (parserClauses decls) (lexerClauses decls) with
    | none => rfl
    | some x => rw [hf] at this; exact this.elim
  · cases hf : firstFaultAt parse decls with
    | none => rfl
    | some x => rw [hf] at this; exact this.elim

/-! ## What was seen -/

theorem Seen.clauses_spec (parse : Text → Except String Hir) (cs : List (Clause × Bool)) : ∀ S : Seen,
    (∀ n, n ∈ (S.clauses parse cs).used ↔ n ∈ S.used ∨
      n ∈ (cs.map Prod.fst).flatMap fun c => c.lhs :: c.elems.flatMap Elem.names) ∧
    (S.clauses parse cs).strs = S.strs ++
      (cs.map Prod.fst).flatMap (fun c => c.elems.flatMap Elem.strings) ∧
    (S.clauses parse cs).keys =
      S.keys ++ (cs.map Prod.fst).flatMap (fun c => c.elems.flatMap (Elem.classes parse)) ∧
    ∀ n, n ∈ (S.clauses parse cs).lexLhs ↔ n ∈ S.lexLhs ∨ ∃ c, (c, true) ∈ cs ∧ n = c.lhs := by
  induction cs with
  | nil => intro S; simp [Seen.clauses]
  | cons c cs ih =>
    intro S
    obtain ⟨h1, h2, h3, h4⟩ := ih (S.clause parse c.1 c.2)
    have e : S.clauses parse (c :: cs) = (S.clause parse c.1 c.2).clauses parse cs := rfl
    rw [e]
    refine ⟨?_, ?_, ?_, ?_⟩
    · intro n
      rw [h1, List.map_cons, List.flatMap_cons, List.mem_append]
      unfold Seen.clause
      simp only [List.mem_append, List.mem_cons]
      grind
    · rw [h2, List.map_cons, List.flatMap_cons, ← List.append_assoc]
      rfl
    · rw [h3, List.map_cons, List.flatMap_cons, ← List.append_assoc]
      rfl
    · intro n
      rw [h4]
      obtain ⟨c, b⟩ := c
      unfold Seen.clause
      cases b
      · simp
      · show n ∈ S.lexLhs ++ [c.lhs] ∨ _ ↔ _
        rw [List.mem_append, List.mem_singleton]
        constructor
        · rintro ((h | h) | ⟨c', h, e⟩)
          · exact .inl h
          · exact .inr ⟨c, List.mem_cons_self, h⟩
          · exact .inr ⟨c', List.mem_cons_of_mem _ h, e⟩
        · rintro (h | ⟨c', h, e⟩)
          · exact .inl (.inl h)
          · rcases List.mem_cons.1 h with h | h
            · cases h
              exact .inl (.inr e)
            · exact .inr ⟨c', h, e⟩

/-! ## Replacing the symbols of expressions -/

/-- A symbol of an expression is replaced by a string, any other symbol is kept. -/
abbrev Replaced (P : Productions) (T Aux : Sym → Prop) (s : Sym) (part : List Sym) : Prop :=
  (Aux s ∧ InLang P T s part) ∨ (¬ Aux s ∧ part = [s])

theorem replaced_kept {P : Productions} {T Aux : Sym → Prop} {β : List Sym} (h : ∀ s ∈ β, ¬ Aux s)
    {parts : List (List Sym)} :
    List.Forall₂ (Replaced P T Aux) β parts ↔ parts = β.map fun s => [s] := by
  induction β generalizing parts with
  | nil => simp
  | cons s β ih =>
    have hs := h s (by simp)
    constructor
    · intro h'
      cases h' with
      | cons h1 h2 =>
        rw [List.map_cons, ← (ih fun s hs => h s (by simp [hs])).1 h2]
        rcases h1 with h1 | h1
        · exact absurd h1.1 hs
        · rw [h1.2]
    · rintro rfl
      exact .cons (.inr ⟨hs, rfl⟩) ((ih fun s hs => h s (by simp [hs])).2 rfl)

theorem forall₂_append {α β : Type} {R : α → β → Prop} {a b : List α} {c : List β} :
    List.Forall₂ R (a ++ b) c ↔ ∃ c₁ c₂, List.Forall₂ R a c₁ ∧ List.Forall₂ R b c₂ ∧ c = c₁ ++ c₂ := by
  induction a generalizing c with
  | nil =>
    constructor
    · intro h; exact ⟨[], c, .nil, h, rfl⟩
    · rintro ⟨_, _, h1, h2, rfl⟩; cases h1; exact h2
  | cons x a ih =>
    constructor
    · intro h
      cases h with
      | cons h1 h2 =>
        obtain ⟨c₁, c₂, h3, h4, rfl⟩ := ih.1 h2
        exact ⟨_ :: c₁, c₂, .cons h1 h3, h4, rfl⟩
    · rintro ⟨_, c₂, h1, h2, rfl⟩
      cases h1 with
      | cons h3 h4 => exact .cons h3 (ih.2 ⟨_, _, h4, h2, rfl⟩)

/-- Elements one by one. -/
theorem elems_means {M : Elem → List Sym → Prop} {E : Elem → Piece → Prop} {R : Sym → List Sym → Prop}
    (hE : ∀ e q, E e q → ∀ α, M e α ↔ ∃ β parts, q.Means β ∧ List.Forall₂ R β parts ∧ α = parts.flatten)
    {es : List Elem} {ps : List Piece} (h : List.Forall₂ E es ps) (α : List Sym) :
    (∃ parts, List.Forall₂ M es parts ∧ α = parts.flatten) ↔
      ∃ qs parts, List.Forall₂ Piece.Means ps qs ∧ List.Forall₂ R qs.flatten parts ∧
        α = parts.flatten := by
  induction h generalizing α with
  | nil =>
    constructor
    · rintro ⟨_, h, rfl⟩; cases h; exact ⟨[], [], .nil, .nil, rfl⟩
    · rintro ⟨_, _, h, h', rfl⟩; cases h; cases h'; exact ⟨[], .nil, rfl⟩
  | @cons e q es ps h1 _ ih =>
    constructor
    · rintro ⟨_, h, rfl⟩
      cases h with
      | @cons _ a _ as h2 h3 =>
        obtain ⟨β, parts, k1, k2, rfl⟩ := (hE e q h1 a).1 h2
        obtain ⟨qs, parts', k3, k4, e'⟩ := (ih as.flatten).1 ⟨as, h3, rfl⟩
        refine ⟨β :: qs, parts ++ parts', .cons k1 k3, ?_, ?_⟩
        · rw [List.flatten_cons]
          exact forall₂_append.2 ⟨_, _, k2, k4, rfl⟩
        · rw [List.flatten_cons, e', List.flatten_append]
    · rintro ⟨_, parts, h, h', rfl⟩
      cases h with
      | @cons _ β _ qs k1 k3 =>
        rw [List.flatten_cons] at h'
        obtain ⟨c₁, c₂, k2, k4, rfl⟩ := forall₂_append.1 h'
        obtain ⟨as, h3, e'⟩ := (ih c₂.flatten).2 ⟨qs, c₂, k3, k4, rfl⟩
        refine ⟨c₁.flatten :: as, .cons ((hE e q h1 _).2 ⟨β, c₁, k1, k2, rfl⟩) h3, ?_⟩
        rw [List.flatten_append, List.flatten_cons, e']

/-! ## The end of the loop -/

theorem resolveAll_spec (intern : StringInterner) (m : List (Nat × Sym))
    (h : ∀ e ∈ m, ∃ n, intern[e.1]? = some n) :
    ∃ out, resolveAll intern m = .ok out ∧
      List.Forall₂ (fun (e : Nat × Sym) o => intern[e.1]? = some o.1 ∧ o.2 = e.2) m out := by
  induction m with
  | nil => exact ⟨[], rfl, .nil⟩
  | cons e m ih =>
    obtain ⟨id, s⟩ := e
    obtain ⟨n, hn⟩ := h (id, s) (by simp)
    obtain ⟨out, e1, h1⟩ := ih fun e he => h e (by simp [he])
    refine ⟨(n, s) :: out, ?_, .cons ⟨hn, rfl⟩ h1⟩
    unfold resolveAll
    have : intern.resolve id = some n := hn
    rw [this, e1]
    rfl

theorem resolved_nodup {intern : StringInterner} (hi : intern.Nodup) {m : List (Nat × Sym)}
    {out : List (Text × Sym)}
    (h : List.Forall₂ (fun (e : Nat × Sym) o => intern[e.1]? = some o.1 ∧ o.2 = e.2) m out)
    (hm : (m.map Prod.fst).Nodup) : (out.map Prod.fst).Nodup := by
  induction h with
  | nil => exact .nil
  | @cons e o m out h1 h2 ih =>
    rw [List.map_cons, List.nodup_cons] at hm ⊢
    refine ⟨?_, ih hm.2⟩
    intro hmem
    obtain ⟨o', ho', e'⟩ := List.mem_map.1 hmem
    obtain ⟨f, hf, h3, -⟩ := forall₂_right h2 ho'
    rw [e', ← h1.1] at h3
    obtain ⟨a1, a2⟩ := List.getElem?_eq_some_iff.1 h1.1
    rw [h1.1] at h3
    obtain ⟨b1, b2⟩ := List.getElem?_eq_some_iff.1 h3
    have := (List.Nodup.getElem_inj_iff hi).1 (a2.trans b2.symm)
    exact hm.1 (List.mem_map.2 ⟨f, hf, this.symm⟩)

theorem firstUses_nodup {α : Type} [DecidableEq α] (l : List α) : (firstUses l).Nodup := by
  have key : ∀ (l acc : List α), acc.Nodup →
      (l.foldl (fun acc a => if a ∈ acc then acc else acc ++ [a]) acc).Nodup := by
    intro l
    induction l with
    | nil => exact fun _ h => h
    | cons a l ih =>
      intro acc h
      rw [List.foldl_cons]
      apply ih
      split
      · exact h
      · rename_i hn
        rw [List.nodup_append]
        refine ⟨h, by simp, ?_⟩
        rintro x hx y hy rfl
        rw [List.mem_singleton] at hy
        exact hn (hy ▸ hx)
  exact key l [] .nil

theorem forall₂_compose {α β γ : Type} {R : α → β → Prop} {S : β → γ → Prop} {U : α → γ → Prop}
    (h : ∀ a b c, R a b → S b c → U a c) {l : List α} {m : List β} {n : List γ}
    (h1 : List.Forall₂ R l m) (h2 : List.Forall₂ S m n) : List.Forall₂ U l n := by
  induction h1 generalizing n with
  | nil => cases h2; exact .nil
  | cons k1 _ ih =>
    cases h2 with
    | cons k3 k4 => exact .cons (h _ _ _ k1 k3) (ih k4)

theorem lookup_of_mem {m : List (Nat × Sym)} (h : (m.map Prod.fst).Nodup) {i : Nat} {s : Sym}
    (hm : (i, s) ∈ m) : m.lookup i = some s := by
  induction m with
  | nil => cases hm
  | cons e m ih =>
    rw [List.map_cons, List.nodup_cons] at h
    obtain ⟨j, t⟩ := e
    rw [List.lookup_cons]
    rcases List.mem_cons.1 hm with hm | hm
    · cases hm
      simp
    · have : i ≠ j := by
        intro e
        exact h.1 (List.mem_map.2 ⟨_, hm, e⟩)
      rw [beq_eq_false_iff_ne.2 this]
      exact ih h.2 hm

/-- The result of the loop. -/
structure Built (parse : Text → Except String Hir) (parser lexer : List Clause) (st : State)
    (reps : List RepSym) (aux : List Sym) (done : List (Sym × List Piece)) (res : List (Sym × Hir))
    (cl : List (Sym × List Piece)) : Prop where
  adv : AdvInv st reps aux done res
  split : ∀ d ∈ done, d.1 ∈ aux ∨ (∃ (i : Nat) (s : Text), (stringsOf (parser ++ lexer))[i]? = some s ∧
    StrRule st i s d) ∨ d ∈ cl
  sub : ∀ d ∈ cl, d ∈ done
  strs : ∀ (i : Nat) s, (stringsOf (parser ++ lexer))[i]? = some s → ∃ d ∈ done, StrRule st i s d
  lexIntern : st.lexIntern = stringsOf (parser ++ lexer)
  interned : ∀ n, n ∈ st.base.intern ↔ n ∈ namesOf (parser ++ lexer)
  keys : ∀ k, (∃ s, (k, s) ∈ st.classes) ↔ ∃ c ∈ parser ++ lexer, ∃ e ∈ c.elems, k ∈ e.classes parse
  lexical : ∀ s, s ∈ st.lexical ↔
    (∃ i, i < (stringsOf (parser ++ lexer)).length ∧ st.base.Named (stringName i) s) ∨
    ∃ c ∈ lexer, st.base.Named c.lhs s
  clauses : List.Forall₂ (ClauseIs parse st res) (parser ++ lexer) cl
  symKeys : (st.base.symMap.map Prod.fst).Nodup
  actions : st.actions = (parser ++ lexer).mapIdx fun i c => (i + 1, c.action)
  roots : ∀ d ∈ cl.head?, st.base.cfg.roots = [d.1]
  origins : (parser ++ lexer).length < u32Max → List.Forall₂ RuleOf cl (originRules st.base.cfg) ∧
    (originRules st.base.cfg).map (fun r => r.history.origin) =
      (List.range (parser ++ lexer).length).map (· + 1)

theorem loadRules_built (p : Profile) {parse : Text → Except String Hir} {rs ls : List Rule}
    (hs : ∀ c ∈ rs.map Rule.clause ++ ls.map Rule.clause, ∀ e ∈ c.elems, e.Safe parse)
    (hf : firstFault parse [] (rs.map (·, false) ++ ls.map (·, true)) = none) :
    ∃ st reps aux done res cl,
      loadRules p parse {} 0 (rs.map (·, false) ++ ls.map (·, true)) = .ok (.ok st) ∧
      Built parse (rs.map Rule.clause) (ls.map Rule.clause) st reps aux done res cl := by
  have hcs : (rs.map (·, false) ++ ls.map (·, true)).map (fun r : Rule × Bool => r.1.clause) =
      rs.map Rule.clause ++ ls.map Rule.clause := by
    rw [List.map_append, List.map_map, List.map_map]; rfl
  obtain ⟨st, reps, aux, done, res, cl, e, h, hc, hk, ha, hr, ho⟩ :=
    loadRules_ok p (rs.map (·, false) ++ ls.map (·, true)) (by
      intro r hr e he
      refine hs r.1.clause ?_ e he
      rw [← hcs]
      exact List.mem_map_of_mem (f := fun r : Rule × Bool => r.1.clause) hr) 0 BuildInv.new
      (pl := []) ⟨(by intro id h; cases h), by simp⟩ hf
  rw [List.nil_append] at h hc
  rw [List.nil_append] at h
  rw [hcs] at hc
  obtain ⟨s1, s2, s3, s4⟩ := Seen.clauses_spec parse
    ((rs.map (·, false) ++ ls.map (·, true)).map fun r => (r.1.clause, r.2)) {}
  have hcs' : ((rs.map (·, false) ++ ls.map (·, true)).map
      fun r : Rule × Bool => (r.1.clause, r.2)).map Prod.fst =
      rs.map Rule.clause ++ ls.map Rule.clause := by
    rw [List.map_map, ← hcs]; rfl
  rw [hcs'] at s1 s2 s3
  have hlex : st.lexIntern = stringsOf (rs.map Rule.clause ++ ls.map Rule.clause) := by
    rw [h.lexIntern, s2, List.nil_append]; rfl
  refine ⟨st, reps, aux, done, res, cl, e, h.adv, ?_, h.cl, ?_, hlex, ?_, ?_, ?_, hc,
    hk.symKeys .nil, ?_, ?_, ?_⟩
  · rw [← hlex]; exact h.split
  · rw [← hlex]; exact h.strs
  · intro n
    rw [h.interned, s1, hlex]
    unfold namesOf
    rw [List.mem_append, List.mem_map]
    refine or_congr ?_ ?_
    · constructor
      · rintro (h | h)
        · cases h
        · exact h
      · exact .inr
    · constructor
      · rintro ⟨i, h1, rfl⟩; exact ⟨i, List.mem_range.2 h1, (lexName_eq i).symm⟩
      · rintro ⟨i, h1, rfl⟩; exact ⟨i, List.mem_range.1 h1, (lexName_eq i).symm⟩
  · intro k
    rw [h.keys, s3, List.nil_append]
    simp only [List.mem_flatMap]
  · intro s
    rw [h.lexical, hlex]
    refine or_congr ?_ ?_
    · simp only [lexName_eq]
    · constructor
      · rintro ⟨n, hn, h1⟩
        rcases (s4 n).1 hn with hn | ⟨c, hc, rfl⟩
        · cases hn
        · obtain ⟨⟨r, b⟩, hr, e⟩ := List.mem_map.1 hc
          cases e
          rcases List.mem_append.1 hr with hr | hr
          · obtain ⟨_, -, e⟩ := List.mem_map.1 hr; cases e
          · obtain ⟨r', hr', e⟩ := List.mem_map.1 hr
            cases e
            exact ⟨_, List.mem_map_of_mem hr', h1⟩
      · rintro ⟨c, hc, h1⟩
        obtain ⟨r, hr, rfl⟩ := List.mem_map.1 hc
        refine ⟨r.clause.lhs, (s4 _).2 (.inr ⟨r.clause, ?_, rfl⟩), h1⟩
        exact List.mem_map.2 ⟨(r, true), List.mem_append.2 (.inr (List.mem_map_of_mem hr)), rfl⟩
  · rw [ha, ← hcs]
    show [] ++ _ = _
    rw [List.nil_append]
    simp only [Nat.zero_add, List.mapIdx_eq_zipIdx_map, List.zipIdx_map, List.map_map]
    rfl
  · intro d hd
    rw [hr, if_pos rfl]
    cases cl with
    | nil => cases hd
    | cons d' cl => cases hd; rfl
  · intro hlt
    have hlen : (rs.map (·, false) ++ ls.map (·, true)).length =
        (rs.map Rule.clause ++ ls.map Rule.clause).length := by simp
    obtain ⟨rules, k1, k2, k3⟩ := ho (by rw [hlen]; omega)
    have : originRules st.base.cfg = rules := k1
    rw [this]
    refine ⟨k2, ?_⟩
    rw [k3, hlen, List.range_eq_range']

namespace Built

variable {parse : Text → Except String Hir} {parser lexer : List Clause} {st : State}
  {reps : List RepSym} {aux : List Sym} {done : List (Sym × List Piece)} {res : List (Sym × Hir)}
  {cl : List (Sym × List Piece)} (h : Built parse parser lexer st reps aux done res cl)

include h

theorem class_term {a : Sym} (ha : IsClass st.classes a) : st.base.cfg.Term a :=
  h.adv.base.g.term_iff.2 ⟨(h.adv.class_lt ha).1, (h.adv.class_lt ha).2, fun ps => h.adv.reg.idle a ps ha⟩

theorem aux_not_term {a : Sym} (ha : a ∈ aux) : ¬ st.base.cfg.Term a := by
  intro ht
  obtain ⟨ps, hps⟩ := h.adv.reg.lhs a ha
  exact (h.adv.base.g.term_iff.1 ht).2.2 ps hps

/-- The strings of an expression. -/
theorem call_lang {s : Sym} {hir : Hir} (hm : (s, hir) ∈ res) (part : List Sym) :
    Replaced (pieceProd done) st.base.cfg.Term (· ∈ aux) s part ↔
      ∃ ls, hir.Matches ls ∧ SpellsLetters st.classes ls part := by
  obtain ⟨h1, -, h3⟩ := h.adv.reg.lang s hir hm
  rw [← h3]
  have hcongr : InLang (pieceProd done) st.base.cfg.Term s part ↔
      InLang (pieceProd done) (IsClass st.classes) s part := by
    refine inLang_congr (fun s => s ∈ aux ∨ IsClass st.classes s) (fun _ _ _ => Iff.rfl)
      (fun A α hA hp => h.adv.reg.closed hA hp) ?_ h1
    rintro a (ha | ha)
    · exact ⟨fun ht => absurd ht (h.aux_not_term ha), fun hc => absurd hc (h.adv.reg.apart a ha)⟩
    · exact ⟨fun _ => ha, fun _ => h.class_term ha⟩
  by_cases hs : s ∈ aux
  · rw [← hcongr]
    exact ⟨fun h => h.elim And.right fun h => absurd hs h.1, fun h => .inl ⟨hs, h⟩⟩
  · have hc := h1.resolve_left hs
    have hno : ∀ α, ¬ pieceProd done s α := fun α ⟨ps, hd, _⟩ => h.adv.reg.idle s ps hc hd
    constructor
    · rintro (h | ⟨-, rfl⟩)
      · exact absurd h.1 hs
      · exact inLang_iff.2 ⟨.refl _, by simpa using hc⟩
    · intro hw
      refine .inr ⟨hs, ?_⟩
      have := (inLang_iff.1 hw).1
      rw [Der.single_iff] at this
      rcases this with rfl | ⟨α, hp, -⟩
      · rfl
      · exact absurd hp (hno α)

/-- The strings of an element. -/
theorem elem_means {sym : Text → Sym} (hsym : ∀ n x, st.base.Named n x → sym n = x) (e : Elem)
    (q : Piece) (he : ElemIs parse st res e q) (α : List Sym) :
    e.Means parse sym (stringsOf (parser ++ lexer)) st.classes α ↔
      ∃ β parts, q.Means β ∧
        List.Forall₂ (Replaced (pieceProd done) st.base.cfg.Term (· ∈ aux)) β parts ∧
        α = parts.flatten := by
  obtain ⟨x, rep⟩ := q
  have keep : ∀ {n : Text}, st.base.Named n x →
      ((∃ β parts, Piece.Means ⟨x, rep⟩ β ∧
        List.Forall₂ (Replaced (pieceProd done) st.base.cfg.Term (· ∈ aux)) β parts ∧
        α = parts.flatten) ↔ Piece.Means ⟨x, rep⟩ α) := by
    intro n hn
    have hx := (h.adv.named_not hn).1
    have hall : ∀ β, Piece.Means ⟨x, rep⟩ β → ∀ s ∈ β, s ∉ aux := by
      intro β hβ s hs
      have : s = x := by
        unfold Piece.Means at hβ
        split at hβ
        · rw [hβ] at hs; exact List.mem_singleton.1 hs
        · obtain ⟨k, -, rfl⟩ := hβ
          exact (List.mem_replicate.1 hs).2
      rw [this]
      exact hx
    constructor
    · rintro ⟨β, parts, h1, h2, rfl⟩
      rw [(replaced_kept (hall β h1)).1 h2, PieceInv.flatten_single]
      exact h1
    · intro h1
      exact ⟨α, _, h1, (replaced_kept (hall α h1)).2 rfl, (PieceInv.flatten_single α).symm⟩
  cases e with
  | name s r =>
    obtain ⟨h1, h2⟩ := he
    rw [keep h1]
    dsimp only at h1 h2
    subst h2
    have := hsym _ _ h1
    cases r <;> unfold Elem.Means Piece.Means Rep.least <;> dsimp only <;> rw [this]
    simp
  | str s =>
    obtain ⟨⟨i, h1, h2⟩, h3⟩ := he
    rw [keep h2]
    dsimp only at h2 h3
    subst h3
    unfold Elem.Means Piece.Means
    dsimp only
    rw [lexName_eq] at h2
    rw [h.lexIntern] at h1
    constructor
    · rintro ⟨j, k1, rfl⟩
      have hnd : (stringsOf (parser ++ lexer)).Nodup := firstUses_nodup _
      obtain ⟨hi, ei⟩ := List.getElem?_eq_some_iff.1 h1
      obtain ⟨hj, ej⟩ := List.getElem?_eq_some_iff.1 k1
      rw [← (List.Nodup.getElem_inj_iff hnd).1 (ei.trans ej.symm), hsym _ _ h2]
    · rintro rfl
      exact ⟨i, h1, by rw [hsym _ _ h2]⟩
  | call func arg =>
    obtain ⟨⟨hir, h1, h2⟩, h3⟩ := he
    dsimp only at h2 h3
    subst h3
    have : (∃ β parts, Piece.Means ⟨x, none⟩ β ∧
        List.Forall₂ (Replaced (pieceProd done) st.base.cfg.Term (· ∈ aux)) β parts ∧
        α = parts.flatten) ↔ Replaced (pieceProd done) st.base.cfg.Term (· ∈ aux) x α := by
      constructor
      · rintro ⟨_, parts, rfl, k1, rfl⟩
        cases k1 with
        | cons k1 k2 =>
          cases k2
          simpa using k1
      · intro k
        exact ⟨[x], [α], rfl, .cons k .nil, by simp⟩
    rw [this, h.call_lang h2]
    unfold Elem.Means
    dsimp only
    constructor
    · rintro ⟨hir', ls, k1, k2, k3⟩
      rw [h1] at k1
      cases k1
      exact ⟨ls, k2, k3⟩
    · rintro ⟨ls, k2, k3⟩
      exact ⟨hir, ls, h1, k2, k3⟩

theorem prod_iff {sym : Text → Sym} (hsym : ∀ n x, st.base.Named n x → sym n = x) {A : Sym}
    (hA : A ∉ aux) (α : List Sym) :
    inlined (pieceProd done) st.base.cfg.Term (· ∈ aux) A α ↔
      advProd parse (parser ++ lexer) sym st.classes A α := by
  have chars : ∀ {s : Text} {β : List Sym}, SpellsChars st.classes s β → ∀ x ∈ β, x ∉ aux := by
    intro s β hβ x hx ha
    obtain ⟨c, -, hk⟩ := forall₂_right hβ hx
    exact h.adv.reg.apart x ha ⟨_, hk⟩
  have uniq : ∀ {s : Text} {β γ : List Sym}, SpellsChars st.classes s β → SpellsChars st.classes s γ →
      β = γ := by
    intro s β γ h1 h2
    unfold SpellsChars at h1 h2
    induction h1 generalizing γ with
    | nil => cases h2; rfl
    | cons h3 _ ih =>
      cases h2 with
      | cons h4 h5 => rw [h.adv.cls.key h3 h4, ih h5]
  constructor
  · rintro ⟨_, parts, ⟨ps, hd, qs, hqs, rfl⟩, hparts, rfl⟩
    rcases h.split _ hd with h1 | ⟨i, s, h1, h2, β, h3, h4⟩ | h1
    · exact absurd h1 hA
    · dsimp only at h2 h4
      subst h4
      rw [PieceInv.plain_means.1 hqs, PieceInv.flatten_single, replaced_kept (chars h3)] at hparts
      rw [hparts, PieceInv.flatten_single]
      rw [lexName_eq] at h2
      exact .inr ⟨i, s, h1, (hsym _ _ h2).symm, h3⟩
    · obtain ⟨c, hc, h2, h3⟩ := forall₂_right h.clauses h1
      refine .inl ⟨c, hc, (hsym _ _ h2).symm, ?_⟩
      exact (elems_means (h.elem_means hsym) h3 _).2 ⟨qs, parts, hqs, hparts, rfl⟩
  · rintro (⟨c, hc, rfl, hm⟩ | ⟨i, s, h1, rfl, h3⟩)
    · obtain ⟨⟨B, ps⟩, hd, h2, h3⟩ := forall₂_left h.clauses hc
      obtain ⟨qs, parts, k1, k2, rfl⟩ := (elems_means (h.elem_means hsym) h3 _).1 hm
      have := hsym _ _ h2
      dsimp only at this
      rw [this]
      exact ⟨_, parts, ⟨ps, h.sub _ hd, qs, k1, rfl⟩, k2, rfl⟩
    · obtain ⟨⟨B, ps⟩, hd, h2, β, h4, h5⟩ := h.strs i s h1
      dsimp only at h2 h5
      subst h5
      rw [lexName_eq] at h2
      rw [uniq h3 h4, hsym _ _ h2]
      exact ⟨β, _, ⟨_, hd, _, PieceInv.plain_means.2 rfl, (PieceInv.flatten_single β).symm⟩,
        (replaced_kept (chars h4)).2 rfl, (PieceInv.flatten_single β).symm⟩

theorem term_iff {sym : Text → Sym} (hsym : ∀ n x, st.base.Named n x → sym n = x) (a : Sym) :
    st.base.cfg.Term a ↔ advTerm (parser ++ lexer) sym st.classes a := by
  constructor
  · intro ht
    obtain ⟨h1, h2, h3⟩ := h.adv.base.g.term_iff.1 ht
    rcases h.adv.base.cover a h1 with h4 | h4 | ⟨n, hn⟩
    · exact absurd h4 h2
    · rcases AdvInv.mem_extra.1 h4 with h4 | h4
      · exact absurd ht (h.aux_not_term h4)
      · exact .inl h4
    · refine .inr ⟨n, (h.interned n).1 (LoadInv.mem_of_named hn), (hsym _ _ hn).symm, ?_, ?_⟩
      · rintro c hc rfl
        obtain ⟨⟨B, ps⟩, hd, h5, -⟩ := forall₂_left h.clauses hc
        have : B = a := h.adv.base.named_fun h5 hn
        exact h3 ps (this ▸ h.sub _ hd)
      · rintro i hi rfl
        obtain ⟨⟨B, ps⟩, hd, h5, -⟩ := h.strs i _ (List.getElem?_eq_getElem hi)
        rw [lexName_eq] at h5
        have : B = a := h.adv.base.named_fun h5 hn
        exact h3 ps (this ▸ hd)
  · rintro (hc | ⟨n, hn, rfl, h1, h2⟩)
    · exact h.class_term hc
    · obtain ⟨x, hx⟩ := h.adv.base.named_of_mem ((h.interned n).2 hn)
      rw [hsym _ _ hx]
      have hlt := h.adv.base.named_lt hx
      refine h.adv.base.g.term_iff.2 ⟨hlt.1, hlt.2.1, ?_⟩
      intro ps hd
      rcases h.split _ hd with h3 | ⟨i, s, h3, h4, -⟩ | h3
      · exact (h.adv.named_not hx).1 h3
      · rw [lexName_eq] at h4
        exact h2 i (List.getElem?_eq_some_iff.1 h3).1 (h.adv.base.named_inj h4 hx)
      · obtain ⟨c, hc, h4, -⟩ := forall₂_right h.clauses h3
        exact h1 c hc (h.adv.base.named_inj h4 hx)

/-- The result. -/
theorem finish (hne : parser ++ lexer ≠ []) :
    ∃ G sym, st.finish = .ok G ∧ Loaded parse parser lexer G sym ∧ Records parser lexer G sym := by
  classical
  let sym : Text → Sym := fun n => if hn : ∃ x, st.base.Named n x then hn.choose else 0
  have hsym : ∀ n x, st.base.Named n x → sym n = x := by
    intro n x hx
    have hex : ∃ x, st.base.Named n x := ⟨x, hx⟩
    show (if hn : ∃ x, st.base.Named n x then hn.choose else 0) = x
    rw [dif_pos hex]
    exact h.adv.base.named_fun hex.choose_spec hx
  have hnamed : ∀ n ∈ namesOf (parser ++ lexer), st.base.Named n (sym n) := by
    intro n hn
    obtain ⟨x, hx⟩ := h.adv.base.named_of_mem ((h.interned n).2 hn)
    rw [hsym n x hx]
    exact hx
  have hiff : ∀ n x, st.base.Named n x ↔ n ∈ namesOf (parser ++ lexer) ∧ x = sym n := by
    intro n x
    constructor
    · intro hx
      exact ⟨(h.interned n).1 (LoadInv.mem_of_named hx), (hsym n x hx).symm⟩
    · rintro ⟨hn, rfl⟩
      exact hnamed n hn
  have hlhs : ∀ c ∈ parser ++ lexer, c.lhs ∈ namesOf (parser ++ lexer) := fun c hc =>
    List.mem_append.2 (.inl (List.mem_flatMap.2 ⟨c, hc, by simp⟩))
  have hstr : ∀ i, i < (stringsOf (parser ++ lexer)).length →
      stringName i ∈ namesOf (parser ++ lexer) := fun i hi =>
    List.mem_append.2 (.inr (List.mem_map.2 ⟨i, List.mem_range.2 hi, rfl⟩))
  have hlexlt : ∀ s ∈ st.lexical, s < st.base.cfg.numSyms := by
    intro s hs
    rcases (h.lexical s).1 hs with ⟨i, -, hn⟩ | ⟨c, -, hn⟩ <;> exact (h.adv.base.named_lt hn).1
  obtain ⟨sbs, e1, hlen, hget⟩ := BitSet.setMany_spec true st.lexical
    (BitSet.reset st.base.cfg.src) (by
      intro s hs
      rw [BitSet.length_reset]
      exact hlexlt s hs)
  obtain ⟨out, e2, hout⟩ := resolveAll_spec st.base.intern st.base.symMap (by
    rintro ⟨i, s⟩ he
    obtain ⟨n, hn, -⟩ := h.adv.base.known i s (lookup_of_mem h.symKeys he)
    exact ⟨n, hn⟩)
  have hmem : ∀ n s, (n, s) ∈ out ↔ st.base.Named n s := by
    intro n s
    constructor
    · intro hm
      obtain ⟨⟨i, t⟩, he, h1, h2⟩ := forall₂_right hout hm
      dsimp only at h1 h2
      subst h2
      exact ⟨i, h1, lookup_of_mem h.symKeys he⟩
    · rintro ⟨i, h1, h2⟩
      obtain ⟨⟨n', s'⟩, he, h3, h4⟩ := forall₂_left hout (lookup_some_mem h2)
      dsimp only at h3 h4
      rw [h1] at h3
      cases h3
      rw [← h4]
      exact he
  refine ⟨⟨st.base.cfg, { classes := st.classes }, sbs, st.actions, out⟩, sym, ?_, ?_, ?_⟩
  · unfold State.finish
    rw [e1, Res.bind_ok, e2, Res.bind_ok]
  · refine ⟨h.adv.base.g.wf, h.adv.base.g.limit, h.adv.base.len, ?_, ?_, ?_, ?_, h.adv.cls.syms, h.keys,
      ?_, h.term_iff hsym, ?_⟩
    · intro n hn n' hn' e
      exact h.adv.base.named_inj (hnamed n hn) (e ▸ hnamed n' hn')
    · intro n hn
      have := h.adv.base.named_lt (hnamed n hn)
      refine ⟨this.1, ?_⟩
      unfold SymbolSource.originalNameOf
      rw [this.2.2.2]
    · have hcl := h.clauses
      have hr := h.roots
      generalize parser ++ lexer = cs at hne hcl
      cases hcl with
      | nil => exact absurd rfl hne
      | @cons c d cs cl h1 h2 =>
        refine ⟨c, rfl, ?_⟩
        rw [hsym _ _ h1.1]
        exact hr d rfl
    · exact h.adv.cls.asc.imp Translator.classLt_iff.1
    · intro k s hk
      refine ⟨?_, ?_⟩
      · unfold SymbolSource.originalNameOf
        rw [h.adv.unnamed s ⟨k, hk⟩]
      · rintro n hn e
        have := h.adv.named_not (hnamed n hn)
        rw [e] at this
        exact this.2 ⟨k, hk⟩
    · intro n hn w
      have hno := h.adv.named_not (hnamed n hn)
      rw [h.adv.base.g.lang (h.adv.base.named_lt (hnamed n hn)).2.1,
        inLang_inline (· ∈ aux) (fun s hs => h.aux_not_term hs) hno.1]
      exact inLang_congr (· ∉ aux) (fun A α hA => h.prod_iff hsym hA α)
        (fun A α _ hp => inlined_syms (fun s hs => h.aux_not_term hs) hp)
        (fun a _ => h.term_iff hsym a) hno.1
  · refine ⟨fun n s => (hmem n s).trans (hiff n s), ?_, h.actions, ?_, ?_, ?_⟩
    · exact resolved_nodup h.adv.base.nodup hout h.symKeys
    · intro hlt
      obtain ⟨k1, k2⟩ := h.origins hlt
      refine ⟨k2, forall₂_compose ?_ h.clauses k1⟩
      rintro c d r ⟨h1, h2⟩ ⟨h3, h4⟩
      refine ⟨h3.trans (hsym _ _ h1).symm, forall₂_compose ?_ h2 h4⟩
      intro e q x he hx
      cases e with
      | name n rep =>
        cases rep with
        | none => exact (hx he.2).trans (hsym _ _ he.1).symm
        | zeroOrMore => trivial
        | oneOrMore => trivial
      | str t =>
        obtain ⟨⟨i, h5, h6⟩, h7⟩ := he
        rw [lexName_eq] at h6
        exact ⟨i, by rw [← h.lexIntern]; exact h5, (hx h7).trans (hsym _ _ h6).symm⟩
      | call => trivial
    · rw [hlen, BitSet.length_reset]; rfl
    · intro s
      have : Has sbs s ↔ s ∈ st.lexical := by
        unfold Has
        rw [hget]
        by_cases hs : s ∈ st.lexical
        · simp [hs]
        · rw [if_neg hs, BitSet.getElem?_reset]
          simp [hs]
      show Has sbs s ↔ _
      rw [this, h.lexical]
      refine or_congr (exists_congr fun i => and_congr_right fun hi => ?_)
        (exists_congr fun c => and_congr_right fun hc => ?_)
      · rw [hiff]
        exact ⟨And.right, fun e => ⟨hstr i hi, e⟩⟩
      · rw [hiff]
        exact ⟨And.right, fun e => ⟨hlhs c (List.mem_append.2 (.inr hc)), e⟩⟩

end Built

/-- Building the grammar fails with the first reason, or returns a grammar as specified. -/
theorem build_spec (p : Profile) {parse : Text → Except String Hir} {decls : List Decl}
    {rs : List Rule} {lex : Option (List Rule)} (hr : List.Forall₂ Rule.Placed rs (parserPlaces 0 decls))
    (hl : List.Forall₂ Rule.Placed (lex.getD []) (lexerPlaces 0 decls))
    (hs : ∀ c ∈ parserClauses decls ++ lexerClauses decls, ∀ e ∈ c.elems, e.Safe parse)
    (hne : parserClauses decls ++ lexerClauses decls ≠ []) :
    match firstFaultAt parse decls with
    | some r => build p parse (.start rs lex) = .ok (.error (faultError r))
    | none => ∃ G sym, build p parse (.start rs lex) = .ok (.ok G) ∧
        Loaded parse (parserClauses decls) (lexerClauses decls) G sym ∧
        Records (parserClauses decls) (lexerClauses decls) G sym := by
  have hfit := firstFault_eq parse hr hl
  have k1 : rs.map Rule.clause = parserClauses decls :=
    (placed_clause hr).trans (parserPlaces_clause decls 0)
  have k2 : (lex.getD []).map Rule.clause = lexerClauses decls :=
    (placed_clause hl).trans (lexerPlaces_clause decls 0)
  rw [← k1, ← k2] at hs hne ⊢
  unfold build
  cases hf : firstFaultAt parse decls with
  | some r =>
    rw [hf] at hfit
    have hcs : (rs.map (·, false) ++ (lex.getD []).map (·, true)).map (fun r : Rule × Bool => r.1.clause) =
        rs.map Rule.clause ++ (lex.getD []).map Rule.clause := by
      rw [List.map_append, List.map_map, List.map_map]; rfl
    have e1 := loadRules_fault p _ (by
      intro r hr e he
      refine hs r.1.clause ?_ e he
      rw [← hcs]
      exact List.mem_map_of_mem (f := fun r : Rule × Bool => r.1.clause) hr) 0 BuildInv.new
      (pl := []) ⟨(by intro id h; cases h), by simp⟩ hfit
    dsimp only
    rw [e1, Res.bind_ok]
  | none =>
    rw [hf] at hfit
    obtain ⟨st, reps, aux, done, res, cl, e, h⟩ := loadRules_built p hs hfit
    obtain ⟨G, sym, e2, h1, h2⟩ := h.finish hne
    refine ⟨G, sym, ?_, h1, h2⟩
    dsimp only
    rw [e, Res.bind_ok]
    dsimp only
    rw [e2, Res.bind_ok]

end Verif.Advanced
