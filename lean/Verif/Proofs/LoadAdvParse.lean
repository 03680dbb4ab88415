import Verif.Proofs.LoadAdvLex
import Verif.Proofs.LoadParse

/-! # Proofs about parsing in the advanced loader -/

namespace Verif

section Generic

variable {T N : Type}

/-- A tree only depends on the terminals, not on their values. -/
theorem derives_relabel {rules : Syntax T N} (t : Tree T) : ∀ (s : GSym T N) (w w' : List (T × Nat)),
    Tree.Derives rules t s w → w'.map Prod.fst = w.map Prod.fst → ∃ t', Tree.Derives rules t' s w' := by
  induction t using Tree.induct with
  | hl x i =>
    intro s w w' h e
    rw [derives_leaf] at h
    obtain ⟨rfl, rfl⟩ := h
    match w', e with
    | [(y, j)], e =>
      simp only [List.map_cons, List.map_nil, List.cons.injEq, and_true] at e
      subst e
      exact ⟨.leaf y j, derives_leaf.2 ⟨rfl, rfl⟩⟩
    | [], e => simp at e
    | _ :: _ :: _, e => simp at e
  | hn a args ih =>
    intro s w w' h e
    rw [derives_node] at h
    obtain ⟨A, rhs, rfl, hr, hd⟩ := h
    have key : ∀ (args : List (Tree T)), (∀ t ∈ args, ∀ (s : GSym T N) (w w' : List (T × Nat)),
        Tree.Derives rules t s w → w'.map Prod.fst = w.map Prod.fst →
        ∃ t', Tree.Derives rules t' s w') → ∀ rhs w w', Tree.DeriveAll rules args rhs w →
        w'.map Prod.fst = w.map Prod.fst → ∃ args', Tree.DeriveAll rules args' rhs w' := by
      intro args
      induction args with
      | nil =>
        intro _ rhs w w' h e
        rw [Tree.DeriveAll] at h
        obtain ⟨rfl, rfl⟩ := h
        have : w' = [] := by simpa using e
        subst this
        exact ⟨[], deriveAll_nil.2 ⟨rfl, rfl⟩⟩
      | cons t args ih' =>
        intro hall rhs w w' h e
        rw [Tree.DeriveAll] at h
        obtain ⟨s, rhs', u, v, rfl, rfl, h1, h2⟩ := h
        rw [List.map_append, List.map_eq_append_iff] at e
        obtain ⟨u', v', rfl, e1, e2⟩ := e
        obtain ⟨t', ht'⟩ := hall t (by simp) s u u' h1 e1
        obtain ⟨args', ha'⟩ := ih' (fun t h => hall t (by simp [h])) rhs' v v' h2 e2
        exact ⟨t' :: args', deriveAll_cons.2 ⟨t', args', u', v', rfl, rfl, ht', ha'⟩⟩
    obtain ⟨args', h⟩ := key args ih rhs w w' hd e
    exact ⟨.node a args', derives_node.2 ⟨A, rhs, rfl, hr, h⟩⟩

end Generic

namespace Advanced

open Basic (intersperse_concat intersperse_flatten split_unique)

/-! ## From the tree to the rules -/

/-- The token of a terminal, except for the values of identifiers and strings. -/
def Terminal.token : Terminal → Token
  | .bnfOp => .bnfOp
  | .ident => .ident []
  | .pipe => .pipe
  | .opMul => .mul
  | .opPlus => .plus
  | .semicolon => .semicolon
  | .string => .string []
  | .lexerKeyword => .lexerKeyword
  | .lbrace => .lbrace
  | .rbrace => .rbrace
  | .gtOp => .gtOp
  | .lparen => .lparen
  | .rparen => .rparen
  | .tildeOp => .tildeOp

theorem terminal_of_token (x : Terminal) : terminalOf x.token = .ok (some x) := by cases x <;> rfl

/-- The element of a fragment. -/
def Fragment.elem : Fragment → Elem
  | .rhs ident rep => .name ident rep
  | .lex string _ => .str string
  | .call func arg _ _ => .call func arg

/-- The alternative of a rule. -/
def Rule.clause (r : Rule) : Clause := ⟨r.lhs, r.rhs.map Fragment.elem, r.action⟩

/-- The scanned terminals stand for the tokens. -/
def Scanned (tokens : List Token) : List (Terminal × Nat) → List Token → Prop :=
  List.Forall₂ fun x tok => tokens[x.2]? = some tok ∧ terminalOf tok = .ok (some x.1)

theorem Scanned.split {tokens : List Token} {u v : List (Terminal × Nat)} {ts : List Token}
    (h : Scanned tokens (u ++ v) ts) :
    ∃ us vs, ts = us ++ vs ∧ Scanned tokens u us ∧ Scanned tokens v vs := by
  induction u generalizing ts with
  | nil => exact ⟨[], ts, rfl, .nil, h⟩
  | cons x u ih =>
    cases h with
    | cons h1 h2 =>
      obtain ⟨us, vs, rfl, h3, h4⟩ := ih h2
      exact ⟨_ :: us, vs, rfl, .cons h1 h3, h4⟩

theorem Scanned.append {tokens : List Token} {u v : List (Terminal × Nat)} {us vs : List Token}
    (h : Scanned tokens u us) (h' : Scanned tokens v vs) : Scanned tokens (u ++ v) (us ++ vs) := by
  induction h with
  | nil => exact h'
  | cons h1 _ ih => exact .cons h1 ih

theorem Scanned.single {tokens : List Token} {x : Terminal} {i : Nat} {ts : List Token}
    (h : Scanned tokens [(x, i)] ts) :
    ∃ tok, ts = [tok] ∧ tokens[i]? = some tok ∧ terminalOf tok = .ok (some x) := by
  cases h with
  | cons h1 h2 =>
    cases h2
    exact ⟨_, rfl, h1.1, h1.2⟩

theorem terminal_token {tok : Token} {x : Terminal} (h : terminalOf tok = .ok (some x)) :
    match x with
    | .ident => ∃ s, tok = .ident s
    | .string => ∃ s, tok = .string s
    | x => tok = x.token := by
  cases tok <;> simp only [terminalOf, Except.ok.injEq, Option.some.injEq, reduceCtorEq] at h <;>
    subst h <;> simp [Terminal.token]

/-- The tokens of elements separated by tildes. -/
abbrev elemTokens (l : List Elem) : List Token :=
  ((l.map Elem.tokens).intersperse [.tildeOp]).flatten

/-- The tokens of alternatives separated by bars. -/
abbrev altTokens (l : List Alt) : List Token := ((l.map Alt.tokens).intersperse [.pipe]).flatten

/-- The alternative of fragments. -/
def altOf (a : List Fragment × Option Text) : Alt := ⟨a.1.map Fragment.elem, a.2⟩

/-- The terminals are numbered from `k`. -/
def From (k : Nat) (w : List (Terminal × Nat)) : Prop := w.map Prod.snd = List.range' k w.length

theorem From.split {k : Nat} {u v : List (Terminal × Nat)} (h : From k (u ++ v)) :
    From k u ∧ From (k + u.length) v := by
  unfold From at h ⊢
  rw [List.map_append, List.length_append, ← List.range'_append_1] at h
  exact List.append_inj h (by simp)

theorem From.append {k : Nat} {u v : List (Terminal × Nat)} (h : From k u)
    (h' : From (k + u.length) v) : From k (u ++ v) := by
  unfold From at h h' ⊢
  rw [List.map_append, List.length_append, ← List.range'_append_1, h, h']

theorem From.nil (k : Nat) : From k [] := rfl

theorem From.cons (x : Terminal) {k : Nat} {v : List (Terminal × Nat)} (h : From (k + 1) v) :
    From k ((x, k) :: v) := From.append (u := [(x, k)]) rfl h

theorem Scanned.length {tokens : List Token} {w : List (Terminal × Nat)} {ts : List Token}
    (h : Scanned tokens w ts) : w.length = ts.length := List.Forall₂.length_eq h

/-- The numbers in a fragment whose tokens start at `k`. -/
def Fragment.Placed (k : Nat) : Fragment → Prop
  | .rhs _ _ => True
  | .lex _ span => span = k + 1
  | .call _ _ argSpan span => span.1 = k + 1 ∧ argSpan = k + 3

/-- The fragments of an alternative that starts at `k`. -/
def FragmentsPlaced (k : Nat) (fs : List Fragment) : Prop :=
  List.Forall₂ Fragment.Placed (elemStarts k (fs.map Fragment.elem)) fs

/-- The rule is the alternative, and its numbers are the positions. -/
def Rule.Placed (r : Rule) (c : Place) : Prop :=
  r.clause = c.clause ∧ r.span.1 = c.lhsAt + 1 ∧ List.Forall₂ Fragment.Placed c.elemsAt r.rhs

/-- What a tree for a symbol evaluates to. -/
def EvalSpec (tokens : List Token) (k : Nat) (t : Tree Terminal) (ts : List Token) :
    GSym Terminal Nonterminal → Prop
  | .t .ident => ∃ s, ts = [.ident s] ∧ evaluate tokens t = .ok (.ident s (k + 1))
  | .t .string => ∃ s, ts = [.string s] ∧ evaluate tokens t = .ok (.string s (k + 1))
  | .t x => ∃ i, ts = [x.token] ∧ evaluate tokens t = .ok (.none i)
  | .n .action => ∃ a i, ts = [.gtOp, .ident a] ∧ evaluate tokens t = .ok (.ident a i)
  | .n .fragment => ∃ f, ts = f.elem.tokens ∧ f.Placed k ∧ evaluate tokens t = .ok (.fragment f)
  | .n .alt => ∃ fs : List Fragment, fs ≠ [] ∧ ts = elemTokens (fs.map Fragment.elem) ∧
      FragmentsPlaced k fs ∧ evaluate tokens t = .ok (.alt fs)
  | .n .alt2 => ∃ (fs : List Fragment) (a : Option Text), fs ≠ [] ∧ ts = (altOf (fs, a)).tokens ∧
      FragmentsPlaced k fs ∧ evaluate tokens t = .ok (.alt2 fs a)
  | .n .rhs => ∃ alts : List (List Fragment × Option Text), alts ≠ [] ∧ (∀ a ∈ alts, a.1 ≠ []) ∧
      ts = altTokens (alts.map altOf) ∧
      List.Forall₂ (fun k a => FragmentsPlaced k a.1) (altStarts k (alts.map altOf)) alts ∧
      evaluate tokens t = .ok (.rhs alts)
  | .n .rule => ∃ (s : Stmt) (rs : List Rule), s.Ok ∧ ts = s.tokens ∧
      List.Forall₂ Rule.Placed rs (s.places k) ∧ evaluate tokens t = .ok (.rules rs)
  | .n .rules => ∃ (ss : List Stmt) (rs : List Rule), ss ≠ [] ∧ (∀ s ∈ ss, s.Ok) ∧
      ts = ss.flatMap Stmt.tokens ∧ List.Forall₂ Rule.Placed rs (stmtsPlaces k ss) ∧
      evaluate tokens t = .ok (.rules rs)
  | .n .lexer => ∃ (ss : List Stmt) (rs : List Rule), ss ≠ [] ∧ (∀ s ∈ ss, s.Ok) ∧
      ts = (Decl.lexer ss).tokens ∧ List.Forall₂ Rule.Placed rs (stmtsPlaces (k + 2) ss) ∧
      evaluate tokens t = .ok (.lex rs)
  | .n .decl => (∃ (s : Stmt) (rs : List Rule), s.Ok ∧ ts = s.tokens ∧
        List.Forall₂ Rule.Placed rs (s.places k) ∧ evaluate tokens t = .ok (.rules rs)) ∨
      ∃ (ss : List Stmt) (rs : List Rule), ss ≠ [] ∧ (∀ s ∈ ss, s.Ok) ∧
        ts = (Decl.lexer ss).tokens ∧ List.Forall₂ Rule.Placed rs (stmtsPlaces (k + 2) ss) ∧
        evaluate tokens t = .ok (.lex rs)
  | .n .start => ∃ decls, IsFile decls ts ∧
      ((Loadable decls ∧ ∃ rs lex, evaluate tokens t = .ok (.start rs lex) ∧
        List.Forall₂ Rule.Placed rs (parserPlaces k decls) ∧
        List.Forall₂ Rule.Placed (lex.getD []) (lexerPlaces k decls) ∧
        (lex = none ↔ decls.countP Decl.isLexer = 0)) ∨
      (¬ Loadable decls ∧ evaluate tokens t = .panic))

theorem evaluateAll_cons {tokens : List Token} {t : Tree Terminal} {ts : List (Tree Terminal)} {v : Value}
    (h : evaluate tokens t = .ok v) : evaluateAll tokens (t :: ts) = (do
      let vs ← evaluateAll tokens ts
      .ok (v :: vs)) := by
  rw [evaluateAll, h]; rfl

theorem evaluateAll_nil {tokens : List Token} : evaluateAll tokens [] = .ok [] := by rw [evaluateAll]

theorem evaluate_node {tokens : List Token} {a : Nat} {args : List (Tree Terminal)} :
    evaluate tokens (.node a args) = (do product a (← evaluateAll tokens args)) := by rw [evaluate]

theorem evaluate1 {tokens : List Token} {a : Nat} {t1 : Tree Terminal} {v1 : Value}
    (h1 : evaluate tokens t1 = .ok v1) : evaluate tokens (.node a [t1]) = product a [v1] := by
  rw [evaluate_node, evaluateAll_cons h1, evaluateAll_nil]; rfl

theorem evaluate2 {tokens : List Token} {a : Nat} {t1 t2 : Tree Terminal} {v1 v2 : Value}
    (h1 : evaluate tokens t1 = .ok v1) (h2 : evaluate tokens t2 = .ok v2) :
    evaluate tokens (.node a [t1, t2]) = product a [v1, v2] := by
  rw [evaluate_node, evaluateAll_cons h1, evaluateAll_cons h2, evaluateAll_nil]; rfl

theorem evaluate3 {tokens : List Token} {a : Nat} {t1 t2 t3 : Tree Terminal} {v1 v2 v3 : Value}
    (h1 : evaluate tokens t1 = .ok v1) (h2 : evaluate tokens t2 = .ok v2)
    (h3 : evaluate tokens t3 = .ok v3) :
    evaluate tokens (.node a [t1, t2, t3]) = product a [v1, v2, v3] := by
  rw [evaluate_node, evaluateAll_cons h1, evaluateAll_cons h2, evaluateAll_cons h3,
    evaluateAll_nil]; rfl

theorem evaluate4 {tokens : List Token} {a : Nat} {t1 t2 t3 t4 : Tree Terminal} {v1 v2 v3 v4 : Value}
    (h1 : evaluate tokens t1 = .ok v1) (h2 : evaluate tokens t2 = .ok v2)
    (h3 : evaluate tokens t3 = .ok v3) (h4 : evaluate tokens t4 = .ok v4) :
    evaluate tokens (.node a [t1, t2, t3, t4]) = product a [v1, v2, v3, v4] := by
  rw [evaluate_node, evaluateAll_cons h1, evaluateAll_cons h2, evaluateAll_cons h3,
    evaluateAll_cons h4, evaluateAll_nil]; rfl

/-- The induction hypothesis for the children. -/
abbrev EvalIH (tokens : List Token) (args : List (Tree Terminal)) : Prop :=
  ∀ t ∈ args, ∀ k s w ts, Tree.Derives advSyntax t s w → From k w → Scanned tokens w ts →
    EvalSpec tokens k t ts s

section Inv

variable {tokens : List Token} {args : List (Tree Terminal)} {w : List (Terminal × Nat)}
  {ts : List Token} {k : Nat} {x1 x2 x3 x4 : GSym Terminal Nonterminal}

theorem inv1 (ih : EvalIH tokens args) (hd : Tree.DeriveAll advSyntax args [x1] w) (hk : From k w)
    (hs : Scanned tokens w ts) : ∃ t1, args = [t1] ∧ EvalSpec tokens k t1 ts x1 := by
  simp only [deriveAll_cons, deriveAll_nil] at hd
  obtain ⟨t1, _, u1, _, rfl, rfl, d1, rfl, rfl⟩ := hd
  rw [List.append_nil] at hs hk
  exact ⟨t1, rfl, ih t1 (by simp) _ _ _ _ d1 hk hs⟩

theorem inv2 (ih : EvalIH tokens args) (hd : Tree.DeriveAll advSyntax args [x1, x2] w) (hk : From k w)
    (hs : Scanned tokens w ts) : ∃ t1 t2 s1 s2, args = [t1, t2] ∧ ts = s1 ++ s2 ∧
      EvalSpec tokens k t1 s1 x1 ∧ EvalSpec tokens (k + s1.length) t2 s2 x2 := by
  rw [deriveAll_cons] at hd
  obtain ⟨t1, args', u1, v, rfl, rfl, d1, hd⟩ := hd
  obtain ⟨s1, s2, rfl, hs1, hs2⟩ := hs.split
  obtain ⟨hk1, hk2⟩ := hk.split
  rw [hs1.length] at hk2
  obtain ⟨t2, rfl, h2⟩ := inv1 (fun t ht => ih t (List.mem_cons_of_mem _ ht)) hd hk2 hs2
  exact ⟨t1, t2, s1, s2, rfl, rfl, ih t1 (by simp) _ _ _ _ d1 hk1 hs1, h2⟩

theorem inv3 (ih : EvalIH tokens args) (hd : Tree.DeriveAll advSyntax args [x1, x2, x3] w)
    (hk : From k w) (hs : Scanned tokens w ts) :
    ∃ t1 t2 t3 s1 s2 s3, args = [t1, t2, t3] ∧ ts = s1 ++ (s2 ++ s3) ∧
      EvalSpec tokens k t1 s1 x1 ∧ EvalSpec tokens (k + s1.length) t2 s2 x2 ∧
      EvalSpec tokens (k + s1.length + s2.length) t3 s3 x3 := by
  rw [deriveAll_cons] at hd
  obtain ⟨t1, args', u1, v, rfl, rfl, d1, hd⟩ := hd
  obtain ⟨s1, s', rfl, hs1, hs2⟩ := hs.split
  obtain ⟨hk1, hk2⟩ := hk.split
  rw [hs1.length] at hk2
  obtain ⟨t2, t3, s2, s3, rfl, rfl, h2, h3⟩ :=
    inv2 (fun t ht => ih t (List.mem_cons_of_mem _ ht)) hd hk2 hs2
  exact ⟨t1, t2, t3, s1, s2, s3, rfl, rfl, ih t1 (by simp) _ _ _ _ d1 hk1 hs1, h2, h3⟩

theorem inv4 (ih : EvalIH tokens args) (hd : Tree.DeriveAll advSyntax args [x1, x2, x3, x4] w)
    (hk : From k w) (hs : Scanned tokens w ts) :
    ∃ t1 t2 t3 t4 s1 s2 s3 s4, args = [t1, t2, t3, t4] ∧
      ts = s1 ++ (s2 ++ (s3 ++ s4)) ∧ EvalSpec tokens k t1 s1 x1 ∧
      EvalSpec tokens (k + s1.length) t2 s2 x2 ∧
      EvalSpec tokens (k + s1.length + s2.length) t3 s3 x3 ∧
      EvalSpec tokens (k + s1.length + s2.length + s3.length) t4 s4 x4 := by
  rw [deriveAll_cons] at hd
  obtain ⟨t1, args', u1, v, rfl, rfl, d1, hd⟩ := hd
  obtain ⟨s1, s', rfl, hs1, hs2⟩ := hs.split
  obtain ⟨hk1, hk2⟩ := hk.split
  rw [hs1.length] at hk2
  obtain ⟨t2, t3, t4, s2, s3, s4, rfl, rfl, h2, h3, h4⟩ :=
    inv3 (fun t ht => ih t (List.mem_cons_of_mem _ ht)) hd hk2 hs2
  exact ⟨t1, t2, t3, t4, s1, s2, s3, s4, rfl, rfl, ih t1 (by simp) _ _ _ _ d1 hk1 hs1, h2, h3, h4⟩

end Inv

theorem parserClauses_append (l l' : List Decl) :
    parserClauses (l ++ l') = parserClauses l ++ parserClauses l' := List.flatMap_append

theorem lexerClauses_append (l l' : List Decl) :
    lexerClauses (l ++ l') = lexerClauses l ++ lexerClauses l' := List.flatMap_append

theorem starts_concat (gap : Nat) (l : List Nat) (n : Nat) : ∀ k,
    starts gap k (l ++ [n]) = starts gap k l ++ [k + l.sum + gap * l.length] := by
  induction l with
  | nil => intro k; simp [starts]
  | cons m l ih =>
    intro k
    rw [List.cons_append, starts, ih, starts, List.cons_append, List.sum_cons, List.length_cons,
      Nat.mul_add, Nat.mul_one]
    congr 2
    simp only [List.cons.injEq, and_true]
    omega

theorem parserPlaces_concat (l : List Decl) (d : Decl) : ∀ k, parserPlaces k (l ++ [d]) =
    parserPlaces k l ++ parserPlaces (k + (l.flatMap Decl.tokens).length) [d] := by
  induction l with
  | nil => intro k; simp [parserPlaces]
  | cons x l ih =>
    intro k
    cases x <;> simp [parserPlaces, ih, Nat.add_assoc]

theorem lexerPlaces_concat (l : List Decl) (d : Decl) : ∀ k, lexerPlaces k (l ++ [d]) =
    lexerPlaces k l ++ lexerPlaces (k + (l.flatMap Decl.tokens).length) [d] := by
  induction l with
  | nil => intro k; simp [lexerPlaces]
  | cons x l ih =>
    intro k
    cases x <;> simp [lexerPlaces, ih, Nat.add_assoc]

theorem stmtsPlaces_concat (l : List Stmt) (s : Stmt) : ∀ k, stmtsPlaces k (l ++ [s]) =
    stmtsPlaces k l ++ s.places (k + (l.flatMap Stmt.tokens).length) := by
  induction l with
  | nil => intro k; simp [stmtsPlaces]
  | cons x l ih =>
    intro k
    simp [stmtsPlaces, ih, Nat.add_assoc]

theorem lexerPlaces_none {l : List Decl} (h : l.countP Decl.isLexer = 0) : ∀ k, lexerPlaces k l = [] := by
  induction l with
  | nil => intro k; rfl
  | cons d l ih =>
    intro k
    cases d with
    | rule s => rw [lexerPlaces, ih (by simpa [Decl.isLexer] using h)]
    | lexer ss => simp [Decl.isLexer] at h

theorem placed_append {α β : Type} {R : α → β → Prop} {a c : List α} {b d : List β}
    (h : List.Forall₂ R a b) (h' : List.Forall₂ R c d) : List.Forall₂ R (a ++ c) (b ++ d) := by
  induction h with
  | nil => exact h'
  | cons h1 _ ih => exact .cons h1 ih

/-- The declarations after one more. -/
theorem start_spec {tokens : List Token} {k : Nat} {t1 t2 : Tree Terminal} {s1 s2 : List Token}
    (h1 : EvalSpec tokens k t1 s1 (.n .start))
    (h2 : EvalSpec tokens (k + s1.length) t2 s2 (.n .decl)) :
    EvalSpec tokens k (.node 2 [t1, t2]) (s1 ++ s2) (.n .start) := by
  obtain ⟨decls, ⟨hne, hok, rfl⟩, hcase⟩ := h1
  have hhead : ∀ d, (decls ++ [d]).head? = decls.head? := by
    intro d
    cases decls with
    | nil => exact absurd rfl hne
    | cons d' decls => rfl
  have hfile : ∀ d : Decl, d.Ok → IsFile (decls ++ [d]) (decls.flatMap Decl.tokens ++ d.tokens) := by
    intro d hd
    refine ⟨by simp, ?_, by simp⟩
    intro d' hd'
    rcases List.mem_append.1 hd' with h | h
    · exact hok d' h
    · rw [List.mem_singleton.1 h]; exact hd
  rcases h2 with ⟨s, rs2, h3, rfl, h4, e2⟩ | ⟨ss, rs2, h3, h3', rfl, h4, e2⟩
  · refine ⟨decls ++ [.rule s], hfile (.rule s) h3, ?_⟩
    have hcount : (decls ++ [Decl.rule s]).countP Decl.isLexer = decls.countP Decl.isLexer := by
      rw [List.countP_append]; rfl
    have hL : Loadable (decls ++ [.rule s]) ↔ Loadable decls := by
      unfold Loadable; rw [hhead, hcount]
    rw [hL]
    rcases hcase with ⟨hl, rs, lex, e1, k1, k2, k3⟩ | ⟨hl, e1⟩
    · refine .inl ⟨hl, rs ++ rs2, lex, ?_, ?_, ?_, ?_⟩
      · rw [evaluate2 e1 e2]; rfl
      · rw [parserPlaces_concat]
        exact placed_append k1 (by simpa [parserPlaces] using h4)
      · rw [lexerPlaces_concat]
        simpa [lexerPlaces] using k2
      · rw [hcount]; exact k3
    · refine .inr ⟨hl, ?_⟩
      rw [evaluate_node, evaluateAll, e1]; rfl
  · refine ⟨decls ++ [.lexer ss], hfile (.lexer ss) ⟨h3, h3'⟩, ?_⟩
    have hcount : (decls ++ [Decl.lexer ss]).countP Decl.isLexer = decls.countP Decl.isLexer + 1 := by
      rw [List.countP_append]; rfl
    have hL : Loadable (decls ++ [.lexer ss]) ↔
        Loadable decls ∧ decls.countP Decl.isLexer = 0 := by
      unfold Loadable; rw [hhead, hcount]
      constructor
      · rintro ⟨a, b⟩; exact ⟨⟨a, by omega⟩, by omega⟩
      · rintro ⟨⟨a, b⟩, c⟩; exact ⟨a, by omega⟩
    rw [hL]
    rcases hcase with ⟨hl, rs, lex, e1, k1, k2, k3⟩ | ⟨hl, e1⟩
    · cases lex with
      | none =>
        have h0 := k3.1 rfl
        refine .inl ⟨⟨hl, h0⟩, rs, some rs2, ?_, ?_, ?_, ?_⟩
        · rw [evaluate2 e1 e2]; rfl
        · rw [parserPlaces_concat]
          simpa [parserPlaces] using k1
        · rw [lexerPlaces_concat, lexerPlaces_none h0]
          simpa [lexerPlaces] using h4
        · rw [hcount]
          constructor
          · intro h; cases h
          · intro h; omega
      | some lex =>
        refine .inr ⟨?_, ?_⟩
        · rintro ⟨-, h⟩
          exact nomatch (k3.2 h)
        · rw [evaluate2 e1 e2]; rfl
    · refine .inr ⟨fun h => hl h.1, ?_⟩
      rw [evaluate_node, evaluateAll, e1]; rfl

theorem elemTokens_concat {l : List Elem} (h : l ≠ []) (e : Elem) :
    elemTokens (l ++ [e]) = elemTokens l ++ (.tildeOp :: e.tokens) := by
  unfold elemTokens
  rw [List.map_append, List.map_singleton, intersperse_concat _ _ (by simpa using h)]
  simp

theorem altTokens_concat {l : List Alt} (h : l ≠ []) (a : Alt) :
    altTokens (l ++ [a]) = altTokens l ++ (.pipe :: a.tokens) := by
  unfold altTokens
  rw [List.map_append, List.map_singleton, intersperse_concat _ _ (by simpa using h)]
  simp

theorem joined_length {α : Type} (f : α → List Token) (sep : Token) {l : List α} (h : l ≠ []) :
    ((l.map f).intersperse [sep]).flatten.length + 1 =
      (l.map fun a => (f a).length).sum + l.length := by
  cases l with
  | nil => exact absurd rfl h
  | cons a l =>
    rw [List.map_cons, intersperse_flatten, List.length_append, List.map_cons, List.sum_cons,
      List.length_cons]
    suffices ((l.map f).flatMap fun b => [sep] ++ b).length =
        (l.map fun a => (f a).length).sum + l.length by
      rw [this]; omega
    clear h
    induction l with
    | nil => rfl
    | cons b l ih =>
      rw [List.map_cons, List.flatMap_cons, List.length_append, ih, List.map_cons, List.sum_cons,
        List.length_cons, List.length_append]
      simp only [List.length_singleton]
      omega

theorem elemStarts_concat (k : Nat) {l : List Elem} (h : l ≠ []) (e : Elem) :
    elemStarts k (l ++ [e]) = elemStarts k l ++ [k + (elemTokens l).length + 1] := by
  have : (elemTokens l).length + 1 = _ := joined_length Elem.tokens .tildeOp h
  unfold elemStarts
  rw [List.map_append, List.map_singleton, starts_concat]
  congr 2
  rw [Nat.add_assoc k _ 1, this, Nat.one_mul, List.length_map, Nat.add_assoc]

theorem altStarts_concat (k : Nat) {l : List Alt} (h : l ≠ []) (a : Alt) :
    altStarts k (l ++ [a]) = altStarts k l ++ [k + (altTokens l).length + 1] := by
  have : (altTokens l).length + 1 = _ := joined_length Alt.tokens .pipe h
  unfold altStarts
  rw [List.map_append, List.map_singleton, starts_concat]
  congr 2
  rw [Nat.add_assoc k _ 1, this, Nat.one_mul, List.length_map, Nat.add_assoc]

theorem rules_placed {k : Nat} (s : Text) (j : Nat) {alts : List (List Fragment × Option Text)} {l : List Nat}
    (h : List.Forall₂ (fun k a => FragmentsPlaced k a.1) l alts) :
    List.Forall₂ Rule.Placed (alts.map fun x => ⟨s, x.1, x.2, (k + 1, j)⟩)
      (List.zipWith (Alt.place s k) l (alts.map altOf)) := by
  induction h with
  | nil => exact .nil
  | cons h1 _ ih => exact .cons ⟨rfl, rfl, h1⟩ ih

theorem eval_spec {tokens : List Token} (t : Tree Terminal) :
    ∀ k s w ts, Tree.Derives advSyntax t s w → From k w → Scanned tokens w ts →
      EvalSpec tokens k t ts s := by
  induction t using Tree.induct with
  | hl x i =>
    intro k s w ts hd hk hs
    rw [derives_leaf] at hd
    obtain ⟨rfl, rfl⟩ := hd
    obtain rfl : i = k := by simpa [From] using hk
    obtain ⟨tok, rfl, h1, h2⟩ := hs.single
    cases x
    case ident =>
      obtain ⟨s, rfl⟩ := terminal_token h2
      refine ⟨s, rfl, ?_⟩
      rw [evaluate, leaf, if_pos rfl, Res.index_ok.2 h1, Res.bind_ok]
      rfl
    case string =>
      obtain ⟨s, rfl⟩ := terminal_token h2
      refine ⟨s, rfl, ?_⟩
      rw [evaluate, leaf, if_neg (by decide), if_pos rfl, Res.index_ok.2 h1, Res.bind_ok]
      rfl
    all_goals
      have h3 := terminal_token h2
      refine ⟨i + 1, by rw [h3], ?_⟩
      rw [evaluate, leaf]
      rfl
  | hn a args ih =>
    intro k s w ts hd hk hs
    rw [derives_node] at hd
    obtain ⟨A, rhs, rfl, hr, hd⟩ := hd
    unfold advSyntax at hr
    simp only [List.mem_cons, List.not_mem_nil, or_false, Prod.mk.injEq] at hr
    rcases hr with h | h | h | h | h | h | h | h | h | h | h | h | h | h | h | h | h | h | h | h | h | h <;>
      obtain ⟨rfl, rfl, rfl⟩ := h
    · -- start decl
      obtain ⟨t1, t2, s1, s2, rfl, rfl, h1, h2⟩ := inv2 ih hd hk hs
      exact start_spec h1 h2
    · -- decl
      obtain ⟨t1, rfl, h1⟩ := inv1 ih hd hk hs
      rcases h1 with ⟨s, rs, h3, rfl, h4, e1⟩ | ⟨ss, rs, h3, h3', rfl, h4, e1⟩
      · refine ⟨[.rule s], ⟨by simp, by simpa [Decl.Ok] using h3, by simp [Decl.tokens]⟩, .inl ⟨⟨⟨s, rfl⟩, ?_⟩, rs, none,
          ?_, ?_, ?_, ?_⟩⟩
        · simp [Decl.isLexer]
        · rw [evaluate1 e1]; rfl
        · simpa [parserPlaces] using h4
        · simp [lexerPlaces]
        · simp [Decl.isLexer]
      · refine ⟨[.lexer ss], ⟨by simp, by simpa [Decl.Ok] using ⟨h3, h3'⟩, by simp⟩, .inr ⟨?_, ?_⟩⟩
        · rintro ⟨⟨s, h⟩, -⟩; cases h
        · rw [evaluate1 e1]; rfl
    · -- rule
      obtain ⟨t1, rfl, s, rs, h3, rfl, h4, e1⟩ := inv1 ih hd hk hs
      exact .inl ⟨s, rs, h3, rfl, h4, by rw [evaluate1 e1]; rfl⟩
    · -- lexer
      obtain ⟨t1, rfl, ss, rs, h3, h3', rfl, h4, e1⟩ := inv1 ih hd hk hs
      exact .inr ⟨ss, rs, h3, h3', rfl, h4, by rw [evaluate1 e1]; rfl⟩
    · -- ident bnf_op semicolon
      obtain ⟨t1, t2, t3, s1, s2, s3, rfl, rfl, ⟨s, rfl, e1⟩, ⟨j, rfl, e2⟩, ⟨m, rfl, e3⟩⟩ :=
        inv3 ih hd hk hs
      refine ⟨⟨s, [⟨[], none⟩]⟩, [⟨s, [], none, (k + 1, k + 1)⟩], .inl ⟨none, rfl⟩, rfl,
        .cons ⟨rfl, rfl, .nil⟩ .nil, ?_⟩
      rw [evaluate3 e1 e2 e3]; rfl
    · -- ident bnf_op action semicolon
      obtain ⟨t1, t2, t3, t4, s1, s2, s3, s4, rfl, rfl, ⟨s, rfl, e1⟩, ⟨j, rfl, e2⟩,
        ⟨a, l, rfl, e3⟩, ⟨m, rfl, e4⟩⟩ := inv4 ih hd hk hs
      refine ⟨⟨s, [⟨[], some a⟩]⟩, [⟨s, [], some a, (k + 1, l)⟩], .inl ⟨some a, rfl⟩, rfl,
        .cons ⟨rfl, rfl, .nil⟩ .nil, ?_⟩
      rw [evaluate4 e1 e2 e3 e4]; rfl
    · -- ident bnf_op rhs semicolon
      obtain ⟨t1, t2, t3, t4, s1, s2, s3, s4, rfl, rfl, ⟨s, rfl, e1⟩, ⟨j, rfl, e2⟩,
        ⟨alts, h1, h2, rfl, hp, e3⟩, ⟨m, rfl, e4⟩⟩ := inv4 ih hd hk hs
      refine ⟨⟨s, alts.map altOf⟩, alts.map fun x => ⟨s, x.1, x.2, (k + 1, m)⟩, .inr ⟨by simpa using h1, ?_⟩,
        rfl, ?_, ?_⟩
      · intro a ha
        obtain ⟨b, hb, rfl⟩ := List.mem_map.1 ha
        simpa [altOf] using h2 b hb
      · exact rules_placed s m hp
      · rw [evaluate4 e1 e2 e3 e4]; rfl
    · -- rhs pipe alt2
      obtain ⟨t1, t2, t3, s1, s2, s3, rfl, rfl, ⟨alts, h1, h2, rfl, hp, e1⟩, ⟨j, rfl, e2⟩,
        ⟨fs, a, h3, rfl, hp', e3⟩⟩ := inv3 ih hd hk hs
      refine ⟨alts ++ [(fs, a)], by simp, ?_, ?_, ?_, ?_⟩
      · intro b hb
        rcases List.mem_append.1 hb with hb | hb
        · exact h2 b hb
        · rw [List.mem_singleton.1 hb]; exact h3
      · rw [List.map_append, List.map_singleton, altTokens_concat (by simpa using h1)]
        rfl
      · rw [List.map_append, List.map_singleton, altStarts_concat _ (by simpa using h1)]
        exact placed_append hp (.cons hp' .nil)
      · rw [evaluate3 e1 e2 e3]; rfl
    · -- alt2
      obtain ⟨t1, rfl, fs, a, h3, rfl, hp, e1⟩ := inv1 ih hd hk hs
      refine ⟨[(fs, a)], by simp, by simpa using h3, by simp [altTokens], .cons hp .nil, ?_⟩
      rw [evaluate1 e1]; rfl
    · -- alt
      obtain ⟨t1, rfl, fs, h3, rfl, hp, e1⟩ := inv1 ih hd hk hs
      refine ⟨fs, none, h3, by simp [altOf, Alt.tokens, actionTokens, elemTokens], hp, ?_⟩
      rw [evaluate1 e1]; rfl
    · -- alt action
      obtain ⟨t1, t2, s1, s2, rfl, rfl, ⟨fs, h3, rfl, hp, e1⟩, ⟨a, i, rfl, e2⟩⟩ := inv2 ih hd hk hs
      refine ⟨fs, some a, h3, by simp [altOf, Alt.tokens, actionTokens, elemTokens], hp, ?_⟩
      rw [evaluate2 e1 e2]; rfl
    · -- alt tilde fragment
      obtain ⟨t1, t2, t3, s1, s2, s3, rfl, rfl, ⟨fs, h3, rfl, hp, e1⟩, ⟨i, rfl, e2⟩, ⟨f, rfl, hp', e3⟩⟩ :=
        inv3 ih hd hk hs
      refine ⟨fs ++ [f], by simp, ?_, ?_, ?_⟩
      · rw [List.map_append, List.map_singleton, elemTokens_concat (by simpa using h3)]
        rfl
      · unfold FragmentsPlaced
        rw [List.map_append, List.map_singleton, elemStarts_concat _ (by simpa using h3)]
        exact placed_append hp (.cons hp' .nil)
      · rw [evaluate3 e1 e2 e3]; rfl
    · -- fragment
      obtain ⟨t1, rfl, f, rfl, hp, e1⟩ := inv1 ih hd hk hs
      refine ⟨[f], by simp, by simp [elemTokens], .cons hp .nil, ?_⟩
      rw [evaluate1 e1]; rfl
    · -- ident op_plus
      obtain ⟨t1, t2, s1, s2, rfl, rfl, ⟨s, rfl, e1⟩, ⟨j, rfl, e2⟩⟩ := inv2 ih hd hk hs
      exact ⟨.rhs s .oneOrMore, rfl, trivial, by rw [evaluate2 e1 e2]; rfl⟩
    · -- ident op_mul
      obtain ⟨t1, t2, s1, s2, rfl, rfl, ⟨s, rfl, e1⟩, ⟨j, rfl, e2⟩⟩ := inv2 ih hd hk hs
      exact ⟨.rhs s .zeroOrMore, rfl, trivial, by rw [evaluate2 e1 e2]; rfl⟩
    · -- ident
      obtain ⟨t1, rfl, s, rfl, e1⟩ := inv1 ih hd hk hs
      exact ⟨.rhs s .none, rfl, trivial, by rw [evaluate1 e1]; rfl⟩
    · -- string
      obtain ⟨t1, rfl, s, rfl, e1⟩ := inv1 ih hd hk hs
      exact ⟨.lex s (k + 1), rfl, rfl, by rw [evaluate1 e1]; rfl⟩
    · -- call
      obtain ⟨t1, t2, t3, t4, s1, s2, s3, s4, rfl, rfl, ⟨s, rfl, e1⟩, ⟨j, rfl, e2⟩,
        ⟨v, rfl, e3⟩, ⟨m, rfl, e4⟩⟩ := inv4 ih hd hk hs
      exact ⟨.call s v (k + 3) (k + 1, m), rfl, ⟨rfl, rfl⟩, by rw [evaluate4 e1 e2 e3 e4]; rfl⟩
    · -- lexer { rules }
      obtain ⟨t1, t2, t3, t4, s1, s2, s3, s4, rfl, rfl, ⟨i, rfl, e1⟩, ⟨j, rfl, e2⟩,
        ⟨ss, rs, h3, h3', rfl, h4, e3⟩, ⟨m, rfl, e4⟩⟩ := inv4 ih hd hk hs
      exact ⟨ss, rs, h3, h3', rfl, h4, by rw [evaluate4 e1 e2 e3 e4]; rfl⟩
    · -- action
      obtain ⟨t1, t2, s1, s2, rfl, rfl, ⟨i, rfl, e1⟩, ⟨a, rfl, e2⟩⟩ := inv2 ih hd hk hs
      exact ⟨a, _, rfl, by rw [evaluate2 e1 e2]; rfl⟩
    · -- rule
      obtain ⟨t1, rfl, s, rs, h3, rfl, h4, e1⟩ := inv1 ih hd hk hs
      exact ⟨[s], rs, by simp, by simpa using h3, by simp, by simpa [stmtsPlaces] using h4,
        by rw [evaluate1 e1]; rfl⟩
    · -- rules rule
      obtain ⟨t1, t2, s1, s2, rfl, rfl, ⟨ss, rs, h3, h3', rfl, h4, e1⟩, ⟨s, rs2, h5, rfl, h6, e2⟩⟩ :=
        inv2 ih hd hk hs
      refine ⟨ss ++ [s], rs ++ rs2, by simp, ?_, by simp,
        by rw [stmtsPlaces_concat]; exact placed_append h4 h6, by rw [evaluate2 e1 e2]; rfl⟩
      intro s' hs'
      rcases List.mem_append.1 hs' with h | h
      · exact h3' s' h
      · rw [List.mem_singleton.1 h]; exact h5

/-! ## From the syntax to a tree -/

theorem Scanned.cons_right {tokens : List Token} {w : List (Terminal × Nat)} {tok : Token}
    {ts : List Token} (h : Scanned tokens w (tok :: ts)) : ∃ x i w', w = [(x, i)] ++ w' ∧
      terminalOf tok = .ok (some x) ∧ Scanned tokens w' ts := by
  cases h with
  | cons h1 h2 => exact ⟨_, _, _, rfl, h1.2, h2⟩

theorem Scanned.split_right {tokens : List Token} {w : List (Terminal × Nat)}
    {us vs : List Token} (h : Scanned tokens w (us ++ vs)) :
    ∃ u v, w = u ++ v ∧ Scanned tokens u us ∧ Scanned tokens v vs := by
  induction us generalizing w with
  | nil => exact ⟨[], w, rfl, .nil, h⟩
  | cons x us ih =>
    cases h with
    | cons h1 h2 =>
      obtain ⟨u, v, rfl, h3, h4⟩ := ih h2
      exact ⟨_ :: u, v, rfl, .cons h1 h3, h4⟩

theorem Scanned.nil_right {tokens : List Token} {w : List (Terminal × Nat)}
    (h : Scanned tokens w []) : w = [] := by cases h; rfl

/-- Some tree derives the scanned terminals from the symbol. -/
def Parses (s : GSym Terminal Nonterminal) (w : List (Terminal × Nat)) : Prop :=
  ∃ t, Tree.Derives advSyntax t s w

/-- Some trees derive the scanned terminals from the symbols. -/
def ParsesAll (rhs : List (GSym Terminal Nonterminal)) (w : List (Terminal × Nat)) : Prop :=
  ∃ ts, Tree.DeriveAll advSyntax ts rhs w

theorem ParsesAll.nil : ParsesAll [] [] := ⟨[], deriveAll_nil.2 ⟨rfl, rfl⟩⟩

theorem ParsesAll.cons {s : GSym Terminal Nonterminal} {rhs : List (GSym Terminal Nonterminal)}
    {u v : List (Terminal × Nat)} : Parses s u → ParsesAll rhs v → ParsesAll (s :: rhs) (u ++ v)
  | ⟨t, h⟩, ⟨ts, h'⟩ => ⟨t :: ts, deriveAll_cons.2 ⟨t, ts, u, v, rfl, rfl, h, h'⟩⟩

theorem Parses.terminal (x : Terminal) (i : Nat) : Parses (.t x) [(x, i)] :=
  ⟨.leaf x i, derives_leaf.2 ⟨rfl, rfl⟩⟩

theorem Parses.rule (a : Nat) {A : Nonterminal} {rhs : List (GSym Terminal Nonterminal)}
    {w : List (Terminal × Nat)} (hr : (a, A, rhs) ∈ advSyntax) :
    ParsesAll rhs w → Parses (.n A) w
  | ⟨ts, h⟩ => ⟨.node a ts, derives_node.2 ⟨A, rhs, rfl, hr, h⟩⟩

theorem Parses.one {s : GSym Terminal Nonterminal} {w : List (Terminal × Nat)} (h : Parses s w) :
    ParsesAll [s] w := by simpa using ParsesAll.cons h .nil

theorem parses_elem {tokens : List Token} {w : List (Terminal × Nat)} {e : Elem}
    (h : Scanned tokens w e.tokens) : Parses (.n .fragment) w := by
  cases e with
  | name s rep =>
    cases rep with
    | none =>
      obtain ⟨x, i, w, rfl, h1, k1⟩ := Scanned.cons_right h
      cases h1; cases k1.nil_right
      exact Parses.rule 17 (by decide) (Parses.terminal _ i).one
    | zeroOrMore =>
      obtain ⟨x, i, w, rfl, h1, k1⟩ := Scanned.cons_right h
      obtain ⟨y, j, w, rfl, h2, k2⟩ := Scanned.cons_right k1
      cases h1; cases h2; cases k2.nil_right
      exact Parses.rule 16 (by decide) (.cons (.terminal _ i) (Parses.terminal _ j).one)
    | oneOrMore =>
      obtain ⟨x, i, w, rfl, h1, k1⟩ := Scanned.cons_right h
      obtain ⟨y, j, w, rfl, h2, k2⟩ := Scanned.cons_right k1
      cases h1; cases h2; cases k2.nil_right
      exact Parses.rule 15 (by decide) (.cons (.terminal _ i) (Parses.terminal _ j).one)
  | str s =>
    obtain ⟨x, i, w, rfl, h1, k1⟩ := Scanned.cons_right h
    cases h1; cases k1.nil_right
    exact Parses.rule 18 (by decide) (Parses.terminal _ i).one
  | call func arg =>
    obtain ⟨x, i, w, rfl, h1, k1⟩ := Scanned.cons_right h
    obtain ⟨y, j, w, rfl, h2, k2⟩ := Scanned.cons_right k1
    obtain ⟨z, k, w, rfl, h3, k3⟩ := Scanned.cons_right k2
    obtain ⟨z', l, w, rfl, h4, k4⟩ := Scanned.cons_right k3
    cases h1; cases h2; cases h3; cases h4; cases k4.nil_right
    exact Parses.rule 19 (by decide) (.cons (.terminal _ i) (.cons (.terminal _ j)
      (.cons (.terminal _ k) (Parses.terminal _ l).one)))

theorem parses_more {tokens : List Token} {w : List (Terminal × Nat)} {alt : List Elem}
    (h : Scanned tokens w (alt.flatMap fun e => [.tildeOp] ++ e.tokens)) {w0 : List (Terminal × Nat)}
    (h0 : Parses (.n .alt) w0) : Parses (.n .alt) (w0 ++ w) := by
  induction alt generalizing w w0 with
  | nil => rw [h.nil_right]; simpa using h0
  | cons e alt ih =>
    rw [List.flatMap_cons] at h
    obtain ⟨u, v, rfl, h1, h2⟩ := h.split_right
    obtain ⟨x, i, u, rfl, h3, h4⟩ := Scanned.cons_right h1
    cases h3
    rw [← List.append_assoc]
    exact ih h2 (Parses.rule 13 (by decide) (.cons h0 (.cons (.terminal _ i) (parses_elem h4).one)))

theorem parses_elems {tokens : List Token} {w : List (Terminal × Nat)} {alt : List Elem}
    (hne : alt ≠ []) (h : Scanned tokens w (elemTokens alt)) : Parses (.n .alt) w := by
  cases alt with
  | nil => exact absurd rfl hne
  | cons e alt =>
    rw [elemTokens, List.map_cons, intersperse_flatten, List.flatMap_map] at h
    obtain ⟨u, v, rfl, h1, h2⟩ := h.split_right
    exact parses_more h2 (Parses.rule 14 (by decide) (parses_elem h1).one)

theorem parses_action {tokens : List Token} {w : List (Terminal × Nat)} {a : Text}
    (h : Scanned tokens w (actionTokens (some a))) : Parses (.n .action) w := by
  obtain ⟨x, i, w, rfl, h1, k1⟩ := Scanned.cons_right h
  obtain ⟨y, j, w, rfl, h2, k2⟩ := Scanned.cons_right k1
  cases h1; cases h2; cases k2.nil_right
  exact Parses.rule 21 (by decide) (.cons (.terminal _ i) (Parses.terminal _ j).one)

theorem parses_alt {tokens : List Token} {w : List (Terminal × Nat)} {a : Alt}
    (hne : a.elems ≠ []) (h : Scanned tokens w a.tokens) : Parses (.n .alt2) w := by
  obtain ⟨elems, action⟩ := a
  cases action with
  | none =>
    have e : (Alt.mk elems none).tokens = elemTokens elems := by
      simp [Alt.tokens, actionTokens, elemTokens]
    rw [e] at h
    exact Parses.rule 11 (by decide) (parses_elems hne h).one
  | some a =>
    obtain ⟨u, v, rfl, h1, h2⟩ := Scanned.split_right h
    exact Parses.rule 12 (by decide) (.cons (parses_elems hne h1) (parses_action h2).one)

theorem parses_moreAlts {tokens : List Token} {w : List (Terminal × Nat)} {alts : List Alt}
    (hne : ∀ a ∈ alts, a.elems ≠ [])
    (h : Scanned tokens w (alts.flatMap fun a => [.pipe] ++ a.tokens))
    {w0 : List (Terminal × Nat)} (h0 : Parses (.n .rhs) w0) : Parses (.n .rhs) (w0 ++ w) := by
  induction alts generalizing w w0 with
  | nil => rw [h.nil_right]; simpa using h0
  | cons a alts ih =>
    rw [List.flatMap_cons] at h
    obtain ⟨u, v, rfl, h1, h2⟩ := h.split_right
    obtain ⟨x, i, u, rfl, h3, h4⟩ := Scanned.cons_right h1
    cases h3
    rw [← List.append_assoc]
    exact ih (fun a h => hne a (by simp [h])) h2 (Parses.rule 9 (by decide)
      (.cons h0 (.cons (.terminal _ i) (parses_alt (hne a (by simp)) h4).one)))

theorem parses_stmt {tokens : List Token} {w : List (Terminal × Nat)} {s : Stmt} (hok : s.Ok)
    (h : Scanned tokens w s.tokens) : Parses (.n .rule) w := by
  obtain ⟨lhs, alts⟩ := s
  obtain ⟨x, i, w, rfl, h1, k1⟩ := Scanned.cons_right h
  obtain ⟨y, j, w, rfl, h2, k2⟩ := Scanned.cons_right k1
  cases h1; cases h2
  rcases hok with ⟨act, e⟩ | ⟨hne, hall⟩
  · dsimp only at e
    subst e
    cases act with
    | none =>
      have e : ((([⟨[], none⟩] : List Alt).map Alt.tokens).intersperse [.pipe]).flatten ++
          [Token.semicolon] = [.semicolon] := rfl
      replace k2 : Scanned tokens w [.semicolon] := e ▸ k2
      obtain ⟨z, k, w, rfl, h3, k3⟩ := Scanned.cons_right k2
      cases h3; cases k3.nil_right
      exact Parses.rule 6 (by decide)
        (.cons (.terminal _ i) (.cons (.terminal _ j) (Parses.terminal _ k).one))
    | some a =>
      have e : ((([⟨[], some a⟩] : List Alt).map Alt.tokens).intersperse [.pipe]).flatten ++
          [Token.semicolon] = actionTokens (some a) ++ [.semicolon] := rfl
      replace k2 : Scanned tokens w (actionTokens (some a) ++ [.semicolon]) := e ▸ k2
      obtain ⟨w, w', rfl, h3, h4⟩ := k2.split_right
      obtain ⟨z, k, w', rfl, h5, k5⟩ := Scanned.cons_right h4
      cases h5; cases k5.nil_right
      exact Parses.rule 7 (by decide) (.cons (.terminal _ i) (.cons (.terminal _ j)
        (.cons (parses_action h3) (Parses.terminal _ k).one)))
  · cases alts with
    | nil => exact absurd rfl hne
    | cons alt alts =>
      obtain ⟨w, w', rfl, h3, h4⟩ := Scanned.split_right k2
      obtain ⟨z, k, w', rfl, h5, k5⟩ := Scanned.cons_right h4
      cases h5; cases k5.nil_right
      refine Parses.rule (rhs := [.t .ident, .t .bnfOp, .n .rhs, .t .semicolon]) 8 (by decide)
        (.cons (.terminal _ i) (.cons (.terminal _ j) (.cons ?_ (Parses.terminal _ k).one)))
      dsimp only at h3
      rw [List.map_cons, intersperse_flatten, List.flatMap_map] at h3
      obtain ⟨u, v, rfl, h6, h7⟩ := h3.split_right
      exact parses_moreAlts (fun a h => hall a (by simp [h])) h7
        (Parses.rule 10 (by decide) (parses_alt (hall alt (by simp)) h6).one)

theorem parses_moreStmts {tokens : List Token} {w : List (Terminal × Nat)} {stmts : List Stmt}
    (hok : ∀ s ∈ stmts, s.Ok) (h : Scanned tokens w (stmts.flatMap Stmt.tokens))
    {w0 : List (Terminal × Nat)} (h0 : Parses (.n .rules) w0) : Parses (.n .rules) (w0 ++ w) := by
  induction stmts generalizing w w0 with
  | nil => rw [h.nil_right]; simpa using h0
  | cons s stmts ih =>
    rw [List.flatMap_cons] at h
    obtain ⟨u, v, rfl, h1, h2⟩ := h.split_right
    rw [← List.append_assoc]
    exact ih (fun s h => hok s (by simp [h])) h2
      (Parses.rule 23 (by decide) (.cons h0 (parses_stmt (hok s (by simp)) h1).one))

theorem parses_stmts {tokens : List Token} {w : List (Terminal × Nat)} {stmts : List Stmt}
    (hne : stmts ≠ []) (hok : ∀ s ∈ stmts, s.Ok)
    (h : Scanned tokens w (stmts.flatMap Stmt.tokens)) : Parses (.n .rules) w := by
  cases stmts with
  | nil => exact absurd rfl hne
  | cons s stmts =>
    rw [List.flatMap_cons] at h
    obtain ⟨u, v, rfl, h1, h2⟩ := h.split_right
    exact parses_moreStmts (fun s h => hok s (by simp [h])) h2
      (Parses.rule 22 (by decide) (parses_stmt (hok s (by simp)) h1).one)

theorem parses_decl {tokens : List Token} {w : List (Terminal × Nat)} {d : Decl} (hok : d.Ok)
    (h : Scanned tokens w d.tokens) : Parses (.n .decl) w := by
  cases d with
  | rule s => exact Parses.rule 4 (by decide) (parses_stmt hok h).one
  | lexer stmts =>
    obtain ⟨x, i, w, rfl, h1, k1⟩ := Scanned.cons_right h
    obtain ⟨y, j, w, rfl, h2, k2⟩ := Scanned.cons_right k1
    obtain ⟨w, w', rfl, h3, h4⟩ := Scanned.split_right k2
    obtain ⟨z, k, w', rfl, h5, k5⟩ := Scanned.cons_right h4
    cases h1; cases h2; cases h5; cases k5.nil_right
    exact Parses.rule 5 (by decide) (Parses.rule (A := .lexer) (rhs := [.t .lexerKeyword, .t .lbrace, .n .rules,
      .t .rbrace]) 20 (by decide) (.cons (.terminal _ i)
      (.cons (.terminal _ j) (.cons (parses_stmts hok.1 hok.2 h3) (Parses.terminal _ k).one)))).one

theorem parses_moreDecls {tokens : List Token} {w : List (Terminal × Nat)} {decls : List Decl}
    (hok : ∀ d ∈ decls, d.Ok) (h : Scanned tokens w (decls.flatMap Decl.tokens))
    {w0 : List (Terminal × Nat)} (h0 : Parses (.n .start) w0) : Parses (.n .start) (w0 ++ w) := by
  induction decls generalizing w w0 with
  | nil => rw [h.nil_right]; simpa using h0
  | cons s decls ih =>
    rw [List.flatMap_cons] at h
    obtain ⟨u, v, rfl, h1, h2⟩ := h.split_right
    rw [← List.append_assoc]
    exact ih (fun s h => hok s (by simp [h])) h2
      (Parses.rule 2 (by decide) (.cons h0 (parses_decl (hok s (by simp)) h1).one))

/-- Every file has a tree. -/
theorem parses_file {tokens ts : List Token} {w : List (Terminal × Nat)} {decls : List Decl}
    (hb : IsFile decls ts) (h : Scanned tokens w ts) : Parses (.n .start) w := by
  obtain ⟨h1, h2, rfl⟩ := hb
  cases decls with
  | nil => exact absurd rfl h1
  | cons s decls =>
    rw [List.flatMap_cons] at h
    obtain ⟨u, v, rfl, h3, h4⟩ := h.split_right
    exact parses_moreDecls (fun s h => h2 s (by simp [h])) h4
      (Parses.rule 3 (by decide) (parses_decl (h2 s (by simp)) h3).one)

/-! ## The syntax is unambiguous -/

/-- Things written one after the other with a separator can be told apart. -/
theorem joined_unique {α : Type} {f : α → List Token} {sep : Token}
    (hf : ∀ a b, f a = f b → a = b) (hsep : ∀ a, sep ∉ f a) {a a' : α} {l l' : List α}
    (h : f a ++ l.flatMap (fun b => [sep] ++ f b) = f a' ++ l'.flatMap fun b => [sep] ++ f b) :
    a = a' ∧ l = l' := by
  induction l generalizing a a' l' with
  | nil =>
    cases l' with
    | nil =>
      simp only [List.flatMap_nil, List.append_nil] at h
      exact ⟨hf _ _ h, rfl⟩
    | cons b' l' =>
      simp only [List.flatMap_nil, List.append_nil, List.flatMap_cons] at h
      exact absurd (by rw [h]; simp) (hsep a)
  | cons b l ih =>
    cases l' with
    | nil =>
      simp only [List.flatMap_nil, List.append_nil, List.flatMap_cons] at h
      exact absurd (by rw [← h]; simp) (hsep a')
    | cons b' l' =>
      simp only [List.flatMap_cons, List.cons_append, List.nil_append] at h
      obtain ⟨h1, h2⟩ := split_unique (hsep a) (hsep a') h
      obtain ⟨rfl, rfl⟩ := ih (a := b) (a' := b') (l' := l') (by simpa using h2)
      exact ⟨hf _ _ h1, rfl⟩

theorem elem_unique {e e' : Elem} (h : e.tokens = e'.tokens) : e = e' := by
  rcases e with ⟨s, _ | _ | _⟩ | _ | _ <;> rcases e' with ⟨s', _ | _ | _⟩ | _ | _ <;>
    simp_all [Elem.tokens]

theorem elem_tokens {e : Elem} {t : Token} (h : t ∈ e.tokens) :
    (∃ s, t = .ident s) ∨ (∃ s, t = .string s) ∨ t = .mul ∨ t = .plus ∨ t = .lparen ∨ t = .rparen := by
  rcases e with ⟨s, _ | _ | _⟩ | _ | _ <;>
    simp only [Elem.tokens, List.mem_cons, List.not_mem_nil, or_false] at h
  · exact .inl ⟨_, h⟩
  · rcases h with rfl | rfl <;> simp
  · rcases h with rfl | rfl <;> simp
  · exact .inr (.inl ⟨_, h⟩)
  · rcases h with rfl | rfl | rfl | rfl <;> simp

/-- The tokens of joined things. -/
theorem mem_joined {α : Type} {f : α → List Token} {sep t : Token} {l : List α}
    (h : t ∈ ((l.map f).intersperse [sep]).flatten) : t = sep ∨ ∃ a ∈ l, t ∈ f a := by
  cases l with
  | nil => simp at h
  | cons a l =>
    rw [List.map_cons, intersperse_flatten, List.flatMap_map] at h
    rcases List.mem_append.1 h with h | h
    · exact .inr ⟨a, by simp, h⟩
    · obtain ⟨b, hb, h⟩ := List.mem_flatMap.1 h
      rcases List.mem_append.1 h with h | h
      · exact .inl (List.mem_singleton.1 h)
      · exact .inr ⟨b, by simp [hb], h⟩

theorem elems_tokens {l : List Elem} {t : Token} (h : t ∈ elemTokens l) :
    (∃ s, t = .ident s) ∨ (∃ s, t = .string s) ∨ t = .mul ∨ t = .plus ∨ t = .lparen ∨
      t = .rparen ∨ t = .tildeOp := by
  rcases mem_joined h with h | ⟨e, -, h⟩
  · simp [h]
  · rcases elem_tokens h with h | h | h | h | h | h <;> simp [h]

theorem elems_unique {l l' : List Elem} (h : elemTokens l = elemTokens l') : l = l' := by
  have hne : ∀ (e : Elem) (l : List Elem), elemTokens (e :: l) ≠ [] := by
    intro e l h
    rw [elemTokens, List.map_cons, intersperse_flatten] at h
    have := (List.append_eq_nil_iff.1 h).1
    rcases e with ⟨s, _ | _ | _⟩ | _ | _ <;> simp [Elem.tokens] at this
  cases l with
  | nil =>
    cases l' with
    | nil => rfl
    | cons e' l' => exact absurd h.symm (hne e' l')
  | cons e l =>
    cases l' with
    | nil => exact absurd h (hne e l)
    | cons e' l' =>
      simp only [elemTokens, List.map_cons, intersperse_flatten, List.flatMap_map] at h
      obtain ⟨rfl, rfl⟩ := joined_unique (f := Elem.tokens) (fun _ _ => elem_unique)
        (fun e h => by rcases elem_tokens h with ⟨s, h⟩ | ⟨s, h⟩ | h | h | h | h <;> cases h) h
      rfl

theorem alt_tokens {a : Alt} {t : Token} (h : t ∈ a.tokens) :
    (∃ s, t = .ident s) ∨ (∃ s, t = .string s) ∨ t = .mul ∨ t = .plus ∨ t = .lparen ∨
      t = .rparen ∨ t = .tildeOp ∨ t = .gtOp := by
  rcases List.mem_append.1 h with h | h
  · rcases elems_tokens h with h | h | h | h | h | h | h <;> simp [h]
  · rcases a with ⟨_, _ | _⟩
    · simp [actionTokens] at h
    · simp only [actionTokens, List.mem_cons, List.not_mem_nil, or_false] at h
      rcases h with rfl | rfl <;> simp

theorem alt_unique {a a' : Alt} (h : a.tokens = a'.tokens) : a = a' := by
  have hg : ∀ l : List Elem, Token.gtOp ∉ elemTokens l := by
    intro l h
    rcases elems_tokens h with ⟨s, h⟩ | ⟨s, h⟩ | h | h | h | h | h <;> cases h
  obtain ⟨l, a⟩ := a
  obtain ⟨l', a'⟩ := a'
  change elemTokens l ++ actionTokens a = elemTokens l' ++ actionTokens a' at h
  cases a with
  | none =>
    cases a' with
    | none =>
      simp only [actionTokens, List.append_nil] at h
      rw [elems_unique h]
    | some b =>
      simp only [actionTokens, List.append_nil] at h
      exact absurd (by rw [h]; simp) (hg l)
  | some b =>
    cases a' with
    | none =>
      simp only [actionTokens, List.append_nil] at h
      exact absurd (by rw [← h]; simp) (hg l')
    | some b' =>
      simp only [actionTokens] at h
      obtain ⟨h1, h2⟩ := split_unique (hg l) (hg l') h
      cases h2
      rw [elems_unique h1]

theorem alts_tokens {l : List Alt} {t : Token} (h : t ∈ altTokens l) :
    (∃ s, t = .ident s) ∨ (∃ s, t = .string s) ∨ t = .mul ∨ t = .plus ∨ t = .lparen ∨
      t = .rparen ∨ t = .tildeOp ∨ t = .gtOp ∨ t = .pipe := by
  rcases mem_joined h with h | ⟨e, -, h⟩
  · simp [h]
  · rcases alt_tokens h with h | h | h | h | h | h | h | h <;> simp [h]

theorem alts_unique {l l' : List Alt} (hl : l ≠ []) (hl' : l' ≠ [])
    (h : altTokens l = altTokens l') : l = l' := by
  cases l with
  | nil => exact absurd rfl hl
  | cons a l =>
    cases l' with
    | nil => exact absurd rfl hl'
    | cons a' l' =>
      simp only [altTokens, List.map_cons, intersperse_flatten, List.flatMap_map] at h
      obtain ⟨rfl, rfl⟩ := joined_unique (f := Alt.tokens) (fun _ _ => alt_unique)
        (fun e h => by rcases alt_tokens h with ⟨s, h⟩ | ⟨s, h⟩ | h | h | h | h | h | h <;> cases h) h
      rfl

theorem Stmt.Ok.ne {s : Stmt} (h : s.Ok) : s.alts ≠ [] := by
  rcases h with ⟨a, h⟩ | h
  · rw [h]; simp
  · exact h.1

theorem alts_semicolon (l : List Alt) : Token.semicolon ∉ altTokens l := by
  intro h
  rcases alts_tokens h with ⟨s, h⟩ | ⟨s, h⟩ | h | h | h | h | h | h | h <;> cases h

/-- A statement can be told apart from what comes after it. -/
theorem stmt_unique {s s' : Stmt} {r r' : List Token} (hs : s.Ok) (hs' : s'.Ok)
    (h : s.tokens ++ r = s'.tokens ++ r') : s = s' ∧ r = r' := by
  obtain ⟨lhs, alts⟩ := s
  obtain ⟨lhs', alts'⟩ := s'
  simp only [Stmt.tokens, List.cons_append, List.append_assoc,
    List.cons.injEq, Token.ident.injEq, true_and, List.nil_append] at h
  obtain ⟨rfl, h⟩ := h
  obtain ⟨h1, h2⟩ := split_unique (alts_semicolon alts) (alts_semicolon alts') h
  have e : alts = alts' := alts_unique hs.ne hs'.ne h1
  exact ⟨by rw [e], h2⟩

theorem stmts_unique {l l' : List Stmt} {r r' : List Token} (hl : ∀ s ∈ l, s.Ok)
    (hl' : ∀ s ∈ l', s.Ok)
    (h : l.flatMap Stmt.tokens ++ .rbrace :: r = l'.flatMap Stmt.tokens ++ .rbrace :: r') :
    l = l' ∧ r = r' := by
  induction l generalizing l' with
  | nil =>
    cases l' with
    | nil => exact ⟨rfl, by simpa using h⟩
    | cons s' l' => simp [Stmt.tokens] at h
  | cons s l ih =>
    cases l' with
    | nil => simp [Stmt.tokens] at h
    | cons s' l' =>
      simp only [List.flatMap_cons, List.append_assoc] at h
      obtain ⟨e1, h1⟩ := stmt_unique (hl s (by simp)) (hl' s' (by simp)) h
      obtain ⟨e2, h2⟩ := ih (fun s h => hl s (by simp [h])) (fun s h => hl' s (by simp [h])) h1
      exact ⟨by rw [e1, e2], h2⟩

theorem decls_unique {l l' : List Decl} (hl : ∀ d ∈ l, d.Ok) (hl' : ∀ d ∈ l', d.Ok)
    (h : l.flatMap Decl.tokens = l'.flatMap Decl.tokens) : l = l' := by
  induction l generalizing l' with
  | nil =>
    cases l' with
    | nil => rfl
    | cons d' l' => cases d' <;> simp [Decl.tokens, Stmt.tokens] at h
  | cons d l ih =>
    cases l' with
    | nil => cases d <;> simp [Decl.tokens, Stmt.tokens] at h
    | cons d' l' =>
      have ih' := @ih l' (fun s h => hl s (by simp [h])) (fun s h => hl' s (by simp [h]))
      simp only [List.flatMap_cons] at h
      cases d with
      | rule s =>
        cases d' with
        | rule s' =>
          obtain ⟨e1, h1⟩ := stmt_unique (s := s) (s' := s') (hl (.rule s) (by simp))
            (hl' (.rule s') (by simp)) h
          rw [ih' h1, e1]
        | lexer ss' => simp [Decl.tokens, Stmt.tokens] at h
      | lexer ss =>
        cases d' with
        | rule s' => simp [Decl.tokens, Stmt.tokens] at h
        | lexer ss' =>
          simp only [Decl.tokens, List.cons_append, List.append_assoc, List.cons.injEq, true_and,
            List.nil_append] at h
          obtain ⟨e1, h1⟩ := stmts_unique (hl (.lexer ss) (by simp)).2 (hl' (.lexer ss') (by simp)).2 h
          rw [ih' h1, e1]

/-- Tokens are those of at most one file. -/
theorem isFile_unique {l l' : List Decl} {ts : List Token} (h : IsFile l ts) (h' : IsFile l' ts) :
    l = l' := decls_unique h.2.1 h'.2.1 (h.2.2.symm.trans h'.2.2)

/-! ## Scanning -/

theorem terminal_of_plain {t : Token} (h : Plain t) : ∃ x, terminalOf t = .ok (some x) := by
  obtain ⟨h1, h2⟩ := h
  cases t
  case whitespace => exact absurd rfl h1
  case error a b => exact absurd rfl (h2 a b)
  all_goals exact ⟨_, rfl⟩

theorem stmt_plain {s : Stmt} {t : Token} (h : t ∈ s.tokens) : Plain t := by
  have h' : t ∈ (.ident s.lhs :: .bnfOp :: (altTokens s.alts ++ [.semicolon]) : List Token) := h
  simp only [List.mem_cons, List.mem_append, List.not_mem_nil, or_false] at h'
  rcases h' with rfl | rfl | h | rfl
  · simp [Plain]
  · simp [Plain]
  · rcases alts_tokens h with ⟨s, h⟩ | ⟨s, h⟩ | h | h | h | h | h | h | h <;> simp [h, Plain]
  · simp [Plain]

theorem file_plain {decls : List Decl} {ts : List Token} (h : IsFile decls ts) :
    ∀ t ∈ ts, Plain t := by
  obtain ⟨-, -, rfl⟩ := h
  intro t ht
  obtain ⟨d, -, ht⟩ := List.mem_flatMap.1 ht
  cases d with
  | rule s => exact stmt_plain ht
  | lexer ss =>
    have h' : t ∈ (.lexerKeyword :: .lbrace :: (ss.flatMap Stmt.tokens ++ [.rbrace]) : List Token) := ht
    simp only [List.mem_cons, List.mem_append, List.not_mem_nil, or_false] at h'
    rcases h' with rfl | rfl | h | rfl
    · simp [Plain]
    · simp [Plain]
    · obtain ⟨s, -, h⟩ := List.mem_flatMap.1 h
      exact stmt_plain h
    · simp [Plain]

/-- Any tokens can be scanned. -/
theorem scanned_exists (ts : List Token) : ∀ pre : List Token, (∀ t ∈ ts, Plain t) →
    ∃ v, Scanned (pre ++ ts) v ts ∧ From pre.length v := by
  induction ts with
  | nil => exact fun _ _ => ⟨[], .nil, .nil _⟩
  | cons t ts ih =>
    intro pre h
    obtain ⟨v, hv, hk⟩ := ih (pre ++ [t]) fun t h' => h t (by simp [h'])
    obtain ⟨x, hx⟩ := terminal_of_plain (h t (by simp))
    rw [List.append_assoc] at hv
    exact ⟨(x, pre.length) :: v, .cons ⟨by simp, hx⟩ hv, .cons x (by simpa using hk)⟩

theorem scanned_same {tokens tokens' ts : List Token} {w w' : List (Terminal × Nat)}
    (h : Scanned tokens w ts) (h' : Scanned tokens' w' ts) : w.map Prod.fst = w'.map Prod.fst := by
  induction h generalizing w' with
  | nil => cases h'; rfl
  | cons h1 _ ih =>
    cases h' with
    | cons h2 h3 =>
      have := h1.2.symm.trans h2.2
      simp only [Except.ok.injEq, Option.some.injEq] at this
      rw [List.map_cons, List.map_cons, ih h3, this]

/-- The scanned terminals of tokens. -/
theorem scanned_tokens (v : List (Terminal × Nat)) : ∀ pre : List Token,
    ∃ v', Scanned (pre ++ v.map (·.1.token)) v' (v.map (·.1.token)) ∧ v'.map Prod.fst = v.map Prod.fst ∧
      From pre.length v' := by
  induction v with
  | nil => exact fun _ => ⟨[], .nil, rfl, .nil _⟩
  | cons x v ih =>
    intro pre
    obtain ⟨v', h1, h2, h3⟩ := ih (pre ++ [x.1.token])
    rw [List.append_assoc] at h1
    refine ⟨(x.1, pre.length) :: v', .cons ⟨by simp, terminal_of_token x.1⟩ h1, ?_,
      .cons x.1 (by simpa using h3)⟩
    rw [List.map_cons, List.map_cons, h2]

/-- The recognizer tells whether some file starts with the tokens. -/
theorem viable_iff {R : Recognizer Terminal} (hR : R.Correct advSyntax Nonterminal.start)
    {tokens ts : List Token} {w : List (Terminal × Nat)} (hs : Scanned tokens w ts) :
    R.viable w = true ↔ Viable ts := by
  have hplain : ∀ {tokens : List Token} {w ts}, Scanned tokens w ts → ∀ t ∈ ts, Plain t := by
    intro tokens w ts hs
    induction hs with
    | nil => simp
    | cons h1 _ ih =>
      intro t ht
      rcases List.mem_cons.1 ht with rfl | ht
      · constructor
        · rintro rfl
          exact nomatch h1.2
        · rintro a b rfl
          exact nomatch h1.2
      · exact ih t ht
  rw [hR.viable]
  constructor
  · rintro ⟨v, tree, ht⟩
    obtain ⟨w', hw', hk⟩ := scanned_exists ts [] (hplain hs)
    obtain ⟨v', hv', ev, hk'⟩ := scanned_tokens v ts
    rw [List.nil_append] at hw'
    have hw2 : Scanned (ts ++ v.map (·.1.token)) w' ts := by
      refine hw'.imp ?_
      intro x tok h
      refine ⟨?_, h.2⟩
      rw [List.getElem?_append_left]
      · exact h.1
      · exact (List.getElem?_eq_some_iff.1 h.1).1
    obtain ⟨tree', ht'⟩ := derives_relabel tree _ _ (w' ++ v') ht (by
      rw [List.map_append, List.map_append, ev, scanned_same hs hw'])
    obtain ⟨decls, hf, -⟩ := eval_spec tree' 0 _ _ _ ht'
      (hk.append (by simpa [hw'.length] using hk')) (hw2.append hv')
    exact ⟨_, decls, hf⟩
  · rintro ⟨more, decls, hf⟩
    have hp := file_plain hf
    obtain ⟨u, hu, -⟩ := scanned_exists (ts ++ more) [] hp
    obtain ⟨u1, u2, rfl, hu1, hu2⟩ := hu.split_right
    obtain ⟨tree, ht⟩ := parses_file hf hu
    obtain ⟨tree', ht'⟩ := derives_relabel tree _ _ (w ++ u2) ht (by
      rw [List.map_append, List.map_append, scanned_same hs hu1])
    exact ⟨u2, tree', ht'⟩

/-- What the loop that scans does. -/
theorem scan_spec {R : Recognizer Terminal} (hR : R.Correct advSyntax Nonterminal.start)
    (rest tail : List (Token × Nat × Nat)) :
    ∀ (done : List (Token × Nat × Nat)) (w : List (Terminal × Nat)), (∀ t ∈ rest, Plain t.1) →
      Viable (done.map (·.1)) →
      Scanned ((done ++ rest ++ tail).map (·.1)) w (done.map (·.1)) → From 0 w →
      (∃ t line col, FirstBad (done ++ rest) t line col ∧
        scan R w done.length (rest ++ tail) =
          .error ⟨"parse failed", line % 2 ^ 32, col % 2 ^ 32, some t⟩) ∨
      ∃ w', scan R w done.length (rest ++ tail) = scan R w' (done ++ rest).length tail ∧
        Viable ((done ++ rest).map (·.1)) ∧
        Scanned ((done ++ rest ++ tail).map (·.1)) w' ((done ++ rest).map (·.1)) ∧ From 0 w' := by
  induction rest with
  | nil =>
    intro done w _ hv hs hk
    exact .inr ⟨w, by simp, by simpa using hv, by simpa using hs, hk⟩
  | cons t rest ih =>
    intro done w hp hv hs hk
    obtain ⟨t, line, col⟩ := t
    obtain ⟨x, hx⟩ := terminal_of_plain (hp (t, line, col) (by simp))
    dsimp only at hx
    have hs' : Scanned ((done ++ (t, line, col) :: rest ++ tail).map (·.1)) (w ++ [(x, done.length)])
        (done.map (·.1) ++ [t]) := by
      refine hs.append (.cons ⟨?_, hx⟩ .nil)
      simp
    have hvi := viable_iff hR hs'
    have er : scan R w done.length ((t, line, col) :: rest ++ tail) =
        if R.viable (w ++ [(x, done.length)]) = true then
          scan R (w ++ [(x, done.length)]) (done.length + 1) (rest ++ tail)
        else .error ⟨"parse failed", line % 2 ^ 32, col % 2 ^ 32, some t⟩ := by
      rw [List.cons_append]
      conv => lhs; unfold scan
      rw [hx]
    rw [er]
    by_cases h : R.viable (w ++ [(x, done.length)]) = true
    · rw [if_pos h]
      have := ih (done ++ [(t, line, col)]) (w ++ [(x, done.length)]) (fun t h => hp t (by simp [h]))
        (by simpa using hvi.1 h) (by simpa using hs')
        (hk.append (by simpa [hs.length] using From.cons x (.nil _)))
      simpa using this
    · rw [if_neg h]
      exact .inl ⟨t, line, col, ⟨done, rest, rfl, hv, fun h' => h (hvi.2 h')⟩, rfl⟩

theorem viable_nil : Viable [] :=
  ⟨_, [.rule ⟨[], [⟨[], none⟩]⟩], ⟨by simp, by simpa [Decl.Ok] using .inl ⟨none, rfl⟩, rfl⟩⟩

/-! ## Positions -/

theorem zipWith_clause (lhs : Text) (i : Nat) (alts : List Alt) : ∀ k,
    (List.zipWith (Alt.place lhs i) (altStarts k alts) alts).map Place.clause =
      alts.map fun a => ⟨lhs, a.elems, a.action⟩ := by
  induction alts with
  | nil => intro k; rfl
  | cons a alts ih =>
    intro k
    have := ih (k + a.tokens.length + 1)
    unfold altStarts at this ⊢
    rw [List.map_cons, starts, List.zipWith_cons_cons, List.map_cons, this]
    rfl

theorem places_clause (k : Nat) (s : Stmt) : (s.places k).map Place.clause = s.clauses :=
  zipWith_clause _ _ _ _

theorem stmtsPlaces_clause (ss : List Stmt) : ∀ k,
    (stmtsPlaces k ss).map Place.clause = ss.flatMap Stmt.clauses := by
  induction ss with
  | nil => intro k; rfl
  | cons s ss ih => intro k; rw [stmtsPlaces, List.map_append, places_clause, ih, List.flatMap_cons]

theorem parserPlaces_clause (ds : List Decl) : ∀ k,
    (parserPlaces k ds).map Place.clause = parserClauses ds := by
  induction ds with
  | nil => intro k; rfl
  | cons d ds ih =>
    intro k
    cases d with
    | rule s =>
      rw [parserPlaces, List.map_append, places_clause, ih]
      simp [parserClauses]
    | lexer ss =>
      rw [parserPlaces, ih]
      simp [parserClauses]

theorem lexerPlaces_clause (ds : List Decl) : ∀ k,
    (lexerPlaces k ds).map Place.clause = lexerClauses ds := by
  induction ds with
  | nil => intro k; rfl
  | cons d ds ih =>
    intro k
    cases d with
    | rule s =>
      rw [lexerPlaces, ih]
      simp [lexerClauses]
    | lexer ss =>
      rw [lexerPlaces, List.map_append, stmtsPlaces_clause, ih]
      simp [lexerClauses]

theorem placed_clause {rs : List Rule} {cs : List Place} (h : List.Forall₂ Rule.Placed rs cs) :
    rs.map Rule.clause = cs.map Place.clause := by
  induction h with
  | nil => rfl
  | cons h1 _ ih => rw [List.map_cons, List.map_cons, h1.1, ih]

/-- What is loaded, up to building the grammar. -/
inductive LoadSpec (p : Profile) (parse : Text → Except String Hir) (text : Text) :
    Res (Except LoadError AdvancedGrammar) → Prop
  | parse {ts : List (Token × Nat × Nat)} {rest : Text} {t : Token} {line col : Nat} :
      Lexed [] text ts rest → Ends rest → FirstBad ts t line col →
      LoadSpec p parse text (.ok (.error ⟨"parse failed", line % 2 ^ 32, col % 2 ^ 32, some t⟩))
  | lex {ts : List (Token × Nat × Nat)} {line col line' col' : Nat} :
      LexError text ts line col line' col' → Viable (ts.map (·.1)) →
      LoadSpec p parse text (.ok (.error ⟨"failed to tokenize", line' % 2 ^ 32, col' % 2 ^ 32, none⟩))
  | incomplete {ts : List (Token × Nat × Nat)} : Lexed [] text ts [] → Viable (ts.map (·.1)) →
      (∀ decls, ¬ IsFile decls (ts.map (·.1))) →
      LoadSpec p parse text (.ok (.error ⟨"parse failed: no result", 0, 0, none⟩))
  | unloadable {ts : List (Token × Nat × Nat)} {decls : List Decl} : Lexed [] text ts [] →
      IsFile decls (ts.map (·.1)) → ¬ Loadable decls → LoadSpec p parse text .panic
  | build {ts : List (Token × Nat × Nat)} {decls : List Decl} {rs : List Rule}
      {lex : Option (List Rule)} : Lexed [] text ts [] → IsFile decls (ts.map (·.1)) →
      Loadable decls → List.Forall₂ Rule.Placed rs (parserPlaces 0 decls) →
      List.Forall₂ Rule.Placed (lex.getD []) (lexerPlaces 0 decls) →
      LoadSpec p parse text (Advanced.build p parse (.start rs lex))

theorem load_spec {R : Recognizer Terminal} (hR : R.Correct advSyntax Nonterminal.start)
    (p : Profile) (parse : Text → Except String Hir) (text : Text) :
    LoadSpec p parse text (load R p parse text) := by
  obtain ⟨r, e, hr⟩ := tokenize_spec text
  unfold load
  rw [e, Res.bind_ok]
  -- the tokens before an error
  have key : ∀ {ts : List (Token × Nat × Nat)} {bad : Text}, Lexed [] text ts bad → Ends bad →
      ∀ tail, (∃ t line col, FirstBad ts t line col ∧ scan R [] 0 (ts ++ tail) =
        .error ⟨"parse failed", line % 2 ^ 32, col % 2 ^ 32, some t⟩) ∨
      ∃ w, scan R [] 0 (ts ++ tail) = scan R w ts.length tail ∧ Viable (ts.map (·.1)) ∧
        Scanned ((ts ++ tail).map (·.1)) w (ts.map (·.1)) ∧ From 0 w := by
    intro ts bad hl _ tail
    have := scan_spec hR ts tail [] [] (lexed_plain hl) viable_nil .nil (.nil 0)
    simpa using this
  have bad : ∀ {ts : List (Token × Nat × Nat)} {bad : Text} {line col line' col' : Nat},
      Lexed [] text ts bad → Ends bad → LexError text ts line col line' col' →
      LoadSpec p parse text (match scan R [] 0 (ts ++ [(.error line' col', line, col)]) with
        | .error e => .ok (.error e)
        | .ok scanned => finish R p parse
            ((ts ++ [(Token.error line' col', line, col)]).map (·.1)) scanned) := by
    intro ts bad line col line' col' hl hb he
    rcases key hl hb [(.error line' col', line, col)] with ⟨t, l, c, h1, h2⟩ | ⟨w, h1, h2, -⟩
    · rw [h2]
      exact .parse hl hb h1
    · rw [h1]
      exact .lex he h2
  cases hr with
  | @ok ts hl =>
    rw [List.nil_append]
    rcases key hl (.inl rfl) [] with ⟨t, l, c, h1, h2⟩ | ⟨w, h1, h2, h3⟩
    · rw [List.append_nil] at h2
      rw [h2]
      exact .parse hl (.inl rfl) h1
    · obtain ⟨h3, h4⟩ := h3
      rw [List.append_nil] at h1 h3
      rw [h1]
      unfold scan finish
      dsimp only
      cases et : R.tree w with
      | none =>
        refine .incomplete hl h2 ?_
        intro decls hf
        obtain ⟨t, ht⟩ := parses_file hf h3
        exact absurd et (Option.isSome_iff_ne_none.1 (hR.complete w t ht))
      | some t =>
        obtain ⟨decls, hf, hcase⟩ := eval_spec t 0 _ _ _ (hR.sound w t et) h4 h3
        dsimp only
        rcases hcase with ⟨hld, rs, lex, e, k1, k2, -⟩ | ⟨hld, e⟩
        · rw [e, Res.bind_ok]
          exact .build hl hf hld k1 k2
        · rw [e]
          exact .unloadable hl hf hld
  | @stuck ts mid b hl et hs =>
    simp only [List.nil_append]
    exact bad hl (.inr (.inl hs)) ⟨mid, b, et, hl, rfl, rfl, .inl ⟨hs, rfl, rfl⟩⟩
  | @«open» ts mid b hl et hs =>
    simp only [List.nil_append]
    exact bad hl (.inr (.inr hs)) ⟨mid, b, et, hl, rfl, rfl, .inr ⟨hs, rfl, rfl⟩⟩

end Advanced

end Verif
