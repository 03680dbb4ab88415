import Verif.Proofs.LoadLex

/-! # Proofs about parsing in the basic loader -/

namespace Verif

/-! ## Trees -/

/-- Induction over trees. -/
theorem Tree.induct {T : Type} {p : Tree T → Prop} (hl : ∀ t i, p (.leaf t i))
    (hn : ∀ a args, (∀ t ∈ args, p t) → p (.node a args)) (t : Tree T) : p t :=
  Tree.rec (motive_1 := p) (motive_2 := fun ts => ∀ t ∈ ts, p t) hl hn
    (by simp) (fun t ts h1 h2 => by
      intro t' ht'
      rcases List.mem_cons.1 ht' with rfl | ht'
      · exact h1
      · exact h2 t' ht') t

section Generic

variable {T N : Type}

theorem derives_leaf {rules : Syntax T N} {t : T} {i : Nat} {s : GSym T N} {w : List (T × Nat)} :
    Tree.Derives rules (.leaf t i) s w ↔ s = .t t ∧ w = [(t, i)] := by rw [Tree.Derives]

theorem derives_node {rules : Syntax T N} {a : Nat} {args : List (Tree T)} {s : GSym T N}
    {w : List (T × Nat)} : Tree.Derives rules (.node a args) s w ↔
      ∃ A rhs, s = .n A ∧ (a, A, rhs) ∈ rules ∧ Tree.DeriveAll rules args rhs w := by
  rw [Tree.Derives]

theorem deriveAll_nil {rules : Syntax T N} {args : List (Tree T)} {w : List (T × Nat)} :
    Tree.DeriveAll rules args [] w ↔ args = [] ∧ w = [] := by
  cases args with
  | nil => rw [Tree.DeriveAll]; simp
  | cons t ts =>
    rw [Tree.DeriveAll]
    constructor
    · rintro ⟨s, rhs', u, v, h, -⟩; cases h
    · rintro ⟨h, -⟩; cases h

theorem deriveAll_cons {rules : Syntax T N} {args : List (Tree T)} {s : GSym T N}
    {rhs : List (GSym T N)} {w : List (T × Nat)} :
    Tree.DeriveAll rules args (s :: rhs) w ↔ ∃ t ts u v, args = t :: ts ∧ w = u ++ v ∧
      Tree.Derives rules t s u ∧ Tree.DeriveAll rules ts rhs v := by
  cases args with
  | nil =>
    rw [Tree.DeriveAll]
    constructor
    · rintro ⟨h, -⟩; cases h
    · rintro ⟨t, ts, u, v, h, -⟩; cases h
  | cons t ts =>
    rw [Tree.DeriveAll]
    constructor
    · rintro ⟨s', rhs', u, v, h, h1, h2, h3⟩
      cases h
      exact ⟨t, ts, u, v, rfl, h1, h2, h3⟩
    · rintro ⟨t', ts', u, v, h, h1, h2, h3⟩
      cases h
      exact ⟨s, rhs, u, v, rfl, h1, h2, h3⟩

theorem derives_terminal {rules : Syntax T N} {t : Tree T} {x : T} {w : List (T × Nat)}
    (h : Tree.Derives rules t (.t x) w) : ∃ i, t = .leaf x i ∧ w = [(x, i)] := by
  cases t with
  | leaf y i =>
    rw [derives_leaf] at h
    obtain ⟨h1, h2⟩ := h
    cases h1
    exact ⟨i, rfl, h2⟩
  | node a args =>
    rw [derives_node] at h
    obtain ⟨A, rhs, h1, -⟩ := h
    cases h1

end Generic

namespace Basic

/-! ## From the tree to the rules -/

/-- The value of an element. -/
def Elem.fragment : Elem → Option Fragment
  | .name s rep => some ⟨s, rep⟩
  | .unit => none

/-- The rules of a statement. -/
def Stmt.rules (s : Stmt) : List Rule := s.choices.map fun alt => ⟨s.lhs, alt.filterMap Elem.fragment⟩

/-- The scanned terminals stand for the tokens. -/
def Scanned (tokens : List Token) : List (Terminal × Nat) → List Token → Prop :=
  List.Forall₂ fun x tok => tokens[x.2]? = some tok ∧ terminalOf tok = .ok (some x.1)

theorem Scanned.split {tokens : List Token} {u v : List (Terminal × Nat)} {ts : List Token}
    (h : Scanned tokens (u ++ v) ts) :
    ∃ us vs, ts = us ++ vs ∧ Scanned tokens u us ∧ Scanned tokens v vs := by
  induction u generalizing ts with
  | nil => exact ⟨[], ts, rfl, .nil, h⟩
  | cons x u ih =>
    cases h with
    | cons h1 h2 =>
      obtain ⟨us, vs, rfl, h3, h4⟩ := ih h2
      exact ⟨_ :: us, vs, rfl, .cons h1 h3, h4⟩

theorem Scanned.append {tokens : List Token} {u v : List (Terminal × Nat)} {us vs : List Token}
    (h : Scanned tokens u us) (h' : Scanned tokens v vs) : Scanned tokens (u ++ v) (us ++ vs) := by
  induction h with
  | nil => exact h'
  | cons h1 _ ih => exact .cons h1 ih

theorem Scanned.single {tokens : List Token} {x : Terminal} {i : Nat} {ts : List Token}
    (h : Scanned tokens [(x, i)] ts) :
    ∃ tok, ts = [tok] ∧ tokens[i]? = some tok ∧ terminalOf tok = .ok (some x) := by
  cases h with
  | cons h1 h2 =>
    cases h2
    exact ⟨_, rfl, h1.1, h1.2⟩

theorem terminal_token {tok : Token} {x : Terminal} (h : terminalOf tok = .ok (some x)) :
    match x with
    | .bnfOp => tok = .bnfOp
    | .ident => ∃ s, tok = .ident s
    | .pipe => tok = .pipe
    | .opMul => tok = .mul
    | .opPlus => tok = .plus
    | .semicolon => tok = .semicolon
    | .lparen => tok = .lparen
    | .rparen => tok = .rparen := by
  cases tok <;> simp only [terminalOf, Except.ok.injEq, Option.some.injEq, reduceCtorEq] at h <;>
    subst h <;> simp

/-- What a tree for a symbol evaluates to. -/
def EvalSpec (tokens : List Token) (t : Tree Terminal) (ts : List Token) :
    GSym Terminal Nonterminal → Prop
  | .t .ident => ∃ s, ts = [.ident s] ∧ evaluate tokens t = .ok (.ident s)
  | .t x => ∃ tok, ts = [tok] ∧ terminalOf tok = .ok (some x) ∧ evaluate tokens t = .ok .none
  | .n .start => ∃ stmts, IsBnf stmts ts ∧ evaluate tokens t = .ok (.rules (stmts.flatMap Stmt.rules))
  | .n .rule => ∃ s : Stmt, s.Ok ∧ ts = s.tokens ∧ evaluate tokens t = .ok (.rules s.rules)
  | .n .rhs => ∃ alts : List (List Elem), alts ≠ [] ∧ (∀ alt ∈ alts, alt ≠ []) ∧
      ts = ((alts.map fun alt => alt.flatMap Elem.tokens).intersperse [.pipe]).flatten ∧
      evaluate tokens t = .ok (.rhs (alts.map fun alt => alt.filterMap Elem.fragment))
  | .n .alt => ∃ alt : List Elem, alt ≠ [] ∧ ts = alt.flatMap Elem.tokens ∧
      evaluate tokens t = .ok (.alt (alt.filterMap Elem.fragment))
  | .n .fragment => ∃ e : Elem, ts = e.tokens ∧ evaluate tokens t = .ok (.fragment e.fragment)

theorem evaluateAll_cons {tokens : List Token} {t : Tree Terminal} {ts : List (Tree Terminal)} {v : Value}
    (h : evaluate tokens t = .ok v) : evaluateAll tokens (t :: ts) = (do
      let vs ← evaluateAll tokens ts
      .ok (v :: vs)) := by
  rw [evaluateAll, h]; rfl

theorem evaluateAll_nil {tokens : List Token} : evaluateAll tokens [] = .ok [] := by rw [evaluateAll]

theorem evaluate_node {tokens : List Token} {a : Nat} {args : List (Tree Terminal)} :
    evaluate tokens (.node a args) = (do product a (← evaluateAll tokens args)) := by rw [evaluate]

theorem intersperse_concat {α : Type} (sep : α) (l : List α) (h : l ≠ []) (x : α) :
    (l ++ [x]).intersperse sep = l.intersperse sep ++ [sep, x] := by
  induction l with
  | nil => exact absurd rfl h
  | cons a l ih =>
    cases l with
    | nil => rfl
    | cons b l =>
      have := ih (by simp)
      rw [List.cons_append, List.cons_append, List.intersperse_cons_cons, List.intersperse_cons_cons,
        ← List.cons_append, this]
      rfl

theorem eval_spec {tokens : List Token} (t : Tree Terminal) :
    ∀ s w ts, Tree.Derives bnfSyntax t s w → Scanned tokens w ts → EvalSpec tokens t ts s := by
  induction t using Tree.induct with
  | hl x i =>
    intro s w ts hd hs
    rw [derives_leaf] at hd
    obtain ⟨rfl, rfl⟩ := hd
    obtain ⟨tok, rfl, h1, h2⟩ := hs.single
    cases x
    case ident =>
      obtain ⟨s, rfl⟩ := terminal_token h2
      refine ⟨s, rfl, ?_⟩
      rw [evaluate, leaf, if_pos rfl, Res.index_ok.2 h1, Res.bind_ok]
      rfl
    all_goals
      refine ⟨tok, rfl, h2, ?_⟩
      rw [evaluate, leaf]
      rfl
  | hn a args ih =>
    intro s w ts hd hs
    rw [derives_node] at hd
    obtain ⟨A, rhs, rfl, hr, hd⟩ := hd
    unfold bnfSyntax at hr
    simp only [List.mem_cons, List.not_mem_nil, or_false, Prod.mk.injEq] at hr
    rcases hr with h | h | h | h | h | h | h | h | h | h | h | h <;> obtain ⟨rfl, rfl, rfl⟩ := h
    · -- start rule
      simp only [deriveAll_cons, deriveAll_nil] at hd
      obtain ⟨t1, _, u1, _, rfl, rfl, d1, t2, _, u2, _, rfl, rfl, d2, rfl, rfl⟩ := hd
      obtain ⟨s1, s2, rfl, hs1, hs2⟩ := hs.split
      rw [List.append_nil] at hs2
      obtain ⟨stmts, ⟨h1, h2, rfl⟩, e1⟩ := ih t1 (by simp) _ _ _ d1 hs1
      obtain ⟨st, h3, rfl, e2⟩ := ih t2 (by simp) _ _ _ d2 hs2
      refine ⟨stmts ++ [st], ⟨by simp, ?_, by simp⟩, ?_⟩
      · intro s hs
        rcases List.mem_append.1 hs with hs | hs
        · exact h2 s hs
        · rw [List.mem_singleton.1 hs]; exact h3
      · rw [evaluate_node, evaluateAll_cons e1, evaluateAll_cons e2, evaluateAll_nil]
        simp [product]
    · -- rule
      simp only [deriveAll_cons, deriveAll_nil] at hd
      obtain ⟨t1, _, u1, _, rfl, rfl, d1, rfl, rfl⟩ := hd
      rw [List.append_nil] at hs
      obtain ⟨st, h3, rfl, e2⟩ := ih t1 (by simp) _ _ _ d1 hs
      refine ⟨[st], ⟨by simp, by simpa using h3, by simp⟩, ?_⟩
      rw [evaluate_node, evaluateAll_cons e2, evaluateAll_nil]
      simp [product]
    · -- ident bnf_op semicolon
      simp only [deriveAll_cons, deriveAll_nil] at hd
      obtain ⟨t1, _, u1, _, rfl, rfl, d1, t2, _, u2, _, rfl, rfl, d2, t3, _, u3, _, rfl, rfl, d3,
        rfl, rfl⟩ := hd
      obtain ⟨s1, _, rfl, hs1, hs'⟩ := hs.split
      obtain ⟨s2, s3, rfl, hs2, hs3⟩ := hs'.split
      rw [List.append_nil] at hs3
      obtain ⟨s, rfl, e1⟩ := ih t1 (by simp) _ _ _ d1 hs1
      obtain ⟨tok2, rfl, k2, e2⟩ := ih t2 (by simp) _ _ _ d2 hs2
      obtain ⟨tok3, rfl, k3, e3⟩ := ih t3 (by simp) _ _ _ d3 hs3
      rw [terminal_token k2, terminal_token k3]
      refine ⟨⟨s, []⟩, by simp [Stmt.Ok], rfl, ?_⟩
      rw [evaluate_node, evaluateAll_cons e1, evaluateAll_cons e2, evaluateAll_cons e3,
        evaluateAll_nil]
      simp [product, Stmt.rules, Stmt.choices]
    · -- ident bnf_op rhs semicolon
      simp only [deriveAll_cons, deriveAll_nil] at hd
      obtain ⟨t1, _, u1, _, rfl, rfl, d1, t2, _, u2, _, rfl, rfl, d2, t3, _, u3, _, rfl, rfl, d3,
        t4, _, u4, _, rfl, rfl, d4, rfl, rfl⟩ := hd
      obtain ⟨s1, _, rfl, hs1, hs'⟩ := hs.split
      obtain ⟨s2, _, rfl, hs2, hs''⟩ := hs'.split
      obtain ⟨s3, s4, rfl, hs3, hs4⟩ := hs''.split
      rw [List.append_nil] at hs4
      obtain ⟨s, rfl, e1⟩ := ih t1 (by simp) _ _ _ d1 hs1
      obtain ⟨tok2, rfl, k2, e2⟩ := ih t2 (by simp) _ _ _ d2 hs2
      obtain ⟨alts, h1, h2, rfl, e3⟩ := ih t3 (by simp) _ _ _ d3 hs3
      obtain ⟨tok4, rfl, k4, e4⟩ := ih t4 (by simp) _ _ _ d4 hs4
      rw [terminal_token k2, terminal_token k4]
      refine ⟨⟨s, alts⟩, h2, rfl, ?_⟩
      rw [evaluate_node, evaluateAll_cons e1, evaluateAll_cons e2, evaluateAll_cons e3,
        evaluateAll_cons e4, evaluateAll_nil]
      simp [product, Stmt.rules, Stmt.choices, h1]
    · -- rhs pipe alt
      simp only [deriveAll_cons, deriveAll_nil] at hd
      obtain ⟨t1, _, u1, _, rfl, rfl, d1, t2, _, u2, _, rfl, rfl, d2, t3, _, u3, _, rfl, rfl, d3,
        rfl, rfl⟩ := hd
      obtain ⟨s1, _, rfl, hs1, hs'⟩ := hs.split
      obtain ⟨s2, s3, rfl, hs2, hs3⟩ := hs'.split
      rw [List.append_nil] at hs3
      obtain ⟨alts, h1, h2, rfl, e1⟩ := ih t1 (by simp) _ _ _ d1 hs1
      obtain ⟨tok2, rfl, k2, e2⟩ := ih t2 (by simp) _ _ _ d2 hs2
      obtain ⟨alt, h3, rfl, e3⟩ := ih t3 (by simp) _ _ _ d3 hs3
      rw [terminal_token k2]
      refine ⟨alts ++ [alt], by simp, ?_, ?_, ?_⟩
      · intro s hs
        rcases List.mem_append.1 hs with hs | hs
        · exact h2 s hs
        · rw [List.mem_singleton.1 hs]; exact h3
      · rw [List.map_append, List.map_singleton, intersperse_concat _ _ (by simpa using h1)]
        simp
      · rw [evaluate_node, evaluateAll_cons e1, evaluateAll_cons e2, evaluateAll_cons e3,
          evaluateAll_nil]
        simp [product]
    · -- alt
      simp only [deriveAll_cons, deriveAll_nil] at hd
      obtain ⟨t1, _, u1, _, rfl, rfl, d1, rfl, rfl⟩ := hd
      rw [List.append_nil] at hs
      obtain ⟨alt, h3, rfl, e1⟩ := ih t1 (by simp) _ _ _ d1 hs
      refine ⟨[alt], by simp, by simpa using h3, by simp, ?_⟩
      rw [evaluate_node, evaluateAll_cons e1, evaluateAll_nil]
      simp [product]
    · -- alt fragment
      simp only [deriveAll_cons, deriveAll_nil] at hd
      obtain ⟨t1, _, u1, _, rfl, rfl, d1, t2, _, u2, _, rfl, rfl, d2, rfl, rfl⟩ := hd
      obtain ⟨s1, s2, rfl, hs1, hs2⟩ := hs.split
      rw [List.append_nil] at hs2
      obtain ⟨alt, h1, rfl, e1⟩ := ih t1 (by simp) _ _ _ d1 hs1
      obtain ⟨e, rfl, e2⟩ := ih t2 (by simp) _ _ _ d2 hs2
      refine ⟨alt ++ [e], by simp, by simp, ?_⟩
      rw [evaluate_node, evaluateAll_cons e1, evaluateAll_cons e2, evaluateAll_nil]
      simp only [Res.bind_ok, product, List.getD_cons_zero, List.getD_cons_succ,
        List.filterMap_append]
      cases e <;> rfl
    · -- fragment
      simp only [deriveAll_cons, deriveAll_nil] at hd
      obtain ⟨t1, _, u1, _, rfl, rfl, d1, rfl, rfl⟩ := hd
      rw [List.append_nil] at hs
      obtain ⟨e, rfl, e1⟩ := ih t1 (by simp) _ _ _ d1 hs
      refine ⟨[e], by simp, by simp, ?_⟩
      rw [evaluate_node, evaluateAll_cons e1, evaluateAll_nil]
      cases e <;> rfl
    · -- ident op_plus
      simp only [deriveAll_cons, deriveAll_nil] at hd
      obtain ⟨t1, _, u1, _, rfl, rfl, d1, t2, _, u2, _, rfl, rfl, d2, rfl, rfl⟩ := hd
      obtain ⟨s1, s2, rfl, hs1, hs2⟩ := hs.split
      rw [List.append_nil] at hs2
      obtain ⟨s, rfl, e1⟩ := ih t1 (by simp) _ _ _ d1 hs1
      obtain ⟨tok2, rfl, k2, e2⟩ := ih t2 (by simp) _ _ _ d2 hs2
      rw [terminal_token k2]
      refine ⟨.name s .oneOrMore, rfl, ?_⟩
      rw [evaluate_node, evaluateAll_cons e1, evaluateAll_cons e2, evaluateAll_nil]
      rfl
    · -- ident op_mul
      simp only [deriveAll_cons, deriveAll_nil] at hd
      obtain ⟨t1, _, u1, _, rfl, rfl, d1, t2, _, u2, _, rfl, rfl, d2, rfl, rfl⟩ := hd
      obtain ⟨s1, s2, rfl, hs1, hs2⟩ := hs.split
      rw [List.append_nil] at hs2
      obtain ⟨s, rfl, e1⟩ := ih t1 (by simp) _ _ _ d1 hs1
      obtain ⟨tok2, rfl, k2, e2⟩ := ih t2 (by simp) _ _ _ d2 hs2
      rw [terminal_token k2]
      refine ⟨.name s .zeroOrMore, rfl, ?_⟩
      rw [evaluate_node, evaluateAll_cons e1, evaluateAll_cons e2, evaluateAll_nil]
      rfl
    · -- ident
      simp only [deriveAll_cons, deriveAll_nil] at hd
      obtain ⟨t1, _, u1, _, rfl, rfl, d1, rfl, rfl⟩ := hd
      rw [List.append_nil] at hs
      obtain ⟨s, rfl, e1⟩ := ih t1 (by simp) _ _ _ d1 hs
      refine ⟨.name s .none, rfl, ?_⟩
      rw [evaluate_node, evaluateAll_cons e1, evaluateAll_nil]
      rfl
    · -- lparen rparen
      simp only [deriveAll_cons, deriveAll_nil] at hd
      obtain ⟨t1, _, u1, _, rfl, rfl, d1, t2, _, u2, _, rfl, rfl, d2, rfl, rfl⟩ := hd
      obtain ⟨s1, s2, rfl, hs1, hs2⟩ := hs.split
      rw [List.append_nil] at hs2
      obtain ⟨tok1, rfl, k1, e1⟩ := ih t1 (by simp) _ _ _ d1 hs1
      obtain ⟨tok2, rfl, k2, e2⟩ := ih t2 (by simp) _ _ _ d2 hs2
      rw [terminal_token k1, terminal_token k2]
      refine ⟨.unit, rfl, ?_⟩
      rw [evaluate_node, evaluateAll_cons e1, evaluateAll_cons e2, evaluateAll_nil]
      rfl

/-! ## From the syntax to a tree -/

theorem Scanned.cons_right {tokens : List Token} {w : List (Terminal × Nat)} {tok : Token}
    {ts : List Token} (h : Scanned tokens w (tok :: ts)) : ∃ x i w', w = [(x, i)] ++ w' ∧
      terminalOf tok = .ok (some x) ∧ Scanned tokens w' ts := by
  cases h with
  | cons h1 h2 => exact ⟨_, _, _, rfl, h1.2, h2⟩

theorem Scanned.split_right {tokens : List Token} {w : List (Terminal × Nat)}
    {us vs : List Token} (h : Scanned tokens w (us ++ vs)) :
    ∃ u v, w = u ++ v ∧ Scanned tokens u us ∧ Scanned tokens v vs := by
  induction us generalizing w with
  | nil => exact ⟨[], w, rfl, .nil, h⟩
  | cons x us ih =>
    cases h with
    | cons h1 h2 =>
      obtain ⟨u, v, rfl, h3, h4⟩ := ih h2
      exact ⟨_ :: u, v, rfl, .cons h1 h3, h4⟩

theorem Scanned.nil_right {tokens : List Token} {w : List (Terminal × Nat)}
    (h : Scanned tokens w []) : w = [] := by cases h; rfl

/-- Some tree derives the scanned terminals from the symbol. -/
def Parses (s : GSym Terminal Nonterminal) (w : List (Terminal × Nat)) : Prop :=
  ∃ t, Tree.Derives bnfSyntax t s w

/-- Some trees derive the scanned terminals from the symbols. -/
def ParsesAll (rhs : List (GSym Terminal Nonterminal)) (w : List (Terminal × Nat)) : Prop :=
  ∃ ts, Tree.DeriveAll bnfSyntax ts rhs w

theorem ParsesAll.nil : ParsesAll [] [] := ⟨[], deriveAll_nil.2 ⟨rfl, rfl⟩⟩

theorem ParsesAll.cons {s : GSym Terminal Nonterminal} {rhs : List (GSym Terminal Nonterminal)}
    {u v : List (Terminal × Nat)} : Parses s u → ParsesAll rhs v → ParsesAll (s :: rhs) (u ++ v)
  | ⟨t, h⟩, ⟨ts, h'⟩ => ⟨t :: ts, deriveAll_cons.2 ⟨t, ts, u, v, rfl, rfl, h, h'⟩⟩

theorem Parses.terminal (x : Terminal) (i : Nat) : Parses (.t x) [(x, i)] :=
  ⟨.leaf x i, derives_leaf.2 ⟨rfl, rfl⟩⟩

theorem Parses.rule (a : Nat) {A : Nonterminal} {rhs : List (GSym Terminal Nonterminal)}
    {w : List (Terminal × Nat)} (hr : (a, A, rhs) ∈ bnfSyntax) :
    ParsesAll rhs w → Parses (.n A) w
  | ⟨ts, h⟩ => ⟨.node a ts, derives_node.2 ⟨A, rhs, rfl, hr, h⟩⟩

theorem Parses.one {s : GSym Terminal Nonterminal} {w : List (Terminal × Nat)} (h : Parses s w) :
    ParsesAll [s] w := by simpa using ParsesAll.cons h .nil

theorem parses_elem {tokens : List Token} {w : List (Terminal × Nat)} {e : Elem}
    (h : Scanned tokens w e.tokens) : Parses (.n .fragment) w := by
  cases e with
  | name s rep =>
    cases rep with
    | none =>
      obtain ⟨x, i, w, rfl, h1, k1⟩ := Scanned.cons_right h
      cases h1; cases k1.nil_right
      exact Parses.rule 12 (by decide) (Parses.terminal _ i).one
    | zeroOrMore =>
      obtain ⟨x, i, w, rfl, h1, k1⟩ := Scanned.cons_right h
      obtain ⟨y, j, w, rfl, h2, k2⟩ := Scanned.cons_right k1
      cases h1; cases h2; cases k2.nil_right
      exact Parses.rule 11 (by decide) (.cons (.terminal _ i) (Parses.terminal _ j).one)
    | oneOrMore =>
      obtain ⟨x, i, w, rfl, h1, k1⟩ := Scanned.cons_right h
      obtain ⟨y, j, w, rfl, h2, k2⟩ := Scanned.cons_right k1
      cases h1; cases h2; cases k2.nil_right
      exact Parses.rule 10 (by decide) (.cons (.terminal _ i) (Parses.terminal _ j).one)
  | unit =>
    obtain ⟨x, i, w, rfl, h1, k1⟩ := Scanned.cons_right h
    obtain ⟨y, j, w, rfl, h2, k2⟩ := Scanned.cons_right k1
    cases h1; cases h2; cases k2.nil_right
    exact Parses.rule 13 (by decide) (.cons (.terminal _ i) (Parses.terminal _ j).one)

theorem parses_more {tokens : List Token} {w : List (Terminal × Nat)} {alt : List Elem}
    (h : Scanned tokens w (alt.flatMap Elem.tokens)) {w0 : List (Terminal × Nat)}
    (h0 : Parses (.n .alt) w0) : Parses (.n .alt) (w0 ++ w) := by
  induction alt generalizing w w0 with
  | nil => rw [h.nil_right]; simpa using h0
  | cons e alt ih =>
    rw [List.flatMap_cons] at h
    obtain ⟨u, v, rfl, h1, h2⟩ := h.split_right
    rw [← List.append_assoc]
    exact ih h2 (Parses.rule 8 (by decide) (.cons h0 (parses_elem h1).one))

theorem parses_alt {tokens : List Token} {w : List (Terminal × Nat)} {alt : List Elem}
    (hne : alt ≠ []) (h : Scanned tokens w (alt.flatMap Elem.tokens)) : Parses (.n .alt) w := by
  cases alt with
  | nil => exact absurd rfl hne
  | cons e alt =>
    rw [List.flatMap_cons] at h
    obtain ⟨u, v, rfl, h1, h2⟩ := h.split_right
    exact parses_more h2 (Parses.rule 9 (by decide) (parses_elem h1).one)

theorem parses_moreAlts {tokens : List Token} {w : List (Terminal × Nat)} {alts : List (List Elem)}
    (hne : ∀ alt ∈ alts, alt ≠ [])
    (h : Scanned tokens w (alts.flatMap fun alt => .pipe :: alt.flatMap Elem.tokens))
    {w0 : List (Terminal × Nat)} (h0 : Parses (.n .rhs) w0) : Parses (.n .rhs) (w0 ++ w) := by
  induction alts generalizing w w0 with
  | nil => rw [h.nil_right]; simpa using h0
  | cons alt alts ih =>
    rw [List.flatMap_cons] at h
    obtain ⟨u, v, rfl, h1, h2⟩ := h.split_right
    obtain ⟨x, i, u, rfl, h3, h4⟩ := Scanned.cons_right h1
    cases h3
    rw [← List.append_assoc]
    exact ih (fun alt h => hne alt (by simp [h])) h2 (Parses.rule 6 (by decide)
      (.cons h0 (.cons (.terminal _ i) (parses_alt (hne alt (by simp)) h4).one)))

theorem intersperse_flatten {α : Type} (sep a : List α) (l : List (List α)) :
    ((a :: l).intersperse sep).flatten = a ++ l.flatMap fun b => sep ++ b := by
  induction l generalizing a with
  | nil => simp
  | cons b l ih =>
    rw [List.intersperse_cons_cons, List.flatten_cons, List.flatten_cons, ih]
    simp

theorem parses_stmt {tokens : List Token} {w : List (Terminal × Nat)} {s : Stmt} (hok : s.Ok)
    (h : Scanned tokens w s.tokens) : Parses (.n .rule) w := by
  obtain ⟨lhs, alts⟩ := s
  obtain ⟨x, i, w, rfl, h1, k1⟩ := Scanned.cons_right h
  obtain ⟨y, j, w, rfl, h2, k2⟩ := Scanned.cons_right k1
  cases h1; cases h2
  cases alts with
  | nil =>
    obtain ⟨z, k, w, rfl, h3, k3⟩ := Scanned.cons_right k2
    cases h3; cases k3.nil_right
    exact Parses.rule 4 (by decide)
      (.cons (.terminal _ i) (.cons (.terminal _ j) (Parses.terminal _ k).one))
  | cons alt alts =>
    obtain ⟨w, w', rfl, h3, h4⟩ := Scanned.split_right k2
    obtain ⟨z, k, w', rfl, h5, k5⟩ := Scanned.cons_right h4
    cases h5; cases k5.nil_right
    refine Parses.rule (rhs := [.t .ident, .t .bnfOp, .n .rhs, .t .semicolon]) 5 (by decide)
      (.cons (.terminal _ i) (.cons (.terminal _ j) (.cons ?_ (Parses.terminal _ k).one)))
    dsimp only at h3
    rw [List.map_cons, intersperse_flatten, List.flatMap_map] at h3
    obtain ⟨u, v, rfl, h6, h7⟩ := h3.split_right
    exact parses_moreAlts (fun alt h => hok alt (by simp [h])) h7
      (Parses.rule 7 (by decide) (parses_alt (hok alt (by simp)) h6).one)

theorem parses_moreStmts {tokens : List Token} {w : List (Terminal × Nat)} {stmts : List Stmt}
    (hok : ∀ s ∈ stmts, s.Ok) (h : Scanned tokens w (stmts.flatMap Stmt.tokens))
    {w0 : List (Terminal × Nat)} (h0 : Parses (.n .start) w0) : Parses (.n .start) (w0 ++ w) := by
  induction stmts generalizing w w0 with
  | nil => rw [h.nil_right]; simpa using h0
  | cons s stmts ih =>
    rw [List.flatMap_cons] at h
    obtain ⟨u, v, rfl, h1, h2⟩ := h.split_right
    rw [← List.append_assoc]
    exact ih (fun s h => hok s (by simp [h])) h2
      (Parses.rule 2 (by decide) (.cons h0 (parses_stmt (hok s (by simp)) h1).one))

/-- Every BNF text has a tree. -/
theorem parses_bnf {tokens ts : List Token} {w : List (Terminal × Nat)} {stmts : List Stmt}
    (hb : IsBnf stmts ts) (h : Scanned tokens w ts) : Parses (.n .start) w := by
  obtain ⟨h1, h2, rfl⟩ := hb
  cases stmts with
  | nil => exact absurd rfl h1
  | cons s stmts =>
    rw [List.flatMap_cons] at h
    obtain ⟨u, v, rfl, h3, h4⟩ := h.split_right
    exact parses_moreStmts (fun s h => h2 s (by simp [h])) h4
      (Parses.rule 3 (by decide) (parses_stmt (h2 s (by simp)) h3).one)

/-! ## The syntax is unambiguous -/

/-- A list is split at its first separator in one way. -/
theorem split_unique {α : Type} {x : α} {a a' b b' : List α} (ha : x ∉ a) (ha' : x ∉ a')
    (h : a ++ x :: b = a' ++ x :: b') : a = a' ∧ b = b' := by
  induction a generalizing a' with
  | nil =>
    cases a' with
    | nil => exact ⟨rfl, by simpa using h⟩
    | cons y a' =>
      rw [List.nil_append, List.cons_append, List.cons.injEq] at h
      exact absurd (by simp [h.1]) ha'
  | cons y a ih =>
    cases a' with
    | nil =>
      rw [List.nil_append, List.cons_append, List.cons.injEq] at h
      exact absurd (by simp [h.1]) ha
    | cons z a' =>
      rw [List.cons_append, List.cons_append, List.cons.injEq] at h
      obtain ⟨h1, h2⟩ := ih (fun h => ha (by simp [h])) (fun h => ha' (by simp [h])) h.2
      exact ⟨by rw [h.1, h1], h2⟩

theorem elem_unique {e e' : Elem} {l l' : List Elem}
    (h : e.tokens ++ l.flatMap Elem.tokens = e'.tokens ++ l'.flatMap Elem.tokens) :
    e = e' ∧ l.flatMap Elem.tokens = l'.flatMap Elem.tokens := by
  have hd : ∀ (l : List Elem), (∀ t, l.flatMap Elem.tokens ≠ Token.mul :: t) ∧
      ∀ t, l.flatMap Elem.tokens ≠ Token.plus :: t := by
    intro l
    cases l with
    | nil => simp
    | cons e l =>
      rw [List.flatMap_cons]
      rcases e with ⟨s, _ | _ | _⟩ | _ <;> simp [Elem.tokens]
  rcases e with ⟨s, _ | _ | _⟩ | _ <;> rcases e' with ⟨s', _ | _ | _⟩ | _ <;>
    simp only [Elem.tokens, List.cons_append, List.nil_append, List.cons.injEq, Token.ident.injEq,
      reduceCtorEq, true_and, false_and, and_false] at h
  all_goals try exact absurd h.2 ((hd _).1 _)
  all_goals try exact absurd h.2 ((hd _).2 _)
  all_goals try exact absurd h.2.symm ((hd _).1 _)
  all_goals try exact absurd h.2.symm ((hd _).2 _)
  all_goals first | exact ⟨by rw [h.1], h.2⟩ | exact ⟨rfl, h⟩

theorem elems_unique {l l' : List Elem} (h : l.flatMap Elem.tokens = l'.flatMap Elem.tokens) :
    l = l' := by
  have hne : ∀ e : Elem, e.tokens ≠ [] := by
    intro e; rcases e with ⟨s, _ | _ | _⟩ | _ <;> simp [Elem.tokens]
  induction l generalizing l' with
  | nil =>
    cases l' with
    | nil => rfl
    | cons e l' =>
      rw [List.flatMap_cons] at h
      exact absurd (List.append_eq_nil_iff.1 h.symm).1 (hne e)
  | cons e l ih =>
    cases l' with
    | nil =>
      rw [List.flatMap_cons] at h
      exact absurd (List.append_eq_nil_iff.1 h).1 (hne e)
    | cons e' l' =>
      obtain ⟨rfl, h'⟩ := elem_unique (by simpa only [List.flatMap_cons] using h)
      rw [ih h']

theorem elem_tokens {e : Elem} : Token.pipe ∉ e.tokens ∧ Token.semicolon ∉ e.tokens := by
  rcases e with ⟨s, _ | _ | _⟩ | _ <;> simp [Elem.tokens]

theorem alt_tokens {l : List Elem} :
    Token.pipe ∉ l.flatMap Elem.tokens ∧ Token.semicolon ∉ l.flatMap Elem.tokens := by
  simp only [List.mem_flatMap, not_exists, not_and]
  exact ⟨fun e _ => elem_tokens.1, fun e _ => elem_tokens.2⟩

/-- The tokens of alternatives after the first. -/
abbrev moreTokens (l : List (List Elem)) : List Token :=
  l.flatMap fun alt => .pipe :: alt.flatMap Elem.tokens

theorem alts_unique {a a' : List Elem} {l l' : List (List Elem)}
    (h : a.flatMap Elem.tokens ++ moreTokens l = a'.flatMap Elem.tokens ++ moreTokens l') :
    a = a' ∧ l = l' := by
  induction l generalizing a a' l' with
  | nil =>
    cases l' with
    | nil =>
      simp only [moreTokens, List.flatMap_nil, List.append_nil] at h
      exact ⟨elems_unique h, rfl⟩
    | cons b' l' =>
      simp only [moreTokens, List.flatMap_nil, List.append_nil, List.flatMap_cons] at h
      have : Token.pipe ∈ a.flatMap Elem.tokens := by rw [h]; simp
      exact absurd this alt_tokens.1
  | cons b l ih =>
    cases l' with
    | nil =>
      simp only [moreTokens, List.flatMap_nil, List.append_nil, List.flatMap_cons] at h
      have : Token.pipe ∈ a'.flatMap Elem.tokens := by rw [← h]; simp
      exact absurd this alt_tokens.1
    | cons b' l' =>
      simp only [moreTokens, List.flatMap_cons, List.cons_append] at h
      obtain ⟨h1, h2⟩ := split_unique alt_tokens.1 alt_tokens.1 h
      obtain ⟨rfl, rfl⟩ := ih h2
      exact ⟨elems_unique h1, rfl⟩

/-- The tokens of the right side of a statement. -/
abbrev bodyTokens (l : List (List Elem)) : List Token :=
  ((l.map fun alt => alt.flatMap Elem.tokens).intersperse [.pipe]).flatten

theorem body_cons (a : List Elem) (l : List (List Elem)) :
    bodyTokens (a :: l) = a.flatMap Elem.tokens ++ moreTokens l := by
  rw [bodyTokens, List.map_cons, intersperse_flatten, List.flatMap_map]
  rfl

theorem body_semicolon (l : List (List Elem)) : Token.semicolon ∉ bodyTokens l := by
  cases l with
  | nil => simp [bodyTokens]
  | cons a l =>
    rw [body_cons]
    simp only [List.mem_append, List.mem_flatMap, List.mem_cons, reduceCtorEq, false_or, not_or,
      not_exists, not_and]
    exact ⟨fun e _ => elem_tokens.2, fun b _ e _ => elem_tokens.2⟩

theorem body_unique {l l' : List (List Elem)} (hl : ∀ a ∈ l, a ≠ []) (hl' : ∀ a ∈ l', a ≠ [])
    (h : bodyTokens l = bodyTokens l') : l = l' := by
  have hne : ∀ (a : List Elem) l, a ≠ [] → bodyTokens (a :: l) ≠ bodyTokens [] := by
    intro a l ha h
    rw [body_cons] at h
    have h1 : a.flatMap Elem.tokens = [] := (List.append_eq_nil_iff.1 h).1
    exact ha (elems_unique (l' := []) h1)
  cases l with
  | nil =>
    cases l' with
    | nil => rfl
    | cons a' l' => exact absurd h.symm (hne a' l' (hl' a' (by simp)))
  | cons a l =>
    cases l' with
    | nil => exact absurd h (hne a l (hl a (by simp)))
    | cons a' l' =>
      rw [body_cons, body_cons] at h
      obtain ⟨rfl, rfl⟩ := alts_unique h
      rfl

theorem stmts_unique {l l' : List Stmt} (hl : ∀ s ∈ l, s.Ok) (hl' : ∀ s ∈ l', s.Ok)
    (h : l.flatMap Stmt.tokens = l'.flatMap Stmt.tokens) : l = l' := by
  induction l generalizing l' with
  | nil =>
    cases l' with
    | nil => rfl
    | cons s' l' => simp [Stmt.tokens] at h
  | cons s l ih =>
    cases l' with
    | nil => simp [Stmt.tokens] at h
    | cons s' l' =>
      obtain ⟨lhs, alts⟩ := s
      obtain ⟨lhs', alts'⟩ := s'
      simp only [List.flatMap_cons, Stmt.tokens, List.cons_append, List.append_assoc,
        List.cons.injEq, Token.ident.injEq, true_and, List.nil_append] at h
      obtain ⟨rfl, h⟩ := h
      obtain ⟨h1, h2⟩ := split_unique (body_semicolon _) (body_semicolon _) h
      have e : alts = alts' :=
        body_unique (hl ⟨lhs, alts⟩ (by simp)) (hl' ⟨lhs, alts'⟩ (by simp)) h1
      rw [e, ih (fun s h => hl s (by simp [h])) (fun s h => hl' s (by simp [h])) h2]

/-- Tokens are those of at most one BNF text. -/
theorem isBnf_unique {l l' : List Stmt} {ts : List Token} (h : IsBnf l ts) (h' : IsBnf l' ts) :
    l = l' := stmts_unique h.2.1 h'.2.1 (h.2.2.symm.trans h'.2.2)

/-! ## Scanning -/

/-- A token that `tokenize` returns. -/
def Plain (t : Token) : Prop := t ≠ .whitespace ∧ ∀ a b, t ≠ .error a b

theorem lexed_plain {text rest : Text} {ts : List Token} (h : Lexed text ts rest) :
    ∀ t ∈ ts, Plain t := by
  induction h with
  | done => simp
  | blank _ _ ih => exact ih
  | punct hp _ ih =>
    intro t ht
    rcases List.mem_cons.1 ht with rfl | ht
    · exact punct_token hp
    · exact ih t ht
  | word _ _ _ ih =>
    intro t ht
    rcases List.mem_cons.1 ht with rfl | ht
    · simp [Plain]
    · exact ih t ht

theorem terminal_of_plain {t : Token} (h : Plain t) : ∃ x, terminalOf t = .ok (some x) := by
  obtain ⟨h1, h2⟩ := h
  cases t
  case whitespace => exact absurd rfl h1
  case error a b => exact absurd rfl (h2 a b)
  all_goals exact ⟨_, rfl⟩

/-- What the loop that scans does. -/
theorem scan_spec {R : Recognizer Terminal} (hR : R.Correct bnfSyntax Nonterminal.start)
    (rest : List Token) :
    ∀ (done : List Token) (w : List (Terminal × Nat)), (∀ t ∈ rest, Plain t) →
      Scanned (done ++ rest) w done →
      (scan R w done.length rest = .error ⟨"parse failed", 1, 1, none⟩ ∧
        ∀ stmts, ¬ IsBnf stmts (done ++ rest)) ∨
      ∃ w', scan R w done.length rest = .ok w' ∧ Scanned (done ++ rest) w' (done ++ rest) := by
  induction rest with
  | nil =>
    intro done w _ hs
    exact .inr ⟨w, rfl, by simpa using hs⟩
  | cons t rest ih =>
    intro done w hp hs
    obtain ⟨x, hx⟩ := terminal_of_plain (hp t (by simp))
    have hs' : Scanned (done ++ t :: rest) (w ++ [(x, done.length)]) (done ++ [t]) :=
      hs.append (.cons ⟨by simp, hx⟩ .nil)
    unfold scan
    rw [hx]
    dsimp only
    split
    · have := ih (done ++ [t]) (w ++ [(x, done.length)]) (fun t h => hp t (by simp [h]))
        (by simpa using hs')
      simpa using this
    · rename_i hv
      refine .inl ⟨rfl, ?_⟩
      intro stmts hb
      apply hv
      rw [hR.viable]
      -- scan the rest as well
      have hall : ∀ (ts : List Token) (pre : List Token), (∀ t ∈ ts, Plain t) →
          ∃ v, Scanned (pre ++ ts) v ts := by
        intro ts
        induction ts with
        | nil => exact fun _ _ => ⟨[], .nil⟩
        | cons t ts ih =>
          intro pre h
          obtain ⟨v, hv⟩ := ih (pre ++ [t]) fun t h' => h t (by simp [h'])
          obtain ⟨x, hx⟩ := terminal_of_plain (h t (by simp))
          rw [List.append_assoc] at hv
          exact ⟨(x, pre.length) :: v, .cons ⟨by simp, hx⟩ hv⟩
      obtain ⟨v, hv'⟩ := hall rest (done ++ [t]) fun t h => hp t (by simp [h])
      have hfull : Scanned (done ++ t :: rest) (w ++ [(x, done.length)] ++ v) (done ++ t :: rest) := by
        have := hs'.append (by simpa using hv')
        simpa using this
      obtain ⟨tree, ht⟩ := parses_bnf hb hfull
      exact ⟨v, tree, ht⟩

/-- What is loaded for tokens of a BNF text. -/
theorem load_of_bnf {R : Recognizer Terminal} (hR : R.Correct bnfSyntax Nonterminal.start)
    (p : Profile) {text : Text} {ts : List Token} (hl : Lexed text ts [])
    (htok : tokenize text = .ok (.ok ts)) {stmts : List Stmt} (hb : IsBnf stmts ts) :
    load R p text = build p (.rules (stmts.flatMap Stmt.rules)) := by
  unfold load
  rw [htok, Res.bind_ok]
  dsimp only
  rcases scan_spec hR ts [] [] (lexed_plain hl) .nil with ⟨-, h⟩ | ⟨w, h1, h2⟩
  · exact absurd hb (h stmts)
  · rw [List.length_nil] at h1
    rw [List.nil_append] at h2
    rw [h1]
    dsimp only
    unfold finish
    obtain ⟨t, ht⟩ := parses_bnf hb h2
    obtain ⟨t', ht'⟩ := Option.isSome_iff_exists.1 (hR.complete w t ht)
    rw [ht']
    obtain ⟨stmts', hb', e⟩ := eval_spec t' _ _ _ (hR.sound w t' ht') h2
    dsimp only
    rw [e, Res.bind_ok, isBnf_unique hb hb']

/-- What is loaded for tokens of no BNF text. -/
theorem load_of_not_bnf {R : Recognizer Terminal} (hR : R.Correct bnfSyntax Nonterminal.start)
    (p : Profile) {text : Text} {ts : List Token} (hl : Lexed text ts [])
    (htok : tokenize text = .ok (.ok ts)) (hb : ∀ stmts, ¬ IsBnf stmts ts) :
    ∃ e, load R p text = .ok (.error e) := by
  unfold load
  rw [htok, Res.bind_ok]
  dsimp only
  rcases scan_spec hR ts [] [] (lexed_plain hl) .nil with ⟨h, -⟩ | ⟨w, h1, h2⟩
  · rw [List.length_nil] at h
    rw [h]
    exact ⟨_, rfl⟩
  · rw [List.length_nil] at h1
    rw [List.nil_append] at h2
    rw [h1]
    dsimp only
    unfold finish
    cases e : R.tree w with
    | none => exact ⟨_, rfl⟩
    | some t =>
      obtain ⟨stmts, hb', -⟩ := eval_spec t _ _ _ (hR.sound w t e) h2
      exact absurd hb' (hb stmts)

end Basic

end Verif
