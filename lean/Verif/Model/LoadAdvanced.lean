import Verif.Model.Load
import Verif.Model.Regexp
import Verif.Model.Remap

/-!
# Model of `cfg-load`: the advanced loader

`/repo/cfg-load/src/advanced.rs`. The external parsers are parameters: the recognizer of
`tiny_earley` (`Model/Earley.lean`), and `parse`, which stands for `regex_syntax::parse` as called
at `/repo/cfg-regexp-logic/src/ext.rs:11-13`. Printing to the terminal is left out.
-/

namespace Verif.Advanced

/-! ## Lexer -/

/-- The branch of `eat` for identifiers. `/repo/cfg-load/src/advanced.rs:362-371`. -/
def eatIdent (l : Lexer) : Token × Lexer :=
  let l' := Lexer.skipIdent l.lineNo l.colNo l.chars
  let result := l.chars.take (l.chars.length - l'.chars.length)
  if result = "lexer".toList then (.lexerKeyword, l') else (.ident result, l')

/-- The loop over the characters of a string. `/repo/cfg-load/src/advanced.rs:431-448`. The
characters are the last argument for the recursion; an escape takes two of them. -/
def stringLoop (lineNo colNo : Nat) (result : Text) : Text → Text × Lexer
  | [] => (result, ⟨[], lineNo, colNo⟩)
  | c :: chars =>
    if c = '"' then (result, ⟨c :: chars, lineNo, colNo⟩)
    else
      let l := Lexer.advance ⟨c :: chars, lineNo, colNo⟩
      if c = '\\' then
        match chars with
        | [] => (result, ⟨[], l.lineNo, l.colNo⟩)
        | ch :: chars =>
          let l := Lexer.advance ⟨ch :: chars, l.lineNo, l.colNo⟩
          stringLoop l.lineNo l.colNo (result ++ [ch]) chars
      else stringLoop l.lineNo l.colNo (result ++ [c]) chars

/-- The branch of `eat` for strings. `/repo/cfg-load/src/advanced.rs:429-454`. -/
def eatString (l : Lexer) : Token × Lexer :=
  let l := l.advance
  let (result, l) := stringLoop l.lineNo l.colNo [] l.chars
  if l.peek = some '"' then (.string result, l.advance) else (.error l.lineNo l.colNo, l)

/-- `Lexer::eat`. `/repo/cfg-load/src/advanced.rs:359-458`. -/
def eat (l : Lexer) (ch : Char) : Token × Lexer :=
  if identStart ch then eatIdent l
  else if ch = ':' then
    if [':', ':', '='] <+: l.chars then (.bnfOp, l.advance.advance.advance)
    else (.error l.lineNo l.colNo, l)
  else if ch = ';' then (.semicolon, l.advance)
  else if ch = '|' then (.pipe, l.advance)
  else if ch = '+' then (.plus, l.advance)
  else if ch = '*' then (.mul, l.advance)
  else if ch = '~' then (.tildeOp, l.advance)
  else if ch = '(' then (.lparen, l.advance)
  else if ch = ')' then (.rparen, l.advance)
  else if ch = '{' then (.lbrace, l.advance)
  else if ch = '}' then (.rbrace, l.advance)
  else if ch = '>' then (.gtOp, l.advance)
  else if ch = ' ' ∨ ch = '\n' ∨ ch = '\t' then (.whitespace, l.advance)
  else if ch = '"' then eatString l
  else (.error l.lineNo l.colNo, l)

/-- `Lexer::eat_token`. `/repo/cfg-load/src/advanced.rs:352-357`. -/
def eatToken (l : Lexer) : Option (Token × Lexer) := l.peek.map (eat l)

/-- The loop of `tokenize`. `/repo/cfg-load/src/advanced.rs:338-348`. The variables `line_no` and
`col_no` are always those of the lexer before the token is read. One unit of fuel per token; running
out of fuel is `diverge`. -/
def tokenizeLoop :
    Nat → Lexer → List (Token × Nat × Nat) → Res (List (Token × Nat × Nat))
  | fuel, l, result =>
    match eatToken l with
    | none => .ok result
    | some (.error line col, _) => .ok (result ++ [(.error line col, l.lineNo, l.colNo)])
    | some (token, l') =>
      match fuel with
      | 0 => .diverge
      | fuel + 1 =>
        tokenizeLoop fuel l'
          (if token ≠ .whitespace then result ++ [(token, l.lineNo, l.colNo)] else result)

/-- `Lexer::tokenize`. `/repo/cfg-load/src/advanced.rs:329-350`. The fuel is the length of the
text. -/
def tokenize (bnf : Text) : Res (List (Token × Nat × Nat)) :=
  tokenizeLoop bnf.length ⟨bnf, 1, 1⟩ []

/-! ## Values -/

/-- `Fragment`. `/repo/cfg-load/src/advanced.rs:54-69`. The argument of a call is a fragment in the
code, but always `Lex`, see line 260-266; it is kept as its string and span. -/
inductive Fragment where
  | rhs (ident : Text) (rep : Rep)
  | lex (string : Text) (span : Nat)
  | call (func : Text) (arg : Text) (argSpan : Nat) (span : Nat × Nat)
  deriving DecidableEq, Repr

/-- `Rule`. `/repo/cfg-load/src/advanced.rs:46-52`. -/
structure Rule where
  lhs : Text
  rhs : List Fragment
  action : Option Text
  span : Nat × Nat
  deriving DecidableEq, Repr

/-- `Value`. `/repo/cfg-load/src/advanced.rs:78-93`. -/
inductive Value where
  | ident (s : Text) (i : Nat)
  | string (s : Text) (i : Nat)
  | start (rules : List Rule) (lexer : Option (List Rule))
  | rules (rules : List Rule)
  | lex (rules : List Rule)
  | rhs (alts : List (List Fragment × Option Text))
  | fragment (f : Fragment)
  | alt (frags : List Fragment)
  | alt2 (frags : List Fragment) (action : Option Text)
  | none (i : Nat)
  deriving DecidableEq, Repr

/-- The terminals of the syntax. `/repo/cfg-load/src/advanced.rs:516`. -/
inductive Terminal where
  | bnfOp | ident | pipe | opMul | opPlus | semicolon | string | lexerKeyword | lbrace | rbrace
  | gtOp | lparen | rparen | tildeOp
  deriving DecidableEq, Repr

/-- The nonterminals of the syntax. `/repo/cfg-load/src/advanced.rs:516`. -/
inductive Nonterminal where
  | start | rule | alt | rhs | fragment | decl | action | lexer | rules | alt2
  deriving DecidableEq, Repr

/-- The syntax, with the rule numbers of the comments. `/repo/cfg-load/src/advanced.rs:515-541`. -/
def advSyntax : Syntax Terminal Nonterminal := [
  (2, .start, [.n .start, .n .decl]),
  (3, .start, [.n .decl]),
  (4, .decl, [.n .rule]),
  (5, .decl, [.n .lexer]),
  (6, .rule, [.t .ident, .t .bnfOp, .t .semicolon]),
  (7, .rule, [.t .ident, .t .bnfOp, .n .action, .t .semicolon]),
  (8, .rule, [.t .ident, .t .bnfOp, .n .rhs, .t .semicolon]),
  (9, .rhs, [.n .rhs, .t .pipe, .n .alt2]),
  (10, .rhs, [.n .alt2]),
  (11, .alt2, [.n .alt]),
  (12, .alt2, [.n .alt, .n .action]),
  (13, .alt, [.n .alt, .t .tildeOp, .n .fragment]),
  (14, .alt, [.n .fragment]),
  (15, .fragment, [.t .ident, .t .opPlus]),
  (16, .fragment, [.t .ident, .t .opMul]),
  (17, .fragment, [.t .ident]),
  (18, .fragment, [.t .string]),
  (19, .fragment, [.t .ident, .t .lparen, .t .string, .t .rparen]),
  (20, .lexer, [.t .lexerKeyword, .t .lbrace, .n .rules, .t .rbrace]),
  (21, .action, [.t .gtOp, .t .ident]),
  (22, .rules, [.n .rule]),
  (23, .rules, [.n .rules, .n .rule])]

/-- `Token::ident`. `/repo/cfg-load/src/advanced.rs:311-317`. -/
def Token.identValue (i : Nat) : Token → Res Value
  | .ident s => .ok (.ident s i)
  | _ => .panic

/-- `Token::string`. `/repo/cfg-load/src/advanced.rs:319-325`. -/
def Token.stringValue (i : Nat) : Token → Res Value
  | .string s => .ok (.string s i)
  | _ => .panic

/-- `Evaluator::leaf`. `/repo/cfg-load/src/advanced.rs:103-138`. -/
def leaf (tokens : List Token) (terminal : Terminal) (values : Nat) : Res Value :=
  if terminal = .ident then do (← Res.index tokens values).identValue (values + 1)
  else if terminal = .string then do (← Res.index tokens values).stringValue (values + 1)
  else .ok (.none (values + 1))

/-- `Evaluator::product`. `/repo/cfg-load/src/advanced.rs:140-281`. -/
def product (action : Nat) (args : List Value) : Res Value :=
  match action, args.getD 0 (.none 0), args.getD 1 (.none 0), args.getD 2 (.none 0),
    args.getD 3 (.none 0) with
  | 2, .start rules lex, .rules rule, _, _ => .ok (.start (rules ++ rule) lex)
  | 2, .start rules none, .lex lex, _, _ => .ok (.start rules (some lex))
  | 3, .rules rule, _, _, _ => .ok (.start rule none)
  | 4, .rules rules, _, _, _ => .ok (.rules rules)
  | 5, .lex lex, _, _, _ => .ok (.lex lex)
  | 6, .ident lhs i, _, _, _ => .ok (.rules [⟨lhs, [], none, (i, i)⟩])
  | 7, .ident lhs i, _, .ident action j, _ => .ok (.rules [⟨lhs, [], some action, (i, j)⟩])
  | 8, .ident lhs i, _, .rhs rhs, .none j =>
    .ok (.rules (rhs.map fun (rhs, action) => ⟨lhs, rhs, action, (i, j)⟩))
  | 9, .rhs rhs, _, .alt2 alt action, _ => .ok (.rhs (rhs ++ [(alt, action)]))
  | 10, .alt2 alt action, _, _, _ => .ok (.rhs [(alt, action)])
  | 11, .alt alt, _, _, _ => .ok (.alt2 alt none)
  | 12, .alt alt, .ident action _, _, _ => .ok (.alt2 alt (some action))
  | 13, .alt alt, _, .fragment fragment, _ => .ok (.alt (alt ++ [fragment]))
  | 14, .fragment fragment, _, _, _ => .ok (.alt [fragment])
  | 15, .ident ident _, _, _, _ => .ok (.fragment (.rhs ident .oneOrMore))
  | 16, .ident ident _, _, _, _ => .ok (.fragment (.rhs ident .zeroOrMore))
  | 17, .ident ident _, _, _, _ => .ok (.fragment (.rhs ident .none))
  | 18, .string string i, _, _, _ => .ok (.fragment (.lex string i))
  | 19, .ident ident i, _, .string string j, .none k =>
    .ok (.fragment (.call ident string j (i, k)))
  | 20, _, _, .rules rules, _ => .ok (.lex rules)
  | 21, _, .ident name i, _, _ => .ok (.ident name i)
  | 22, .rules rules, _, _, _ => .ok (.rules rules)
  | 23, .rules rules, .rules rules2, _, _ => .ok (.rules (rules ++ rules2))
  | _, _, _, _, _ => .panic

mutual

/-- Evaluation of a tree, bottom up: `evaluate` of `tiny_earley` calling `leaf` and `product`.
`/repo/cfg-load/src/advanced.rs:620-623`. -/
def evaluate (tokens : List Token) : Tree Terminal → Res Value
  | .leaf terminal values => leaf tokens terminal values
  | .node action args => do product action (← evaluateAll tokens args)

/-- Evaluation of the children of a node. `/repo/cfg-load/src/advanced.rs:620-623`. -/
def evaluateAll (tokens : List Token) : List (Tree Terminal) → Res (List Value)
  | [] => .ok []
  | t :: ts => do
    let v ← evaluate tokens t
    let vs ← evaluateAll tokens ts
    .ok (v :: vs)

end

/-! ## Building the grammar -/

/-- The variables of the loop that builds the grammar. `/repo/cfg-load/src/advanced.rs:628-636`. The
first four are `base`; sets are lists without order. -/
structure State where
  base : LoadState := {}
  lexIntern : StringInterner := []
  lexical : List Sym := []
  classes : List (LexerClasses × Sym) := []
  lhsInParser : List Nat := []
  actions : List (Nat × Option Text) := []
  deriving DecidableEq, Repr

/-- `lexer_classes.classes.entry(class).or_insert_with(|| cfg.next_sym(None))`.
`/repo/cfg-load/src/advanced.rs:710-713` and `746-749`. -/
def State.classSym (st : State) (key : LexerClasses) : Sym × State :=
  match st.classes.lookup key with
  | some s => (s, st)
  | none =>
    let (s, g) := st.base.cfg.nextSym none
    (s, { st with base := { st.base with cfg := g }, classes := insertClass key s st.classes })

/-- The loop over the classes of an expression; the result is the local `sym_map`.
`/repo/cfg-load/src/advanced.rs:708-715`. -/
def State.classSyms : State → List (LexerClasses × Sym) → List (Sym × Sym) → List (Sym × Sym) × State
  | st, [], symMap => (symMap, st)
  | st, (cls, sym) :: rest, symMap =>
    let (newSym, st) := st.classSym cls
    State.classSyms st rest ((sym, newSym) :: symMap)

/-- The symbols in the order in which `remap_symbols` first passes them to its argument: for every
rule the left side and the right side, then the roots, the wrapped roots and all symbols.
`/repo/cfg-symbol-bit-matrix/src/remap_symbols.rs:78-95,115,121-137` and
`/repo/cfg-symbol/src/source.rs:185-186`. -/
def _root_.Verif.Cfg.remapOrder (g : Cfg) : List Sym :=
  g.rules.flatMap (fun r => r.lhs :: r.rhs) ++ g.roots ++
    g.wrappedRoots.flatMap (fun w => [w.innerRoot, w.root, w.startOfInput, w.endOfInput]) ++
    List.range g.src.names.length

/-- The closure `sym_map.entry(sym).or_insert_with(|| cfg.next_sym(None))`, called on some symbols
one after the other. `/repo/cfg-load/src/advanced.rs:716-718`. -/
def memoSyms : Cfg → List Sym → List (Sym × Sym) → List (Sym × Sym) × Cfg
  | g, [], symMap => (symMap, g)
  | g, s :: rest, symMap =>
    match symMap.lookup s with
    | some _ => memoSyms g rest symMap
    | none =>
      let (newSym, g) := g.nextSym none
      memoSyms g rest ((s, newSym) :: symMap)

/-- The part for a regular expression after it was translated.
`/repo/cfg-load/src/advanced.rs:707-721`. The closure given to `remap_symbols` returns the same
symbol whenever it is called again with the same argument, so all its first calls are made here
beforehand, in their order. -/
def State.splice (st : State) (regexpCfg : Cfg) (classes : LexerMap) : Res (Sym × State) := do
  let (symMap, st) := st.classSyms classes.classes []
  let (symMap, g) := memoSyms st.base.cfg regexpCfg.remapOrder symMap
  let remap ← (Remap.new regexpCfg).remapSymbols fun sym => Res.ofOption (symMap.lookup sym)
  let g := g.extend remap.g
  match remap.g.roots with
  | [root] => .ok (root, { st with base := { st.base with cfg := g } })
  | _ => .panic

/-- A call in a right side. `/repo/cfg-load/src/advanced.rs:674-735`. The cases of an argument that
is no string cannot occur, see `Fragment`. -/
def State.call (p : Profile) (parse : Text → Except String Hir) (st : State) (func arg : Text)
    (argSpan : Nat) (span : Nat × Nat) : Res (Except LoadError (Sym × State)) :=
  if func ≠ "Regexp".toList then
    .ok (.error ⟨"expected 'Regexp', found '" ++ String.ofList func ++ "'", span.1 % 2 ^ 32, 1, none⟩)
  else
    match parse arg with
    | .error err => .ok (.error ⟨err, argSpan % 2 ^ 32, 1, none⟩)
    | .ok hir => do
      let (regexpCfg, classes) ← cfgFromHir p hir
      let r ← st.splice regexpCfg classes
      .ok (.ok r)

/-- The symbols for the characters of a string. `/repo/cfg-load/src/advanced.rs:743-751`. -/
def State.charSyms : State → Text → Res (List Sym × State)
  | st, [] => .ok ([], st)
  | st, ch :: chars => do
    let key ← LexerClasses.ofChar ch.toNat
    let (s, st) := st.classSym key
    let (syms, st) ← State.charSyms st chars
    .ok (s :: syms, st)

/-- The name `__lex{id}`. `/repo/cfg-load/src/advanced.rs:738`. -/
def lexName (id : Nat) : Text := "__lex".toList ++ (toString id).toList

/-- A string in a right side. `/repo/cfg-load/src/advanced.rs:736-755`. -/
def State.lexString (st : State) (string : Text) : Res (Sym × State) := do
  let (id, lexIntern) := st.lexIntern.getOrIntern string
  let (rhsSym, base) := st.base.symFor (lexName id)
  let (child, st) ← State.charSyms { st with lexIntern := lexIntern, base := base } string
  let (g, _) ← st.base.cfg.addRule ⟨rhsSym, child, History.ofRoot (.rule rhsSym)⟩
  .ok (rhsSym, { st with base := { st.base with cfg := g }, lexical := rhsSym :: st.lexical })

/-- The closure that maps the fragments of a right side. `/repo/cfg-load/src/advanced.rs:673-775`. -/
def State.fragment (p : Profile) (parse : Text → Except String Hir) (st : State) :
    Fragment → Res (Except LoadError (Sym × State))
  | .call func arg argSpan span => st.call p parse func arg argSpan span
  | .lex string _ => do
    let r ← st.lexString string
    .ok (.ok r)
  | .rhs ident rep => do
    let (s, base) ← st.base.named p ident rep
    .ok (.ok (s, { st with base := base }))

/-- The loop over a right side: `collect` stops at the first error.
`/repo/cfg-load/src/advanced.rs:670-776`. -/
def fragments (p : Profile) (parse : Text → Except String Hir) :
    State → List Fragment → Res (Except LoadError (List Sym × State))
  | st, [] => .ok (.ok ([], st))
  | st, f :: fs => do
    match ← st.fragment p parse f with
    | .error e => .ok (.error e)
    | .ok (s, st) =>
      match ← fragments p parse st fs with
      | .error e => .ok (.error e)
      | .ok (syms, st) => .ok (.ok (s :: syms, st))

/-- The part of the loop over the rules for the right side.
`/repo/cfg-load/src/advanced.rs:663-783`. -/
def State.loadRhs (p : Profile) (parse : Text → Except String Hir) (st : State) (idx : Nat)
    (rule : Rule) (isLexer : Bool) : Res (Except LoadError State) := do
  let (lhsSym, base) := st.base.symFor rule.lhs
  match ← fragments p parse { st with base := base.first lhsSym } rule.rhs with
  | .error e => .ok (.error e)
  | .ok (rhsSyms, st) =>
    let base ← st.base.add lhsSym idx rhsSyms
    .ok (.ok { st with
      base := base
      lexical := if isLexer then lhsSym :: st.lexical else st.lexical
      actions := st.actions ++ [(idx + 1, rule.action)] })

/-- The body of the loop over the rules. `/repo/cfg-load/src/advanced.rs:650-783`. The interned left
side is interned again in `loadRhs`, to the same number. -/
def State.loadRule (p : Profile) (parse : Text → Except String Hir) (st : State) (idx : Nat)
    (rule : Rule) (isLexer : Bool) : Res (Except LoadError State) :=
  let (lhs, _) := st.base.intern.getOrIntern rule.lhs
  if isLexer then
    if lhs ∈ st.lhsInParser then
      .ok (.error ⟨"lhs shared between parser and lexer: " ++ String.ofList rule.lhs,
        rule.span.1 % 2 ^ 32, 1, none⟩)
    else st.loadRhs p parse idx rule isLexer
  else
    State.loadRhs p parse { st with lhsInParser := lhs :: st.lhsInParser } idx rule isLexer

/-- The loop over the rules. `/repo/cfg-load/src/advanced.rs:638-784`. -/
def loadRules (p : Profile) (parse : Text → Except String Hir) :
    State → Nat → List (Rule × Bool) → Res (Except LoadError State)
  | st, _, [] => .ok (.ok st)
  | st, idx, (rule, isLexer) :: rules => do
    match ← st.loadRule p parse idx rule isLexer with
    | .error e => .ok (.error e)
    | .ok st => loadRules p parse st (idx + 1) rules

/-- `AdvancedGrammar`. `/repo/cfg-load/src/advanced.rs:498-510`. Of the `BTreeMap` with string keys
only the entries are kept, not their order. -/
structure AdvancedGrammar where
  cfg : Cfg
  lexerMap : LexerMap
  sbs : BitSet
  actions : List (Nat × Option Text)
  symMap : List (Text × Sym)
  deriving DecidableEq, Repr

/-- The names of the symbols in `sym_map`. `/repo/cfg-load/src/advanced.rs:795-806`. -/
def resolveAll (intern : StringInterner) : List (Nat × Sym) → Res (List (Text × Sym))
  | [] => .ok []
  | (id, sym) :: rest => do
    let name ← Res.ofOption (intern.resolve id)
    let rest ← resolveAll intern rest
    .ok ((name, sym) :: rest)

/-- The result made from the variables of the loop. `/repo/cfg-load/src/advanced.rs:785-807`. -/
def State.finish (st : State) : Res AdvancedGrammar := do
  let sbs ← BitSet.setMany (BitSet.reset st.base.cfg.src) st.lexical true
  let symMap ← resolveAll st.base.intern st.base.symMap
  .ok ⟨st.base.cfg, { classes := st.classes }, sbs, st.actions, symMap⟩

/-- The part of `load_advanced` after the tree was evaluated.
`/repo/cfg-load/src/advanced.rs:627-815`. The printed value is left out of the reason. -/
def build (p : Profile) (parse : Text → Except String Hir) :
    Value → Res (Except LoadError AdvancedGrammar)
  | .start rules lexer => do
    match ← loadRules p parse {} 0
        (rules.map (·, false) ++ (lexer.getD []).map (·, true)) with
    | .error e => .ok (.error e)
    | .ok st => do
      let r ← st.finish
      .ok (.ok r)
  | _ => .ok (.error ⟨"evaluation failed", 0, 0, none⟩)

/-- The terminal for a token: `continue` for whitespace is `ok none`.
`/repo/cfg-load/src/advanced.rs:573-597`. -/
def terminalOf : Token → Except LoadError (Option Terminal)
  | .bnfOp => .ok (some .bnfOp)
  | .semicolon => .ok (some .semicolon)
  | .pipe => .ok (some .pipe)
  | .mul => .ok (some .opMul)
  | .plus => .ok (some .opPlus)
  | .ident _ => .ok (some .ident)
  | .string _ => .ok (some .string)
  | .lbrace => .ok (some .lbrace)
  | .rbrace => .ok (some .rbrace)
  | .lparen => .ok (some .lparen)
  | .rparen => .ok (some .rparen)
  | .gtOp => .ok (some .gtOp)
  | .tildeOp => .ok (some .tildeOp)
  | .lexerKeyword => .ok (some .lexerKeyword)
  | .whitespace => .ok none
  | .error line col => .error ⟨"failed to tokenize", line % 2 ^ 32, col % 2 ^ 32, none⟩

/-- The loop that scans the tokens. `/repo/cfg-load/src/advanced.rs:572-609`. The cast of
the index to `u32` is exact for fewer than 2^32 tokens. -/
def scan (R : Recognizer Terminal) : List (Terminal × Nat) → Nat → List (Token × Nat × Nat) →
    Except LoadError (List (Terminal × Nat))
  | scanned, _, [] => .ok scanned
  | scanned, i, (token, line, col) :: tokens =>
    match terminalOf token with
    | .error e => .error e
    | .ok none => scan R scanned (i + 1) tokens
    | .ok (some terminal) =>
      let scanned := scanned ++ [(terminal, i)]
      if R.viable scanned then scan R scanned (i + 1) tokens
      else .error ⟨"parse failed", line % 2 ^ 32, col % 2 ^ 32, some token⟩

/-- The part of `load_advanced` after scanning. `/repo/cfg-load/src/advanced.rs:610-815`. -/
def finish (R : Recognizer Terminal) (p : Profile) (parse : Text → Except String Hir)
    (tokens : List Token) (scanned : List (Terminal × Nat)) :
    Res (Except LoadError AdvancedGrammar) :=
  match R.tree scanned with
  | none => .ok (.error ⟨"parse failed: no result", 0, 0, none⟩)
  | some node => do
    let result ← evaluate tokens node
    build p parse result

/-- `Cfg::load_advanced`. `/repo/cfg-load/src/advanced.rs:513-816`. -/
def load (R : Recognizer Terminal) (p : Profile) (parse : Text → Except String Hir) (bnf : Text) :
    Res (Except LoadError AdvancedGrammar) := do
  let tokens ← tokenize bnf
  match scan R [] 0 tokens with
  | .error e => .ok (.error e)
  | .ok scanned => finish R p parse (tokens.map (·.1)) scanned

end Verif.Advanced
