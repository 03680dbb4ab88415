import Verif.Model.LoadAdvanced
import Verif.Spec.Load
import Verif.Spec.Regexp

/-! # Specification: texts for the advanced loader -/

namespace Verif.Advanced

/-! ## Lexical structure -/

/-- The spelling of the punctuation. -/
inductive Punct : Text → Token → Prop
  | bnfOp : Punct [':', ':', '='] .bnfOp
  | semicolon : Punct [';'] .semicolon
  | pipe : Punct ['|'] .pipe
  | plus : Punct ['+'] .plus
  | mul : Punct ['*'] .mul
  | tilde : Punct ['~'] .tildeOp
  | lparen : Punct ['('] .lparen
  | rparen : Punct [')'] .rparen
  | lbrace : Punct ['{'] .lbrace
  | rbrace : Punct ['}'] .rbrace
  | gt : Punct ['>'] .gtOp

/-- The token of a word: `lexer` is a keyword, all others are identifiers. -/
def wordToken (s : Text) : Token := if s = "lexer".toList then .lexerKeyword else .ident s

/-- `Quoted s v`: between quotes, `s` stands for the string `v`. A backslash stands for the character
after it. -/
inductive Quoted : Text → Text → Prop
  | nil : Quoted [] []
  | plain {c : Char} {s v : Text} : c ≠ '"' → c ≠ '\\' → Quoted s v → Quoted (c :: s) (c :: v)
  | escape {c : Char} {s v : Text} : Quoted s v → Quoted ('\\' :: c :: s) (c :: v)

/-- `Lexed pre text tokens rest`: the text before `rest` consists of the tokens and blanks, and every
word is as long as possible. Each token has the line and column where it starts; `pre` is what comes
before the text. -/
inductive Lexed : Text → Text → List (Token × Nat × Nat) → Text → Prop
  | done (pre rest : Text) : Lexed pre rest [] rest
  | blank {pre : Text} {c : Char} {text rest : Text} {ts : List (Token × Nat × Nat)} : Blank c →
      Lexed (pre ++ [c]) text ts rest → Lexed pre (c :: text) ts rest
  | punct {pre s text rest : Text} {t : Token} {ts : List (Token × Nat × Nat)} : Punct s t →
      Lexed (pre ++ s) text ts rest →
      Lexed pre (s ++ text) ((t, lineAfter pre, colAfter pre) :: ts) rest
  | word {pre s text rest : Text} {ts : List (Token × Nat × Nat)} : IsWord s → WordEnd text →
      Lexed (pre ++ s) text ts rest →
      Lexed pre (s ++ text) ((wordToken s, lineAfter pre, colAfter pre) :: ts) rest
  | string {pre s v text rest : Text} {ts : List (Token × Nat × Nat)} : Quoted s v →
      Lexed (pre ++ ('"' :: (s ++ ['"']))) text ts rest →
      Lexed pre ('"' :: (s ++ '"' :: text)) ((.string v, lineAfter pre, colAfter pre) :: ts) rest

/-- No token and no blank starts here. -/
def Stuck (rest : Text) : Prop :=
  ∃ c t, rest = c :: t ∧ ¬ Blank c ∧ ¬ WordStart c ∧ c ≠ '"' ∧ ∀ s t, Punct s t → ¬ s <+: rest

/-- A string starts here that does not end. -/
def Unterminated (rest : Text) : Prop :=
  ∃ t, rest = '"' :: t ∧ ∀ s v, Quoted s v → ¬ (s ++ ['"']) <+: t

/-- No token follows. -/
def Ends (rest : Text) : Prop := rest = [] ∨ Stuck rest ∨ Unterminated rest

/-- `LexError text ts line col line' col'`: after the tokens `ts` and blanks, at the position `line`
and `col` of the text, there is no token; `line'` and `col'` are this position, or that of the end
of the text if a string does not end. -/
def LexError (text : Text) (ts : List (Token × Nat × Nat)) (line col line' col' : Nat) : Prop :=
  ∃ pre bad, text = pre ++ bad ∧ Lexed [] text ts bad ∧ line = lineAfter pre ∧ col = colAfter pre ∧
    ((Stuck bad ∧ line' = line ∧ col' = col) ∨
      (Unterminated bad ∧ line' = lineAfter text ∧ col' = colAfter text))

/-! ## Syntax -/

/-- An element of an alternative: a name, possibly repeated, a string, or a call. -/
inductive Elem where
  | name (s : Text) (rep : Rep)
  | str (s : Text)
  | call (func arg : Text)
  deriving DecidableEq, Repr

/-- How an element is written. -/
def Elem.tokens : Elem → List Token
  | .name s .none => [.ident s]
  | .name s .zeroOrMore => [.ident s, .mul]
  | .name s .oneOrMore => [.ident s, .plus]
  | .str s => [.string s]
  | .call func arg => [.ident func, .lparen, .string arg, .rparen]

/-- An alternative of a rule, with its action. -/
structure Alt where
  elems : List Elem
  action : Option Text
  deriving DecidableEq, Repr

/-- How an action is written. -/
def actionTokens : Option Text → List Token
  | none => []
  | some a => [.gtOp, .ident a]

/-- How an alternative is written: the elements are separated by tildes. -/
def Alt.tokens (a : Alt) : List Token :=
  ((a.elems.map Elem.tokens).intersperse [.tildeOp]).flatten ++ actionTokens a.action

/-- A rule, with its alternatives. -/
structure Stmt where
  lhs : Text
  alts : List Alt
  deriving DecidableEq, Repr

/-- How a rule is written: the alternatives are separated by bars. -/
def Stmt.tokens (s : Stmt) : List Token :=
  .ident s.lhs :: .bnfOp :: ((s.alts.map Alt.tokens).intersperse [.pipe]).flatten ++ [.semicolon]

/-- A rule is well-formed if it has one blank alternative, or some alternatives, none of which is
blank. -/
def Stmt.Ok (s : Stmt) : Prop :=
  (∃ action, s.alts = [⟨[], action⟩]) ∨ (s.alts ≠ [] ∧ ∀ a ∈ s.alts, a.elems ≠ [])

/-- A declaration: a rule of the parser, or a block of rules of the lexer. -/
inductive Decl where
  | rule (s : Stmt)
  | lexer (stmts : List Stmt)
  deriving DecidableEq, Repr

/-- How a declaration is written. -/
def Decl.tokens : Decl → List Token
  | .rule s => s.tokens
  | .lexer stmts => .lexerKeyword :: .lbrace :: stmts.flatMap Stmt.tokens ++ [.rbrace]

/-- A declaration is well-formed if its rules are; a lexer block has at least one rule. -/
def Decl.Ok : Decl → Prop
  | .rule s => s.Ok
  | .lexer stmts => stmts ≠ [] ∧ ∀ s ∈ stmts, s.Ok

/-- A file is at least one declaration. -/
def IsFile (decls : List Decl) (tokens : List Token) : Prop :=
  decls ≠ [] ∧ (∀ d ∈ decls, d.Ok) ∧ tokens = decls.flatMap Decl.tokens

/-- Some file starts with the tokens. -/
def Viable (tokens : List Token) : Prop := ∃ more decls, IsFile decls (tokens ++ more)

/-- The first token that cannot continue a file. -/
def FirstBad (ts : List (Token × Nat × Nat)) (t : Token) (line col : Nat) : Prop :=
  ∃ pre post, ts = pre ++ (t, line, col) :: post ∧ Viable (pre.map (·.1)) ∧
    ¬ Viable (pre.map (·.1) ++ [t])

/-- Whether a declaration is a lexer block. -/
def Decl.isLexer : Decl → Bool
  | .rule _ => false
  | .lexer _ => true

/-- The files that are evaluated: they start with a rule and have at most one lexer block. -/
def Loadable (decls : List Decl) : Prop :=
  (∃ s, decls.head? = some (.rule s)) ∧ decls.countP Decl.isLexer ≤ 1

/-- One alternative of a rule. -/
structure Clause where
  lhs : Text
  elems : List Elem
  action : Option Text
  deriving DecidableEq, Repr

/-- The alternatives of a rule. -/
def Stmt.clauses (s : Stmt) : List Clause := s.alts.map fun a => ⟨s.lhs, a.elems, a.action⟩

/-- The alternatives of the rules of the parser. -/
def parserClauses (decls : List Decl) : List Clause := decls.flatMap fun
  | .rule s => s.clauses
  | .lexer _ => []

/-- The alternatives of the rules of the lexer. -/
def lexerClauses (decls : List Decl) : List Clause := decls.flatMap fun
  | .rule _ => []
  | .lexer stmts => stmts.flatMap Stmt.clauses

/-! ## Meaning -/

/-- The names in an element. -/
def Elem.names : Elem → List Text
  | .name s _ => [s]
  | .str _ => []
  | .call _ _ => []

/-- The strings in an element. -/
def Elem.strings : Elem → List Text
  | .name _ _ => []
  | .str s => [s]
  | .call _ _ => []

/-- The class of a character: it contains the next character too. -/
def charClass (c : Char) : LexerClasses := [(c.toNat, c.toNat + 1)]

/-- The classes in an element. -/
def Elem.classes (parse : Text → Except String Hir) : Elem → List LexerClasses
  | .name _ _ => []
  | .str s => s.map charClass
  | .call _ arg =>
    match parse arg with
    | .ok hir => hir.letters.map Letter.ranges
    | .error _ => []

/-- The strings in some alternatives, in the order in which they first occur. -/
def stringsOf (cs : List Clause) : List Text :=
  firstUses (cs.flatMap fun c => c.elems.flatMap Elem.strings)

/-- The name for a string. -/
def stringName (i : Nat) : Text := ("__lex" ++ toString i).toList

/-- The names in some alternatives, and the names for their strings. -/
def namesOf (cs : List Clause) : List Text :=
  (cs.flatMap fun c => c.lhs :: c.elems.flatMap Elem.names) ++
    (List.range (stringsOf cs).length).map stringName

/-- The symbols spell the string. -/
def SpellsChars (classes : List (LexerClasses × Sym)) (s : Text) (α : List Sym) : Prop :=
  List.Forall₂ (fun c k => (charClass c, k) ∈ classes) s α

/-- The symbols spell the letters. -/
def SpellsLetters (classes : List (LexerClasses × Sym)) (ls : List Letter) (α : List Sym) : Prop :=
  List.Forall₂ (fun l k => (l.ranges, k) ∈ classes) ls α

/-- The strings of symbols that an element stands for: the symbol of a name, possibly repeated, the
symbol for a string, or the strings of letters described by an expression. -/
def Elem.Means (parse : Text → Except String Hir) (sym : Text → Sym) (strings : List Text)
    (classes : List (LexerClasses × Sym)) : Elem → List Sym → Prop
  | .name s .none, α => α = [sym s]
  | .name s .zeroOrMore, α => ∃ n, α = List.replicate n (sym s)
  | .name s .oneOrMore, α => ∃ n, 1 ≤ n ∧ α = List.replicate n (sym s)
  | .str s, α => ∃ i : Nat, strings[i]? = some s ∧ α = [sym (stringName i)]
  | .call _ arg, α => ∃ hir ls, parse arg = .ok hir ∧ hir.Matches ls ∧ SpellsLetters classes ls α

/-- The productions that some alternatives stand for: those of the alternatives, and one for each
string. -/
def advProd (parse : Text → Except String Hir) (cs : List Clause) (sym : Text → Sym)
    (classes : List (LexerClasses × Sym)) : Productions := fun A α =>
  (∃ c ∈ cs, A = sym c.lhs ∧ ∃ parts,
    List.Forall₂ (Elem.Means parse sym (stringsOf cs) classes) c.elems parts ∧ α = parts.flatten) ∨
  ∃ (i : Nat) (s : Text), (stringsOf cs)[i]? = some s ∧ A = sym (stringName i) ∧ SpellsChars classes s α

/-- The terminals: the symbols of the classes, and the names that are neither on a left side nor the
name for a string. -/
def advTerm (cs : List Clause) (sym : Text → Sym) (classes : List (LexerClasses × Sym)) (a : Sym) :
    Prop :=
  (∃ k, (k, a) ∈ classes) ∨
  ∃ n ∈ namesOf cs, a = sym n ∧ (∀ c ∈ cs, c.lhs ≠ n) ∧ ∀ i < (stringsOf cs).length, stringName i ≠ n

/-- Why an element cannot be loaded, and the token to blame: another function than `Regexp`, or an
expression that cannot be parsed. -/
def Elem.reason (parse : Text → Except String Hir) : Elem → Option (String × Token)
  | .name _ _ => none
  | .str _ => none
  | .call func arg =>
    if func ≠ "Regexp".toList then
      some ("expected 'Regexp', found '" ++ String.ofList func ++ "'", .ident func)
    else match parse arg with
      | .ok _ => none
      | .error err => some (err, .string arg)

/-- Why an alternative cannot be loaded. -/
def Clause.reason (parse : Text → Except String Hir) (c : Clause) : Option (String × Token) :=
  c.elems.findSome? (Elem.reason parse)

/-- Why an alternative of the lexer cannot be loaded: the parser has its left side too, or an
element cannot be loaded. -/
def Clause.lexerReason (parse : Text → Except String Hir) (parser : List Clause) (c : Clause) :
    Option (String × Token) :=
  if c.lhs ∈ parser.map Clause.lhs then
    some ("lhs shared between parser and lexer: " ++ String.ofList c.lhs, .ident c.lhs)
  else c.reason parse

/-- The first reason why a file cannot be loaded. -/
def firstReason (parse : Text → Except String Hir) (parser lexer : List Clause) :
    Option (String × Token) :=
  (parser.findSome? (Clause.reason parse)).or (lexer.findSome? (Clause.lexerReason parse parser))

/-! ### Positions -/

/-- The positions where the parts of some text start, if the first one starts at `k` and there are
`gap` tokens between two parts; the lengths of the parts are given. -/
def starts (gap : Nat) : Nat → List Nat → List Nat
  | _, [] => []
  | k, n :: ns => k :: starts gap (k + n + gap) ns

/-- An alternative of a rule, the position of the left side, and those where the elements start. -/
structure Place where
  clause : Clause
  lhsAt : Nat
  elemsAt : List Nat
  deriving DecidableEq, Repr

/-- The positions of elements that start at `k` and are separated by tildes. -/
def elemStarts (k : Nat) (l : List Elem) : List Nat := starts 1 k (l.map fun e => e.tokens.length)

/-- The positions of alternatives that start at `k` and are separated by bars. -/
def altStarts (k : Nat) (l : List Alt) : List Nat := starts 1 k (l.map fun a => a.tokens.length)

/-- An alternative that starts at `k`, of a rule that starts at `i`. -/
def Alt.place (lhs : Text) (i k : Nat) (a : Alt) : Place :=
  ⟨⟨lhs, a.elems, a.action⟩, i, elemStarts k a.elems⟩

/-- The alternatives of a rule that starts at `k`: they start after the left side and `::=`. -/
def Stmt.places (k : Nat) (s : Stmt) : List Place :=
  List.zipWith (Alt.place s.lhs k) (altStarts (k + 2) s.alts) s.alts

/-- The alternatives of some rules that start at `k`. -/
def stmtsPlaces : Nat → List Stmt → List Place
  | _, [] => []
  | k, s :: ss => s.places k ++ stmtsPlaces (k + s.tokens.length) ss

/-- The alternatives of the rules of the parser in some declarations that start at `k`. -/
def parserPlaces : Nat → List Decl → List Place
  | _, [] => []
  | k, .rule s :: ds => s.places k ++ parserPlaces (k + (Decl.rule s).tokens.length) ds
  | k, .lexer ss :: ds => parserPlaces (k + (Decl.lexer ss).tokens.length) ds

/-- The alternatives of the rules of the lexer in some declarations that start at `k`: they start
after the keyword and the brace. -/
def lexerPlaces : Nat → List Decl → List Place
  | _, [] => []
  | k, .rule s :: ds => lexerPlaces (k + (Decl.rule s).tokens.length) ds
  | k, .lexer ss :: ds =>
    stmtsPlaces (k + 2) ss ++ lexerPlaces (k + (Decl.lexer ss).tokens.length) ds

/-- Why an element that starts at `k` cannot be loaded, and the position of the token to blame: the
name of the function, or the argument after the parenthesis. -/
def Elem.fault (parse : Text → Except String Hir) (k : Nat) : Elem → Option (String × Nat)
  | .name _ _ => none
  | .str _ => none
  | .call func arg =>
    if func ≠ "Regexp".toList then
      some ("expected 'Regexp', found '" ++ String.ofList func ++ "'", k)
    else match parse arg with
      | .ok _ => none
      | .error err => some (err, k + 2)

/-- Why an alternative cannot be loaded, and the position of the token to blame. -/
def Place.fault (parse : Text → Except String Hir) (c : Place) : Option (String × Nat) :=
  (c.elemsAt.zip c.clause.elems).findSome? fun x => x.2.fault parse x.1

/-- Why an alternative of the lexer cannot be loaded, and the position of the token to blame. -/
def Place.lexerFault (parse : Text → Except String Hir) (parser : List Place) (c : Place) :
    Option (String × Nat) :=
  if c.clause.lhs ∈ parser.map (·.clause.lhs) then
    some ("lhs shared between parser and lexer: " ++ String.ofList c.clause.lhs, c.lhsAt)
  else c.fault parse

/-- The first reason why a file cannot be loaded, and the position of the token to blame. -/
def firstFaultAt (parse : Text → Except String Hir) (decls : List Decl) : Option (String × Nat) :=
  ((parserPlaces 0 decls).findSome? (Place.fault parse)).or
    ((lexerPlaces 0 decls).findSome? (Place.lexerFault parse (parserPlaces 0 decls)))

/-- Elements that can be loaded or rejected without a panic: every character of a string has a next
character, and an expression has no look-around, no byte 255, and bounds of repetition that the
sequence rules can handle. -/
def Elem.Safe (parse : Text → Except String Hir) : Elem → Prop
  | .name _ _ => True
  | .str s => ∀ c ∈ s, IsChar (c.toNat + 1)
  | .call _ arg => ∀ hir, parse arg = .ok hir → hir.Plain

/-- What stops the loading of a file: a panic, or an error with the position of the token to
blame. -/
inductive Stop where
  | panic
  | reject (reason : String) (at_ : Nat)
  deriving DecidableEq, Repr

open scoped Classical in
/-- What stops the loading at an element that starts at `k`: a character without a next one, the
faults above, or an expression that cannot be translated. -/
noncomputable def Elem.stop (parse : Text → Except String Hir) (k : Nat) : Elem → Option Stop
  | .name _ _ => none
  | .str s => if ∀ c ∈ s, IsChar (c.toNat + 1) then none else some .panic
  | .call func arg =>
    if func ≠ "Regexp".toList then
      some (.reject ("expected 'Regexp', found '" ++ String.ofList func ++ "'") k)
    else match parse arg with
      | .ok hir => if hir.Trouble then some .panic else none
      | .error err => some (.reject err (k + 2))

/-- What stops the loading at an alternative: what stops it at the first possible element. -/
noncomputable def Place.stop (parse : Text → Except String Hir) (c : Place) : Option Stop :=
  (c.elemsAt.zip c.clause.elems).findSome? fun x => x.2.stop parse x.1

/-- What stops the loading at an alternative of the lexer. -/
noncomputable def Place.lexerStop (parse : Text → Except String Hir) (parser : List Place)
    (c : Place) : Option Stop :=
  if c.clause.lhs ∈ parser.map (·.clause.lhs) then
    some (.reject ("lhs shared between parser and lexer: " ++ String.ofList c.clause.lhs) c.lhsAt)
  else c.stop parse

/-- What stops the loading of a file first: the parser comes before the lexer. -/
noncomputable def firstStop (parse : Text → Except String Hir) (decls : List Decl) : Option Stop :=
  ((parserPlaces 0 decls).findSome? (Place.stop parse)).or
    ((lexerPlaces 0 decls).findSome? (Place.lexerStop parse (parserPlaces 0 decls)))

/-- The grammar of a file for the advanced loader. -/
structure Loaded (parse : Text → Except String Hir) (parser lexer : List Clause)
    (G : AdvancedGrammar) (sym : Text → Sym) : Prop where
  wf : G.cfg.WF
  /-- There is no limit on the length of rules, and every symbol has a place for a name. -/
  limit : G.cfg.rhsLenInvariant = none
  len : G.cfg.src.names.length = G.cfg.numSyms
  /-- Every name has a symbol of its own. -/
  inj : ∀ n ∈ namesOf (parser ++ lexer), ∀ n' ∈ namesOf (parser ++ lexer), sym n = sym n' → n = n'
  names : ∀ n ∈ namesOf (parser ++ lexer),
    sym n < G.cfg.numSyms ∧ G.cfg.src.originalNameOf (sym n) = some (String.ofList n)
  /-- The root is the left side of the first alternative. -/
  roots : ∃ c ∈ (parser ++ lexer).head?, G.cfg.roots = [sym c.lhs]
  /-- One symbol per class, no symbol twice, the classes in order. -/
  classes : G.lexerMap.classes.Pairwise (fun e e' => ClassLt e.1 e'.1)
  classSyms : (G.lexerMap.classes.map Prod.snd).Nodup
  classesIff : ∀ k, (∃ s, (k, s) ∈ G.lexerMap.classes) ↔
    ∃ c ∈ parser ++ lexer, ∃ e ∈ c.elems, k ∈ e.classes parse
  classNames : ∀ k s, (k, s) ∈ G.lexerMap.classes → G.cfg.src.originalNameOf s = none ∧
    ∀ n ∈ namesOf (parser ++ lexer), sym n ≠ s
  term : ∀ a, G.cfg.Term a ↔ advTerm (parser ++ lexer) sym G.lexerMap.classes a
  lang : ∀ n ∈ namesOf (parser ++ lexer), ∀ w, G.cfg.Lang (sym n) w ↔
    InLang (advProd parse (parser ++ lexer) sym G.lexerMap.classes)
      (advTerm (parser ++ lexer) sym G.lexerMap.classes) (sym n) w

/-- The rules that were given an origin, in order. -/
def originRules (g : Cfg) : List CfgRule :=
  g.rules.filter fun r => decide (r.history.origin ≠ 0 ∧ r.history.origin ≠ u32Max)

/-- The symbol in a right side for an element that is not repeated and no call. -/
def Elem.Direct (sym : Text → Sym) (strings : List Text) : Elem → Sym → Prop
  | .name s .none, x => x = sym s
  | .str s, x => ∃ i : Nat, strings[i]? = some s ∧ x = sym (stringName i)
  | _, _ => True

/-- What is returned beside the grammar and the classes. -/
structure Records (parser lexer : List Clause) (G : AdvancedGrammar) (sym : Text → Sym) : Prop where
  /-- One entry per name. -/
  symMap : ∀ n s, (n, s) ∈ G.symMap ↔ n ∈ namesOf (parser ++ lexer) ∧ s = sym n
  symMapKeys : (G.symMap.map Prod.fst).Nodup
  /-- The alternatives are numbered from one. -/
  actions : G.actions = (parser ++ lexer).mapIdx fun i c => (i + 1, c.action)
  /-- The rule of an alternative has the number of the alternative as its origin, no other rule has an
  origin. -/
  origins : (parser ++ lexer).length < u32Max →
    (originRules G.cfg).map (fun r => r.history.origin) =
      (List.range (parser ++ lexer).length).map (· + 1) ∧
    List.Forall₂ (fun c r => r.lhs = sym c.lhs ∧
      List.Forall₂ (Elem.Direct sym (stringsOf (parser ++ lexer))) c.elems r.rhs)
      (parser ++ lexer) (originRules G.cfg)
  /-- The lexemes are the names for strings and the left sides of the lexer. -/
  sbs : G.sbs.length = G.cfg.numSyms ∧ ∀ s, Has G.sbs s ↔
    (∃ i, i < (stringsOf (parser ++ lexer)).length ∧ s = sym (stringName i)) ∨
    ∃ c ∈ lexer, s = sym c.lhs

/-! ## Described strings -/

/-- The strings described by the elements, over any alphabet. `atom` gives those of the elements that
do not refer to a rule. -/
inductive Describes {α : Type} (atom : Elem → List α → Prop) (cs : List Clause) :
    List Elem → List α → Prop
  | nil : Describes atom cs [] []
  | atom {e : Elem} {es : List Elem} {t u : List α} : atom e t → Describes atom cs es u →
      Describes atom cs (e :: es) (t ++ u)
  | name {c : Clause} {es : List Elem} {t u : List α} : c ∈ cs → Describes atom cs c.elems t →
      Describes atom cs es u → Describes atom cs (.name c.lhs .none :: es) (t ++ u)
  | none {n : Text} {es : List Elem} {u : List α} : Describes atom cs es u →
      Describes atom cs (.name n .zeroOrMore :: es) u
  | more {c : Clause} {es : List Elem} {t u : List α} : c ∈ cs → Describes atom cs c.elems t →
      Describes atom cs (.name c.lhs .zeroOrMore :: es) u →
      Describes atom cs (.name c.lhs .zeroOrMore :: es) (t ++ u)
  | some {c : Clause} {es : List Elem} {t u : List α} : c ∈ cs → Describes atom cs c.elems t →
      Describes atom cs (.name c.lhs .zeroOrMore :: es) u →
      Describes atom cs (.name c.lhs .oneOrMore :: es) (t ++ u)

/-- The names in some alternatives. -/
def writtenNames (cs : List Clause) : List Text :=
  cs.flatMap fun c => c.lhs :: c.elems.flatMap Elem.names

/-- The strings of symbols of the elements that do not refer to a rule: the symbol of a name without
rules, the classes of the characters of a string, or those of the letters of an expression. -/
def symAtom (parse : Text → Except String Hir) (cs : List Clause) (sym : Text → Sym)
    (classes : List (LexerClasses × Sym)) : Elem → List Sym → Prop
  | .name n rep, w => (∀ c ∈ cs, c.lhs ≠ n) ∧
    match rep with
    | .none => w = [sym n]
    | .zeroOrMore => ∃ k, w = List.replicate k (sym n)
    | .oneOrMore => ∃ k, 1 ≤ k ∧ w = List.replicate k (sym n)
  | .str s, w => SpellsChars classes s w
  | .call _ arg, w => ∃ hir ls, parse arg = .ok hir ∧ hir.Matches ls ∧ SpellsLetters classes ls w

/-- The texts of the elements that do not refer to a rule: a string stands for itself, an expression
for the texts it describes. -/
def textAtom (parse : Text → Except String Hir) : Elem → Text → Prop
  | .name _ _, _ => False
  | .str s, t => t = s
  | .call _ arg, t => ∃ hir, parse arg = .ok hir ∧ hir.MatchesText t

end Verif.Advanced
