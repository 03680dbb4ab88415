import Verif.Model.Earley
import Verif.Model.Sequence

/-!
# Model of `cfg-load`: the basic loader

`/repo/cfg-load/src/basic.rs`, `/repo/cfg-load/src/string_interner.rs`.
Text is a list of characters. The external parser is a parameter (`Model/Earley.lean`).
-/

namespace Verif

/-- The type `str` as its characters, e.g. `bnf.chars()` at `/repo/cfg-load/src/basic.rs:203`. -/
abbrev Text := List Char

/-! ## String interner -/

/-- `StringInterner`: the strings of its `FrozenIndexSet` in the order of their indices.
`/repo/cfg-load/src/string_interner.rs:6-8`. -/
abbrev StringInterner := List Text

/-- `StringInterner::get_or_intern`: `insert_full` of the external crate `elsa` returns the index of
an equal string, or appends. `/repo/cfg-load/src/string_interner.rs:20-27`. -/
def StringInterner.getOrIntern (set : StringInterner) (value : Text) : Nat × StringInterner :=
  if value ∈ set then (set.idxOf value, set) else (set.length, set ++ [value])

/-- `StringInterner::resolve`. `/repo/cfg-load/src/string_interner.rs:36-38`. -/
def StringInterner.resolve (set : StringInterner) (index : Nat) : Option Text := set[index]?

namespace Basic

/-! ## Lexer -/

/-- `Token`. `/repo/cfg-load/src/basic.rs:176-188`. -/
inductive Token where
  | ident (s : Text)
  | bnfOp
  | semicolon
  | pipe
  | plus
  | mul
  | whitespace
  | lparen
  | rparen
  | error (line col : Nat)
  deriving DecidableEq, Repr

end Basic

/-- `Lexer`. `/repo/cfg-load/src/basic.rs:170-174`, `/repo/cfg-load/src/advanced.rs:283-287`. The
line and column numbers cannot overflow for texts that fit the memory. -/
structure Lexer where
  chars : Text
  lineNo : Nat := 1
  colNo : Nat := 1
  deriving DecidableEq, Repr

/-- `Lexer::advance`. `/repo/cfg-load/src/basic.rs:278-289`,
`/repo/cfg-load/src/advanced.rs:460-471`. -/
def Lexer.advance (l : Lexer) : Lexer :=
  match l.chars with
  | [] => l
  | c :: chars =>
    if c = '\n' then ⟨chars, l.lineNo + 1, 1⟩ else ⟨chars, l.lineNo, l.colNo + 1⟩

/-- `Lexer::peek`. `/repo/cfg-load/src/basic.rs:291-293`, `/repo/cfg-load/src/advanced.rs:473-475`. -/
def Lexer.peek (l : Lexer) : Option Char := l.chars.head?

/-- The pattern of the first character of an identifier. `/repo/cfg-load/src/basic.rs:228`,
`/repo/cfg-load/src/advanced.rs:361`. -/
def identStart (c : Char) : Bool :=
  ('a' ≤ c && c ≤ 'z') || ('A' ≤ c && c ≤ 'Z') || c == '_'

/-- The pattern of the other characters of an identifier. `/repo/cfg-load/src/basic.rs:231`,
`/repo/cfg-load/src/advanced.rs:363`. -/
def identChar (c : Char) : Bool := identStart c || ('0' ≤ c && c ≤ '9')

/-- The `while` loop over the characters of an identifier. `/repo/cfg-load/src/basic.rs:231-233`,
`/repo/cfg-load/src/advanced.rs:363-365`. The characters are the last argument for the recursion. -/
def Lexer.skipIdent (lineNo colNo : Nat) : Text → Lexer
  | [] => ⟨[], lineNo, colNo⟩
  | c :: chars =>
    if identChar c then
      let l := Lexer.advance ⟨c :: chars, lineNo, colNo⟩
      Lexer.skipIdent l.lineNo l.colNo chars
    else ⟨c :: chars, lineNo, colNo⟩

namespace Basic

/-- The branch of `eat` for identifiers. `/repo/cfg-load/src/basic.rs:229-234`. -/
def eatIdent (l : Lexer) : Token × Lexer :=
  let l' := l.advance
  let l' := Lexer.skipIdent l'.lineNo l'.colNo l'.chars
  (.ident (l.chars.take (l.chars.length - l'.chars.length)), l')

/-- `Lexer::eat`. `/repo/cfg-load/src/basic.rs:226-276`. -/
def eat (l : Lexer) (ch : Char) : Token × Lexer :=
  if identStart ch then eatIdent l
  else if ch = ':' then
    if [':', ':', '='] <+: l.chars then (.bnfOp, l.advance.advance.advance)
    else (.error l.lineNo l.colNo, l)
  else if ch = ';' then (.semicolon, l.advance)
  else if ch = '|' then (.pipe, l.advance)
  else if ch = '+' then (.plus, l.advance)
  else if ch = '*' then (.mul, l.advance)
  else if ch = '(' then (.lparen, l.advance)
  else if ch = ')' then (.rparen, l.advance)
  else if ch = ' ' ∨ ch = '\n' ∨ ch = '\t' then (.whitespace, l.advance)
  else (.error l.lineNo l.colNo, l)

/-- `Lexer::eat_token`. `/repo/cfg-load/src/basic.rs:219-224`. -/
def eatToken (l : Lexer) : Option (Token × Lexer) := l.peek.map (eat l)

/-- The loop of `tokenize`. `/repo/cfg-load/src/basic.rs:208-216`. One unit of fuel per token;
running out of fuel is `diverge`. -/
def tokenizeLoop : Nat → Lexer → List Token → Res (Except (Nat × Nat) (List Token))
  | fuel, l, result =>
    match eatToken l with
    | none => .ok (.ok result)
    | some (.error line col, _) => .ok (.error (line, col))
    | some (token, l) =>
      match fuel with
      | 0 => .diverge
      | fuel + 1 =>
        tokenizeLoop fuel l (if token ≠ .whitespace then result ++ [token] else result)

/-- `Lexer::tokenize`. `/repo/cfg-load/src/basic.rs:201-217`. The fuel is the length of the text. -/
def tokenize (bnf : Text) : Res (Except (Nat × Nat) (List Token)) :=
  tokenizeLoop bnf.length ⟨bnf, 1, 1⟩ []

/-! ## Values -/

/-- `Rep`. `/repo/cfg-load/src/basic.rs:35-40`, `/repo/cfg-load/src/advanced.rs:71-76`. -/
inductive _root_.Verif.Rep where
  | none
  | zeroOrMore
  | oneOrMore
  deriving DecidableEq, Repr

/-- `Fragment`. `/repo/cfg-load/src/basic.rs:29-33`. -/
structure Fragment where
  ident : Text
  rep : Rep
  deriving DecidableEq, Repr

/-- `Rule`. `/repo/cfg-load/src/basic.rs:23-27`. -/
structure Rule where
  lhs : Text
  rhs : List Fragment
  deriving DecidableEq, Repr

/-- `Value`. `/repo/cfg-load/src/basic.rs:42-50`. -/
inductive Value where
  | ident (s : Text)
  | rules (rules : List Rule)
  | rhs (alts : List (List Fragment))
  | fragment (f : Option Fragment)
  | alt (frags : List Fragment)
  | none
  deriving DecidableEq, Repr

/-- The terminals of the BNF syntax. `/repo/cfg-load/src/basic.rs:311`. -/
inductive Terminal where
  | bnfOp | ident | pipe | opMul | opPlus | semicolon | lparen | rparen
  deriving DecidableEq, Repr

/-- The nonterminals of the BNF syntax. `/repo/cfg-load/src/basic.rs:311`. -/
inductive Nonterminal where
  | start | rule | alt | rhs | fragment
  deriving DecidableEq, Repr

/-- The BNF syntax, with the rule numbers of the comments. `/repo/cfg-load/src/basic.rs:310-326`. -/
def bnfSyntax : Syntax Terminal Nonterminal := [
  (2, .start, [.n .start, .n .rule]),
  (3, .start, [.n .rule]),
  (4, .rule, [.t .ident, .t .bnfOp, .t .semicolon]),
  (5, .rule, [.t .ident, .t .bnfOp, .n .rhs, .t .semicolon]),
  (6, .rhs, [.n .rhs, .t .pipe, .n .alt]),
  (7, .rhs, [.n .alt]),
  (8, .alt, [.n .alt, .n .fragment]),
  (9, .alt, [.n .fragment]),
  (10, .fragment, [.t .ident, .t .opPlus]),
  (11, .fragment, [.t .ident, .t .opMul]),
  (12, .fragment, [.t .ident]),
  (13, .fragment, [.t .lparen, .t .rparen])]

/-- `Token::ident`. `/repo/cfg-load/src/basic.rs:190-198`. -/
def Token.identValue : Token → Res Value
  | .ident s => .ok (.ident s)
  | _ => .panic

/-- `Evaluator::leaf`. `/repo/cfg-load/src/basic.rs:60-82`. -/
def leaf (tokens : List Token) (terminal : Terminal) (values : Nat) : Res Value :=
  if terminal = .ident then do (← Res.index tokens values).identValue else .ok .none

/-- `Evaluator::product`. `/repo/cfg-load/src/basic.rs:84-167`. -/
def product (action : Nat) (args : List Value) : Res Value :=
  match action, args.getD 0 .none, args.getD 1 .none, args.getD 2 .none with
  | 2, .rules rules, .rules rule, _ => .ok (.rules (rules ++ rule))
  | 3, .rules rule, _, _ => .ok (.rules rule)
  | 4, .ident lhs, _, _ => .ok (.rules [⟨lhs, []⟩])
  | 5, .ident lhs, _, .rhs rhs => .ok (.rules (rhs.map fun rhs => ⟨lhs, rhs⟩))
  | 6, .rhs rhs, _, .alt alt => .ok (.rhs (rhs ++ [alt]))
  | 7, .alt alt, _, _ => .ok (.rhs [alt])
  | 8, .alt alt, .fragment fragment, _ => .ok (.alt (alt ++ fragment.toList))
  | 9, .fragment fragment, _, _ => .ok (.alt fragment.toList)
  | 10, .ident ident, _, _ => .ok (.fragment (some ⟨ident, .oneOrMore⟩))
  | 11, .ident ident, _, _ => .ok (.fragment (some ⟨ident, .zeroOrMore⟩))
  | 12, .ident ident, _, _ => .ok (.fragment (some ⟨ident, .none⟩))
  | 13, _, _, _ => .ok (.fragment none)
  | _, _, _, _ => .panic

mutual

/-- Evaluation of a tree, bottom up: `evaluate` of `tiny_earley` calling `leaf` and `product`.
`/repo/cfg-load/src/basic.rs:388-391`. -/
def evaluate (tokens : List Token) : Tree Terminal → Res Value
  | .leaf terminal values => leaf tokens terminal values
  | .node action args => do product action (← evaluateAll tokens args)

/-- Evaluation of the children of a node. `/repo/cfg-load/src/basic.rs:388-391`. -/
def evaluateAll (tokens : List Token) : List (Tree Terminal) → Res (List Value)
  | [] => .ok []
  | t :: ts => do
    let v ← evaluate tokens t
    let vs ← evaluateAll tokens ts
    .ok (v :: vs)

end

/-! ## Building the grammar -/

end Basic

/-- `Token` of the advanced loader. `/repo/cfg-load/src/advanced.rs:289-308`. -/
inductive Advanced.Token where
  | ident (s : Text)
  | bnfOp
  | semicolon
  | pipe
  | plus
  | mul
  | whitespace
  | string (s : Text)
  | lbrace
  | rbrace
  | lparen
  | rparen
  | gtOp
  | lexerKeyword
  | tildeOp
  | error (line col : Nat)
  deriving DecidableEq, Repr

/-- `LoadError`. `/repo/cfg-load/src/lib.rs:18-32`. -/
structure LoadError where
  reason : String
  line : Nat
  col : Nat
  token : Option Advanced.Token := none
  deriving DecidableEq, Repr

/-- The variables of the loop that builds the grammar. `/repo/cfg-load/src/basic.rs:393-396`. The
hash map is an association list. -/
structure LoadState where
  cfg : Cfg := Cfg.new
  intern : StringInterner := []
  symMap : List (Nat × Sym) := []
  internEmpty : Bool := true
  deriving DecidableEq, Repr

/-- Interning a name and looking its symbol up, or making one. `/repo/cfg-load/src/basic.rs:398-401`
and `410-414`. -/
def LoadState.symFor (st : LoadState) (name : Text) : Sym × LoadState :=
  let (id, intern) := st.intern.getOrIntern name
  match st.symMap.lookup id with
  | some s => (s, { st with intern := intern })
  | none =>
    let (s, g) := st.cfg.nextSym (some (String.ofList name))
    (s, { st with cfg := g, intern := intern, symMap := (id, s) :: st.symMap })

/-- A fresh symbol for a repetition. `/repo/cfg-load/src/basic.rs:418-419,423-424`. -/
def LoadState.repeated (p : Profile) (st : LoadState) (start : Nat) (stop : Option Nat)
    (rhs : Sym) : Res (Sym × LoadState) := do
  let (newSym, g) := st.cfg.nextSym none
  let g ← g.rewriteSequence p ⟨newSym, rhs, start, stop, .null, none⟩
  .ok (newSym, { st with cfg := g })

/-- The symbol for a possibly repeated name. `/repo/cfg-load/src/basic.rs:409-428`. -/
def LoadState.named (p : Profile) (st : LoadState) (ident : Text) (rep : Rep) :
    Res (Sym × LoadState) :=
  let (rhsSym, st) := st.symFor ident
  match rep with
  | .none => .ok (rhsSym, st)
  | .zeroOrMore => st.repeated p 0 none rhsSym
  | .oneOrMore =>
    st.repeated p (rangeBounds (.included 1) .unbounded).1 (rangeBounds (.included 1) .unbounded).2
      rhsSym

/-- The root is the left side of the first rule. `/repo/cfg-load/src/basic.rs:402-405`. -/
def LoadState.first (st : LoadState) (lhsSym : Sym) : LoadState :=
  if st.internEmpty then { st with cfg := st.cfg.setRoots [lhsSym], internEmpty := false } else st

/-- `cfg.rule(lhs).history(origin).rhs(syms)`. `/repo/cfg-load/src/basic.rs:430-432`. -/
def LoadState.add (st : LoadState) (lhsSym : Sym) (idx : Nat) (rhsSyms : List Sym) :
    Res LoadState := do
  let (g, _) ← st.cfg.addRule ⟨lhsSym, rhsSyms, History.ofRoot (.origin (idx + 1))⟩
  .ok { st with cfg := g }

namespace Basic

/-- The loop over a right side. `/repo/cfg-load/src/basic.rs:406-429`. -/
def fragments (p : Profile) : LoadState → List Fragment → Res (List Sym × LoadState)
  | st, [] => .ok ([], st)
  | st, f :: fs => do
    let (s, st) ← st.named p f.ident f.rep
    let (syms, st) ← fragments p st fs
    .ok (s :: syms, st)

/-- The body of the loop over the rules. `/repo/cfg-load/src/basic.rs:398-432`. -/
def loadRule (p : Profile) (st : LoadState) (idx : Nat) (rule : Rule) : Res LoadState := do
  let (lhsSym, st) := st.symFor rule.lhs
  let (rhsSyms, st) ← fragments p (st.first lhsSym) rule.rhs
  st.add lhsSym idx rhsSyms

/-- The loop over the rules. `/repo/cfg-load/src/basic.rs:397-433`. -/
def loadRules (p : Profile) : LoadState → Nat → List Rule → Res LoadState
  | st, _, [] => .ok st
  | st, idx, rule :: rules => do
    let st ← loadRule p st idx rule
    loadRules p st (idx + 1) rules

/-- The terminal for a token: `continue` for whitespace is `ok none`.
`/repo/cfg-load/src/basic.rs:347-365`. -/
def terminalOf : Token → Except LoadError (Option Terminal)
  | .bnfOp => .ok (some .bnfOp)
  | .semicolon => .ok (some .semicolon)
  | .pipe => .ok (some .pipe)
  | .mul => .ok (some .opMul)
  | .plus => .ok (some .opPlus)
  | .ident _ => .ok (some .ident)
  | .lparen => .ok (some .lparen)
  | .rparen => .ok (some .rparen)
  | .whitespace => .ok none
  | .error line col => .error ⟨"failed to tokenize", line % 2 ^ 32, col % 2 ^ 32, none⟩

/-- The loop that scans the tokens. `/repo/cfg-load/src/basic.rs:346-377`. The cast of
the index to `u32` is exact for fewer than 2^32 tokens. -/
def scan (R : Recognizer Terminal) :
    List (Terminal × Nat) → Nat → List Token → Except LoadError (List (Terminal × Nat))
  | scanned, _, [] => .ok scanned
  | scanned, i, token :: tokens =>
    match terminalOf token with
    | .error e => .error e
    | .ok none => scan R scanned (i + 1) tokens
    | .ok (some terminal) =>
      let scanned := scanned ++ [(terminal, i)]
      if R.viable scanned then scan R scanned (i + 1) tokens
      else .error ⟨"parse failed", 1, 1, none⟩

/-- The part of `load` after the tree was evaluated. `/repo/cfg-load/src/basic.rs:392-443`. The
printed value is left out of the reason. -/
def build (p : Profile) : Value → Res (Except LoadError Cfg)
  | .rules rules => do
    let st ← loadRules p {} 0 rules
    .ok (.ok st.cfg)
  | _ => .ok (.error ⟨"evaluation failed", 0, 0, none⟩)

/-- The part of `load` after scanning. `/repo/cfg-load/src/basic.rs:378-443`. -/
def finish (R : Recognizer Terminal) (p : Profile) (tokens : List Token)
    (scanned : List (Terminal × Nat)) : Res (Except LoadError Cfg) :=
  match R.tree scanned with
  | none => .ok (.error ⟨"parse failed: no result", 0, 0, none⟩)
  | some node => do
    let result ← evaluate tokens node
    build p result

/-- `Cfg::load`. `/repo/cfg-load/src/basic.rs:308-443`; the tokens are unwrapped at line 345. -/
def load (R : Recognizer Terminal) (p : Profile) (bnf : Text) : Res (Except LoadError Cfg) := do
  match ← tokenize bnf with
  | .error _ => .panic
  | .ok tokens =>
    match scan R [] 0 tokens with
    | .error e => .ok (.error e)
    | .ok scanned => finish R p tokens scanned

end Basic

/-! ## Printing -/

/-- `char::is_whitespace`, used by `str::trim` at `/repo/cfg-load/src/basic.rs:456`. -/
def charWhite (c : Char) : Bool :=
  let n := c.toNat
  (9 ≤ n && n ≤ 13) || n == 0x20 || n == 0x85 || n == 0xA0 || n == 0x1680 ||
    (0x2000 ≤ n && n ≤ 0x200A) || n == 0x2028 || n == 0x2029 || n == 0x202F || n == 0x205F ||
    n == 0x3000

/-- `str::trim`, used at `/repo/cfg-load/src/basic.rs:456`. -/
def trim (s : Text) : Text := ((s.dropWhile charWhite).reverse.dropWhile charWhite).reverse

/-- `name_of` as text. `/repo/cfg-load/src/basic.rs:450,455`. -/
def Cfg.symText (g : Cfg) (s : Sym) : Text := (g.src.nameOf s).toList

/-- The line printed for a rule. `/repo/cfg-load/src/basic.rs:448-458`. -/
def Cfg.ruleText (g : Cfg) (rule : CfgRule) : Text :=
  let rhs := rule.rhs.flatMap fun sym => g.symText sym ++ [' ']
  g.symText rule.lhs ++ " ::= ".toList ++ trim rhs ++ [';', '\n']

/-- `Cfg::to_bnf`. `/repo/cfg-load/src/basic.rs:445-461`. -/
def Cfg.toBnf (g : Cfg) : Text := g.rules.flatMap g.ruleText

end Verif
