import Verif.Model.Sequence
import Verif.Model.BMap

/-!
# Model of cfg-regexp-logic

Characters are their code points. The parsed expression comes from the crate `regex_syntax`; its
type `Hir` is modelled, its parser is not. Printing to the terminal is left out.
-/

namespace Verif

/-! ## Characters -/

/-- The values of the type `char`, as checked by `char::from_u32`, used at
`/repo/cfg-regexp-logic/src/lib.rs:32,99`. -/
def isScalar (n : Nat) : Bool := n < 0xD800 || (0xE000 ≤ n && n < 0x110000)

/-- `char::from_u32`. `/repo/cfg-regexp-logic/src/lib.rs:32,99`. -/
def charFromU32 (n : Nat) : Option Nat := if isScalar n then some n else none

/-! ## Classes -/

/-- `LexerClasses`: the elements of its `BTreeSet<(char, char)>` in ascending order.
`/repo/cfg-regexp-logic/src/lib.rs:16-19`. -/
abbrev LexerClasses := List (Nat × Nat)

/-- `Ord for (char, char)`, used through `BTreeSet` at
`/repo/cfg-regexp-logic/src/lib.rs:18`. -/
def pairLt (a b : Nat × Nat) : Bool := a.1 < b.1 || (a.1 == b.1 && a.2 < b.2)

/-- Derived `Ord for LexerClasses`: lexicographic. `/repo/cfg-regexp-logic/src/lib.rs:16`. -/
def LexerClasses.lt : LexerClasses → LexerClasses → Bool
  | _, [] => false
  | [], _ :: _ => true
  | a :: as, b :: bs => pairLt a b || (a == b && LexerClasses.lt as bs)

/-- Insertion into the `BTreeSet`, as `collect` does. `/repo/cfg-regexp-logic/src/lib.rs:40-49`. -/
def LexerClasses.insert (r : Nat × Nat) : LexerClasses → LexerClasses
  | [] => [r]
  | r' :: rs =>
    if pairLt r r' then r :: r' :: rs
    else if r = r' then r' :: rs
    else r' :: LexerClasses.insert r rs

/-- `From<u8>`. `/repo/cfg-regexp-logic/src/lib.rs:21-27`. The sum `value + 1` is a `u8`. -/
def LexerClasses.ofByte (p : Profile) (value : Nat) : Res LexerClasses :=
  if value + 1 < 256 then .ok [(value, value + 1)]
  else match p with
    | .debug => .panic
    | .release => .ok [(value, 0)]

/-- `From<char>`. `/repo/cfg-regexp-logic/src/lib.rs:29-35`. -/
def LexerClasses.ofChar (value : Nat) : Res LexerClasses := do
  let next ← Res.ofOption (charFromU32 (value + 1))
  .ok [(value, next)]

/-- `From<Class>`: both kinds of class are given by their ranges.
`/repo/cfg-regexp-logic/src/lib.rs:37-53`. -/
def LexerClasses.ofRanges (ranges : List (Nat × Nat)) : LexerClasses :=
  ranges.foldl (fun set r => set.insert r) []

/-! ## Lexer map -/

/-- `LexerMap`. `/repo/cfg-regexp-logic/src/lib.rs:66-71`. The map `classes` is the list of its
entries in ascending order of the keys. -/
structure LexerMap where
  classes : List (LexerClasses × Sym) := []
  ascii : List (List Sym) := []
  ranges : BMap (List Sym) := []
  deriving DecidableEq, Repr

/-- The ranges with their symbols in the order of the nested loops.
`/repo/cfg-regexp-logic/src/lib.rs:84-85,95-96`. -/
def LexerMap.pairs (m : LexerMap) : List ((Nat × Nat) × Sym) :=
  m.classes.flatMap fun (set, symbol) => set.map fun r => (r, symbol)

/-- `result[ascii as usize].push(symbol)`. `/repo/cfg-regexp-logic/src/lib.rs:88`. -/
def pushAscii (symbol : Sym) (result : List (List Sym)) (ascii : Nat) : Res (List (List Sym)) := do
  let l ← Res.index result ascii
  .ok (result.set ascii (l ++ [symbol]))

/-- One range in the first loop of `compute`. `/repo/cfg-regexp-logic/src/lib.rs:86-90`. -/
def asciiRange (result : List (List Sym)) (e : (Nat × Nat) × Sym) : Res (List (List Sym)) :=
  if e.1.1 < 128 then
    (List.range' e.1.1 (min e.1.2 256 + 1 - e.1.1)).foldlM (pushAscii e.2) result
  else .ok result

/-- `entry(key).or_insert(vec![]).push(value)`. `/repo/cfg-regexp-logic/src/lib.rs:97-101`. -/
def BMap.pushAt {α : Type} (k : Nat) (v : α) : BMap (List α) → BMap (List α)
  | [] => [(k, [v])]
  | (k', l) :: m =>
    if k < k' then (k, [v]) :: (k', l) :: m
    else if k = k' then (k', l ++ [v]) :: m
    else (k', l) :: pushAt k v m

/-- One range in the second loop of `compute`. `/repo/cfg-regexp-logic/src/lib.rs:97-101`. -/
def changeRange (ranges : BMap (List (Bool × Sym))) (e : (Nat × Nat) × Sym) :
    Res (BMap (List (Bool × Sym))) := do
  let ranges := ranges.pushAt e.1.1 (true, e.2)
  let after ← Res.ofOption (charFromU32 (e.1.2 + 1))
  .ok (ranges.pushAt after (false, e.2))

/-- `BTreeSet::insert` for symbols. `/repo/cfg-regexp-logic/src/lib.rs:109`. -/
def workInsert (s : Sym) : List Sym → List Sym
  | [] => [s]
  | t :: work => if s < t then s :: t :: work else if s = t then t :: work else t :: workInsert s work

/-- One change in the third loop of `compute`: insertion or `BTreeSet::remove`.
`/repo/cfg-regexp-logic/src/lib.rs:108-112`. -/
def workChange (work : List Sym) (change : Bool × Sym) : List Sym :=
  if change.1 then workInsert change.2 work else work.filter (· != change.2)

/-- The third loop of `compute`. `/repo/cfg-regexp-logic/src/lib.rs:104-118`. The keys ascend, so
that every `entry(ch)` is new and comes last. -/
def sweep : List Sym → BMap (List (Bool × Sym)) → BMap (List Sym)
  | _, [] => []
  | work, (ch, changes) :: ranges =>
    let work := changes.foldl workChange work
    (ch, work) :: sweep work ranges

/-- `LexerMap::compute`. `/repo/cfg-regexp-logic/src/lib.rs:82-120`. -/
def LexerMap.compute (m : LexerMap) : Res LexerMap := do
  let ascii ← m.pairs.foldlM asciiRange (List.replicate 256 [])
  let ranges ← m.pairs.foldlM changeRange []
  .ok { m with ascii := ascii, ranges := sweep [] ranges }

/-- `LexerMap::get`. `/repo/cfg-regexp-logic/src/lib.rs:122-132`. -/
def LexerMap.get (m : LexerMap) (ch : Nat) : Res (List Sym) :=
  if ch < 128 then Res.index m.ascii ch
  else .ok (((m.ranges.filter (·.1 ≤ ch)).getLast?.map (·.2)).getD [])

/-- Insertion of a new entry into `classes`. `/repo/cfg-regexp-logic/src/lib.rs:176-179,189-190`. -/
def insertClass (key : LexerClasses) (s : Sym) :
    List (LexerClasses × Sym) → List (LexerClasses × Sym)
  | [] => [(key, s)]
  | e :: m => if key.lt e.1 then (key, s) :: e :: m else e :: insertClass key s m

/-! ## Translation -/

/-- `regex_syntax::hir::HirKind`, matched at `/repo/cfg-regexp-logic/src/lib.rs:168-258`. A class
is given by its ranges; the greediness of a repetition, the name of a capture group and the kind
of a look-around are dropped, because the code ignores them. -/
inductive Hir where
  | empty
  | literal (bytes : List Nat)
  | cls (ranges : List (Nat × Nat))
  | look
  | repetition (min : Nat) (max : Option Nat) (sub : Hir)
  | capture (sub : Hir)
  | concat (exprs : List Hir)
  | alternation (exprs : List Hir)

/-- `Translator`. `/repo/cfg-regexp-logic/src/lib.rs:61-64`. -/
structure Translator where
  cfg : Cfg := Cfg.new
  classMap : LexerMap := {}
  deriving DecidableEq, Repr

/-- `classes.entry(key).or_insert_with(|| cfg.next_sym(name))`.
`/repo/cfg-regexp-logic/src/lib.rs:173-179,186-190`. -/
def Translator.classSym (t : Translator) (key : LexerClasses) (name : Option String) :
    Sym × Translator :=
  match t.classMap.classes.lookup key with
  | some s => (s, t)
  | none =>
    let (s, g) := t.cfg.nextSym name
    (s, { t with
      cfg := g
      classMap := { t.classMap with classes := insertClass key s t.classMap.classes } })

/-- One byte of a literal. `/repo/cfg-regexp-logic/src/lib.rs:172-180`. -/
def Translator.byteSym (p : Profile) (t : Translator) (byte : Nat) : Res (Sym × Translator) := do
  let key ← LexerClasses.ofByte p byte
  .ok (t.classSym key (some ("__byte" ++ toString byte)))

/-- The loop over the bytes of a literal. `/repo/cfg-regexp-logic/src/lib.rs:170-181`. -/
def Translator.bytes (p : Profile) : Translator → List Nat → Res (List Sym × Translator)
  | t, [] => .ok ([], t)
  | t, byte :: rest => do
    let (s, t) ← t.byteSym p byte
    let (syms, t) ← Translator.bytes p t rest
    .ok (s :: syms, t)

/-- `cfg.rule(lhs).rhs(rhs)`. `/repo/cfg-regexp-logic/src/lib.rs:150,205`,
`/repo/cfg-grammar/src/rule_builder.rs:46-63`. -/
def Translator.rule (t : Translator) (lhs : Sym) (rhs : List Sym) : Res Translator := do
  let (g, _) ← t.cfg.addRule ⟨lhs, rhs, History.ofRoot (.rule lhs)⟩
  .ok { t with cfg := g }

/-- A fresh symbol with one rule for every alternative.
`/repo/cfg-regexp-logic/src/lib.rs:148-159,203-214,234-238`. -/
def Translator.inner (t : Translator) (x : List (List Sym)) : Res (Sym × Translator) := do
  let (inner, g) := t.cfg.nextSym none
  let t ← x.foldlM (fun t rhs => Translator.rule t inner rhs) { t with cfg := g }
  .ok (inner, t)

/-- The symbol for a non-empty list of alternatives.
`/repo/cfg-regexp-logic/src/lib.rs:147-159,202-214`. -/
def Translator.oneSym (t : Translator) (x : List (List Sym)) : Res (Sym × Translator) :=
  match x with
  | [[s]] => .ok (s, t)
  | x => t.inner x

/-- The symbol for the alternatives of a repeated expression; an empty list is `unreachable!()`.
`/repo/cfg-regexp-logic/src/lib.rs:198-215`. -/
def Translator.repeated (t : Translator) (x : List (List Sym)) : Res (Sym × Translator) :=
  match x with
  | [] => .panic
  | x => t.oneSym x

/-- `cfg.sequence(lhs).inclusive(min, max).rhs(rhs)`. `/repo/cfg-regexp-logic/src/lib.rs:216`,
`/repo/cfg-sequence/src/ext.rs:15-19`, `/repo/cfg-sequence/src/builder.rs:35-101`. -/
def Translator.sequence (p : Profile) (t : Translator) (lhs : Sym) (min : Nat) (max : Option Nat)
    (rhs : Sym) : Res Translator := do
  let g ← t.cfg.rewriteSequence p ⟨lhs, rhs, min, max, .null, none⟩
  .ok { t with cfg := g }

/-- What one element adds to a concatenation. `/repo/cfg-regexp-logic/src/lib.rs:228-240`. -/
def Translator.concatPart (t : Translator) (x : List (List Sym)) : Res (List Sym × Translator) :=
  match x with
  | [] => .ok ([], t)
  | [syms] => .ok (syms, t)
  | x => do
    let (lhs, t) ← t.inner x
    .ok ([lhs], t)

mutual

/-- `walk_hir`. `/repo/cfg-regexp-logic/src/lib.rs:165-260`. -/
def Translator.walk (p : Profile) (t : Translator) : Hir → Res (List (List Sym) × Translator)
  | .empty => .ok ([[]], t)
  | .literal bytes => do
    let (syms, t) ← t.bytes p bytes
    .ok ([syms], t)
  | .cls ranges =>
    let (s, t) := t.classSym (LexerClasses.ofRanges ranges) none
    .ok ([[s]], t)
  | .look => .panic
  | .repetition min max sub => do
    let (lhs, g) := t.cfg.nextSym none
    let (x, t) ← Translator.walk p { t with cfg := g } sub
    let (rhs, t) ← t.repeated x
    let t ← t.sequence p lhs min max rhs
    .ok ([[lhs]], t)
  | .capture sub => Translator.walk p t sub
  | .concat exprs => do
    let (syms, t) ← Translator.walkConcat p t exprs
    .ok ([syms], t)
  | .alternation exprs => Translator.walkAlternatives p t exprs

/-- The loop for a concatenation. `/repo/cfg-regexp-logic/src/lib.rs:225-241`. -/
def Translator.walkConcat (p : Profile) (t : Translator) : List Hir → Res (List Sym × Translator)
  | [] => .ok ([], t)
  | expr :: exprs => do
    let (x, t) ← Translator.walk p t expr
    let (part, t) ← t.concatPart x
    let (syms, t) ← Translator.walkConcat p t exprs
    .ok (part ++ syms, t)

/-- The loop for an alternation. `/repo/cfg-regexp-logic/src/lib.rs:246-250`. -/
def Translator.walkAlternatives (p : Profile) (t : Translator) :
    List Hir → Res (List (List Sym) × Translator)
  | [] => .ok ([], t)
  | expr :: exprs => do
    let (x, t) ← Translator.walk p t expr
    let (rest, t) ← Translator.walkAlternatives p t exprs
    .ok (x ++ rest, t)

end

/-- The root for the alternatives of the whole expression.
`/repo/cfg-regexp-logic/src/lib.rs:141-160`. -/
def Translator.rootSym (t : Translator) (x : List (List Sym)) : Res (Sym × Translator) :=
  match x with
  | [] => t.inner [[]]
  | x => t.oneSym x

/-- `cfg_from_hir`. `/repo/cfg-regexp-logic/src/lib.rs:136-163`; `from_regexp` at
`/repo/cfg-regexp-logic/src/ext.rs:11-13` calls it with the parsed expression. -/
def cfgFromHir (p : Profile) (hir : Hir) : Res (Cfg × LexerMap) := do
  let (x, t) ← Translator.walk p {} hir
  let (lhs, t) ← t.rootSym x
  .ok (t.cfg.setRoots [lhs], t.classMap)

end Verif
