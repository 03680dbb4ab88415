import Verif.Model.Closure
import Verif.Model.Matrix

/-!
# Model of `cfg-classify`: usefulness, cycles, recursion

`/repo/cfg-classify/src/useful.rs`, `/repo/cfg-classify/src/cyclical.rs`,
`/repo/cfg-classify/src/recursive.rs`, `/repo/cfg-classify/src/lib.rs`.
-/

namespace Verif

/-! ## Usefulness -/

/-- `Usefulness`. `/repo/cfg-classify/src/useful.rs:13-17`. -/
structure Usefulness where
  reachability : BitMatrix
  reachableSyms : BitSet
  productivity : BitSet
  deriving DecidableEq, Repr

/-- `productive_syms`. `/repo/cfg-classify/src/useful.rs:58-64`. -/
def Cfg.productiveSyms (g : Cfg) : Res BitSet := do
  let b ← BitSet.terminal g
  let b ← BitSet.nulling b g
  g.rhsClosureForAll b

/-- `Usefulness::new`. `/repo/cfg-classify/src/useful.rs:69-89`. The `debug_assert_eq!` on the
sizes panics if they differ; `SymbolBitSet::from_elem(grammar, false)` is `reset`. -/
def Usefulness.new (g : Cfg) : Res Usefulness := do
  let productivity ← g.productiveSyms
  let reachability ← g.reachabilityMatrix
  let reachability := reachability.reflexiveClosure
  let unusedSyms ← BitSet.unused g
  let productivity ← BitSet.union productivity unusedSyms
  let reachableSyms ← BitSet.union (BitSet.reset g.src) unusedSyms
  if reachability.length = productivity.length then
    .ok ⟨reachability, reachableSyms, productivity⟩
  else .panic

namespace Usefulness

/-- `Usefulness::reachable`. `/repo/cfg-classify/src/useful.rs:98-104`. -/
def reachable (u : Usefulness) (syms : List Sym) : Res Usefulness := do
  let reachableSyms ← syms.foldlM (fun b sym => do
    let derived ← u.reachability.iterRowSyms sym
    BitSet.setMany b derived true) u.reachableSyms
  .ok { u with reachableSyms := reachableSyms }

/-- `Usefulness::all_useful`. `/repo/cfg-classify/src/useful.rs:107-109`. -/
def allUseful (u : Usefulness) : Bool :=
  BitSet.all u.productivity && BitSet.all u.reachableSyms

/-- `RuleUsefulness`. `/repo/cfg-classify/src/useful.rs:26-32`. -/
structure RuleUsefulness where
  reachable : Bool
  productive : Bool
  deriving DecidableEq, Repr

/-- `RuleUsefulness::is_useless`. `/repo/cfg-classify/src/useful.rs:48-50`. -/
def RuleUsefulness.isUseless (u : RuleUsefulness) : Bool := !u.reachable || !u.productive

/-- `Usefulness::usefulness`. `/repo/cfg-classify/src/useful.rs:122-132`. -/
def usefulness (u : Usefulness) (rule : CfgRule) : Res RuleUsefulness := do
  let productive ← rhsSatisfies .all u.productivity rule.rhs
  let reachable ← BitSet.get u.reachableSyms rule.lhs
  .ok ⟨reachable, productive⟩

/-- `Usefulness::useless_rules`, with the rules only.
`/repo/cfg-classify/src/useful.rs:134-154`. -/
def uselessRules (u : Usefulness) : List CfgRule → Res (List CfgRule)
  | [] => .ok []
  | rule :: rules => do
    let x ← u.usefulness rule
    let rest ← u.uselessRules rules
    .ok (if x.isUseless then rule :: rest else rest)

/-- `grammar.retain(rule_is_useful)`. `/repo/cfg-classify/src/useful.rs:159-166`. -/
def retainUseful (u : Usefulness) : List CfgRule → Res (List CfgRule)
  | [] => .ok []
  | rule :: rules => do
    let productive ← rhsSatisfies .all u.productivity rule.rhs
    let reachable ← BitSet.get u.reachableSyms rule.lhs
    let rest ← u.retainUseful rules
    .ok (if productive && reachable then rule :: rest else rest)

/-- `Usefulness::remove_useless_rules`. `/repo/cfg-classify/src/useful.rs:157-168`. -/
def removeUselessRules (u : Usefulness) (g : Cfg) : Res Cfg :=
  if u.allUseful then .ok g
  else do .ok { g with rules := ← u.retainUseful g.rules }

end Usefulness

/-- `usefulness_with_roots`. `/repo/cfg-classify/src/lib.rs:75-79`. -/
def Cfg.usefulnessWithRoots (g : Cfg) (roots : List Sym) : Res Usefulness := do
  (← Usefulness.new g).reachable roots

/-- `CfgClassifyExt::usefulness`. `/repo/cfg-classify/src/lib.rs:68-73`. -/
def Cfg.usefulness (g : Cfg) : Res Usefulness := g.usefulnessWithRoots g.roots

/-- `make_proper`. `/repo/cfg-classify/src/lib.rs:81-93`. Returns the changed grammar and the
Boolean result. -/
def Cfg.makeProper (g : Cfg) : Res (Cfg × Bool) := do
  let u ← g.usefulness
  let containsUseless := !u.allUseful
  if containsUseless then do .ok (← u.removeUselessRules g, !containsUseless)
  else .ok (g, !containsUseless)

/-! ## Cycles -/

/-- `Cycles`; the borrowed grammar is a field. `/repo/cfg-classify/src/cyclical.rs:12-16`. -/
structure Cycles where
  grammar : Cfg
  unitDerivation : BitMatrix
  cycleFree : Option Bool := none
  deriving DecidableEq, Repr

namespace Cycles

/-- `Cycles::new`. `/repo/cfg-classify/src/cyclical.rs:20-26`. -/
def new (g : Cfg) : Res Cycles := do .ok ⟨g, ← g.unitDerivationMatrix, none⟩

/-- `(0..n).all(|i| !m[(i, i)])`, stopping at the first hit.
`/repo/cfg-classify/src/cyclical.rs:31-33`. -/
def diagonalFree (m : BitMatrix) : List Sym → Res Bool
  | [] => .ok true
  | i :: is => do if ← m.get i i then .ok false else diagonalFree m is

/-- `Cycles::cycle_free`. `/repo/cfg-classify/src/cyclical.rs:29-35`. Returns the answer and
the object, whose cache is filled. -/
def isCycleFree (c : Cycles) : Res (Bool × Cycles) :=
  match c.cycleFree with
  | some b => .ok (b, c)
  | none => do
    let b ← diagonalFree c.unitDerivation (List.range c.grammar.numSyms)
    .ok (b, { c with cycleFree := some b })

/-- The predicate `rule.rhs.len() == 1 && self.unit_derivation[(rule.rhs[0], rule.lhs)]`.
`/repo/cfg-classify/src/cyclical.rs:42,65,79`. -/
def participates (m : BitMatrix) (rule : CfgRule) : Res Bool :=
  match rule.rhs with
  | [sym] => m.get sym rule.lhs
  | _ => .ok false

/-- `Cycles::classify`. `/repo/cfg-classify/src/cyclical.rs:38-45`. -/
def classify (c : Cycles) : Res (List (CfgRule × Bool)) :=
  c.grammar.rules.mapM fun rule => do .ok (rule, ← participates c.unitDerivation rule)

/-- `Cycles::cycle_participants`. `/repo/cfg-classify/src/cyclical.rs:48-56`. -/
def cycleParticipants (c : Cycles) (getCyclical : Bool) : Res (List CfgRule) := do
  .ok ((← c.classify).filterMap fun (rule, isCyclical) =>
    if isCyclical ^^ !getCyclical then some rule else none)

/-- `retain(|rule| !participates(rule))`. `/repo/cfg-classify/src/cyclical.rs:64-66`. -/
def retainAcyclic (m : BitMatrix) : List CfgRule → Res (List CfgRule)
  | [] => .ok []
  | rule :: rules => do
    let p ← participates m rule
    let rest ← retainAcyclic m rules
    .ok (if p then rest else rule :: rest)

/-- `Cycles::remove_cycles`. `/repo/cfg-classify/src/cyclical.rs:62-68`. -/
def removeCycles (c : Cycles) : Res Cycles := do
  let (b, c) ← c.isCycleFree
  if b then .ok c
  else do
    let rules ← retainAcyclic c.unitDerivation c.grammar.rules
    .ok { c with grammar := { c.grammar with rules := rules } }

/-- The map `translation`: absent, `None` (a representative) or `Some(representative)`.
`/repo/cfg-classify/src/cyclical.rs:73`. A `BTreeMap` is a function. -/
abbrev Translation := Sym → Option (Option Sym)

/-- The members of `row`: the `s` with `lhs_derives && unit_derivation[(s, rule.lhs)]`.
`/repo/cfg-classify/src/cyclical.rs:85-90`. -/
def cycleMembers (m : BitMatrix) (lhs : Sym) : List (Bool × Nat) → Res (List Sym)
  | [] => .ok []
  | (lhsDerives, s) :: rest => do
    let b ← if lhsDerives then m.get s lhs else .ok false
    let members ← cycleMembers m lhs rest
    .ok (if b then s :: members else members)

/-- The inner loops that enter the cycle of `lhs` into the map.
`/repo/cfg-classify/src/cyclical.rs:83-94`: all `s` with `lhs →⁺ s` and `s →⁺ lhs`. -/
def enterCycle (m : BitMatrix) (tr : Translation) (lhs : Sym) : Res Translation := do
  let row ← Res.index m lhs
  let members ← cycleMembers m lhs row.zipIdx
  let tr : Translation := members.foldl
    (fun tr sym s => if s = sym then some (some lhs) else tr s) tr
  .ok fun s => if s = lhs then some none else tr s

/-- The first `retain` of `rewrite_cycles`. `/repo/cfg-classify/src/cyclical.rs:77-100`. -/
def collect (m : BitMatrix) : Translation → List CfgRule → Res (Translation × List CfgRule)
  | tr, [] => .ok (tr, [])
  | tr, rule :: rules => do
    if ← participates m rule then
      let tr ← if (tr rule.lhs).isNone then enterCycle m tr rule.lhs else .ok tr
      collect m tr rules
    else
      let (tr, rest) ← collect m tr rules
      .ok (tr, rule :: rest)

/-- `if let Some(&Some(new)) = translation.get(&sym)`: the replacement of a symbol.
`/repo/cfg-classify/src/cyclical.rs:107,113`. -/
def Translation.apply (tr : Translation) (sym : Sym) : Sym :=
  match tr sym with
  | some (some new) => new
  | _ => sym

/-- The flag `changed`: some symbol of the rule has a replacement.
`/repo/cfg-classify/src/cyclical.rs:106-117`. -/
def Translation.changes (tr : Translation) (rule : CfgRule) : Bool :=
  (rule.lhs :: rule.rhs).any fun sym => (tr sym).join.isSome

/-- The rewritten rule. `/repo/cfg-classify/src/cyclical.rs:118-124`. -/
def Translation.rule (tr : Translation) (rule : CfgRule) : CfgRule :=
  ⟨tr.apply rule.lhs, rule.rhs.map tr.apply, rule.history⟩

/-- `Cycles::rewrite_cycles`. `/repo/cfg-classify/src/cyclical.rs:72-130`. -/
def rewriteCycles (c : Cycles) : Res Cycles := do
  let (b, c) ← c.isCycleFree
  if b then .ok c
  else do
    let (tr, rules) ← collect c.unitDerivation (fun _ => none) c.grammar.rules
    let g := { c.grammar with rules := rules.filter fun rule => !tr.changes rule }
    let g ← g.addRules ((rules.filter fun rule => tr.changes rule).map tr.rule)
    .ok { c with grammar := g }

end Cycles

/-! ## Recursion -/

/-- `RecursionKind`. `/repo/cfg-classify/src/recursive.rs:14-23`. -/
structure RecursionKind where
  left : Bool
  middle : Bool
  right : Bool
  deriving DecidableEq, Repr

/-- `RecursionKind::any`. `/repo/cfg-classify/src/recursive.rs:183-185`. -/
def RecursionKind.any (k : RecursionKind) : Bool := k.left || k.middle || k.right

/-- `.any(|&rhs_sym| derivation[(rhs_sym, lhs)])`, stopping at the first hit.
`/repo/cfg-classify/src/recursive.rs:172-177`. -/
def anyDerives (m : BitMatrix) (lhs : Sym) : List Sym → Res Bool
  | [] => .ok false
  | s :: rest => do if ← m.get s lhs then .ok true else anyDerives m lhs rest

/-- `rule_recursion`. `/repo/cfg-classify/src/recursive.rs:157-180`. -/
def ruleRecursion (rule : CfgRule) (m : BitMatrix) : Res (Option RecursionKind) :=
  match rule.rhs.head?, rule.rhs.getLast? with
  | some first, some last => do
    let left ← m.get first rule.lhs
    let right ← m.get last rule.lhs
    let middle ← anyDerives m rule.lhs ((rule.rhs.drop 1).take (rule.rhs.length - 2))
    let kind : RecursionKind := ⟨left, middle, right⟩
    .ok (if kind.any then some kind else none)
  | _, _ => .ok none

/-- `Recursion::recursive_rules`: the rules listed, with their kinds.
`/repo/cfg-classify/src/recursive.rs:64-73,106-131`. -/
def Cfg.recursiveRules (g : Cfg) : Res (List (CfgRule × RecursionKind)) := do
  let m ← g.reachabilityMatrix
  let kinds ← g.rules.mapM fun rule => do .ok (rule, ← ruleRecursion rule m)
  .ok (kinds.filterMap fun (rule, kind) => kind.map fun k => (rule, k))

end Verif
