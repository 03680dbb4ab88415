import Verif.Model.Closure

/-!
# Model of `cfg-predict-sets` and of the LL(1) table of `cfg-classify`

`/repo/cfg-predict-sets/src/sets.rs`, `/repo/cfg-predict-sets/src/first.rs`,
`/repo/cfg-predict-sets/src/follow.rs`, `/repo/cfg-predict-sets/src/last.rs`,
`/repo/cfg-predict-sets/src/cfg_sets_ext.rs`, `/repo/cfg-classify/src/ll.rs`.

`sort_unstable` followed by `dedup` on a vector of symbols is `sortDedup` of
`Model/Closure.lean` (equal symbols cannot be told apart, so stability does not matter).
-/

namespace Verif

/-- `PerSymbolSetVal`, with the default value of `PerSymbolSetVal::new`.
`/repo/cfg-predict-sets/src/sets.rs:14-19,33-38`. -/
structure SetVal where
  hasNone : Bool := false
  list : List Sym := []
  deriving DecidableEq, Repr

/-- `PerSymbolSetVal::len`. `/repo/cfg-predict-sets/src/sets.rs:50-52`. -/
def SetVal.len (v : SetVal) : Nat := v.list.length + v.hasNone.toNat

/-- `PerSymbolSets`: a `BTreeMap` is a function. `/repo/cfg-predict-sets/src/sets.rs:22`. -/
abbrev SetMap := Sym → Option SetVal

/-- Writing an entry of the map. `/repo/cfg-predict-sets/src/first.rs:86-91`. -/
def SetMap.insert (m : SetMap) (k : Sym) (v : SetVal) : SetMap :=
  fun s => if s = k then some v else m s

/-- A loop `while changed { changed = false; round }` that is entered with `changed = true`.
`/repo/cfg-predict-sets/src/first.rs:74-82`, `/repo/cfg-predict-sets/src/follow.rs:39-69`.
One unit of fuel per round; running out of fuel is `diverge`. -/
def whileChanged {σ : Type} (round : σ → Res (σ × Bool)) : Nat → σ → Res σ
  | 0, _ => .diverge
  | fuel + 1, s => do
    let (s, changed) ← round s
    if changed then whileChanged round fuel s else .ok s

/-! ## FIRST -/

/-- `FirstSets`. `/repo/cfg-predict-sets/src/first.rs:15-20`. The scratch fields `lookahead`
(empty between calls of `process_rule`) and `changed` are left out. -/
structure FirstSets where
  map : SetMap
  terminalSet : BitSet

/-- `first_set_collect`; the lookahead set is passed and returned.
`/repo/cfg-predict-sets/src/first.rs:98-130`. -/
def firstSetCollect (terminal : BitSet) (map : SetMap) : SetVal → List Sym → Res SetVal
  | la, [] => .ok { la with hasNone := true }
  | la, sym :: rest => do
    if ← BitSet.get terminal sym then .ok { la with list := sortDedup (la.list ++ [sym]) }
    else
      match map sym with
      | none => .ok la
      | some v =>
        let la := { la with list := sortDedup (la.list ++ v.list) }
        if v.hasNone then firstSetCollect terminal map la rest else .ok la

/-- `process_rule`. `/repo/cfg-predict-sets/src/first.rs:84-95`. Returns the map and whether the
cardinality of the entry changed. -/
def firstProcessRule (terminal : BitSet) (map : SetMap) (rule : CfgRule) :
    Res (SetMap × Bool) := do
  let la ← firstSetCollect terminal map {} rule.rhs
  let old := (map rule.lhs).getD {}
  let new : SetVal := ⟨old.hasNone || la.hasNone, sortDedup (old.list ++ la.list)⟩
  .ok (map.insert rule.lhs new, old.len != new.len)

/-- One round of `collect_from`. `/repo/cfg-predict-sets/src/first.rs:76-80`. -/
def firstRound (terminal : BitSet) : List CfgRule → SetMap × Bool → Res (SetMap × Bool)
  | [], st => .ok st
  | rule :: rules, (map, changed) => do
    let (map, setChanged) ← firstProcessRule terminal map rule
    firstRound terminal rules (map, changed || setChanged)

/-- `FirstSets::new` and `CfgSetsExt::first_sets`. `/repo/cfg-predict-sets/src/first.rs:38-48`,
`/repo/cfg-predict-sets/src/cfg_sets_ext.rs:19-21`. The fuel is more than the number of members
that all sets together can have; `Proofs/First.lean` shows that it is never used up. -/
def Cfg.firstSets (g : Cfg) : Res FirstSets := do
  let terminal ← g.terminalSymbols
  let map ← whileChanged (fun map => firstRound terminal g.rules (map, false))
    (g.numSyms * (g.numSyms + 1) + 1) (fun _ => none)
  .ok ⟨map, terminal⟩

/-- The loop of `first_set_for_string`. `/repo/cfg-predict-sets/src/first.rs:53-66`. -/
def firstStringLoop (fs : FirstSets) : List Sym → List Sym → Res (List Sym)
  | result, [] => .ok result
  | result, sym :: rest => do
    if ← BitSet.get fs.terminalSet sym then .ok (result ++ [sym])
    else
      let v ← Res.ofOption (fs.map sym)
      if v.list.isEmpty then firstStringLoop fs v.list rest else .ok v.list

/-- `first_set_for_string`. `/repo/cfg-predict-sets/src/first.rs:51-72`. -/
def FirstSets.firstSetForString (fs : FirstSets) (string : List Sym) : Res SetVal := do
  let result ← firstStringLoop fs [] string
  .ok ⟨result.isEmpty, result⟩

/-! ## FOLLOW -/

/-- The first loop of `FollowSets::new`: an entry for every left side, with the flag set for
roots. `/repo/cfg-predict-sets/src/follow.rs:27-37`. Sorting followed by binary search is
membership. -/
def followInit (roots : List Sym) (rules : List CfgRule) : SetMap :=
  rules.foldl (fun map rule =>
    let v := (map rule.lhs).getD {}
    map.insert rule.lhs (if roots.contains rule.lhs then { v with hasNone := true } else v))
    (fun _ => none)

/-- Body of the innermost loop. `/repo/cfg-predict-sets/src/follow.rs:50-67`. The state is the
map, the local `follow_set` and the flag `changed`. -/
def followSym (terminal : BitSet) (first : SetMap) (st : SetMap × SetVal × Bool) (sym : Sym) :
    Res (SetMap × SetVal × Bool) := do
  let (map, followSet, changed) := st
  if ← BitSet.get terminal sym then .ok (map, ⟨false, [sym]⟩, changed)
  else
    let followed ← Res.ofOption (map sym)
    let new : SetVal := { followed with list := sortDedup (followed.list ++ followSet.list) }
    let firstSet ← Res.ofOption (first sym)
    let followSet := if firstSet.hasNone then followSet else {}
    .ok (map.insert sym new, { followSet with list := followSet.list ++ firstSet.list },
      changed || followed.len != new.len)

/-- One round of the loop of `FollowSets::new`. `/repo/cfg-predict-sets/src/follow.rs:43-68`. -/
def followRound (terminal : BitSet) (first : SetMap) :
    List CfgRule → SetMap × Bool → Res (SetMap × Bool)
  | [], st => .ok st
  | rule :: rules, (map, changed) => do
    let followSet ← Res.ofOption (map rule.lhs)
    let (map, _, changed) ←
      rule.rhs.reverse.foldlM (followSym terminal first) (map, followSet, changed)
    followRound terminal first rules (map, changed)

/-- `FollowSets::new` and `follow_sets_with_first`.
`/repo/cfg-predict-sets/src/follow.rs:22-73`,
`/repo/cfg-predict-sets/src/cfg_sets_ext.rs:27-29`. `terminal_symbols` is computed once instead
of once per round (the grammar does not change). -/
def Cfg.followSetsWithFirst (g : Cfg) (first : SetMap) : Res SetMap := do
  let terminal ← g.terminalSymbols
  whileChanged (fun map => followRound terminal first g.rules (map, false))
    (g.numSyms * (g.numSyms + 1) + 1) (followInit g.roots g.rules)

/-- `CfgSetsExt::follow_sets`. `/repo/cfg-predict-sets/src/cfg_sets_ext.rs:23-25`. -/
def Cfg.followSets (g : Cfg) : Res SetMap := do
  let first ← g.firstSets
  g.followSetsWithFirst first.map

/-! ## LAST -/

/-- `LastSets::new`. `/repo/cfg-predict-sets/src/last.rs:23-33`. -/
def Cfg.lastSets (g : Cfg) : Res SetMap := do
  let first ← g.reverse.firstSets
  .ok first.map

/-! ## LL(1) table -/

/-- The map of `LlParseTable` from (nonterminal, terminal) to rule indices.
`/repo/cfg-classify/src/ll.rs:11-20`. A `BTreeMap` is an association list without repeated keys;
its order is not modelled (nothing depends on it). -/
abbrev LlTable := List ((Sym × Sym) × List Nat)

/-- The entry of a key. `/repo/cfg-classify/src/ll.rs:56,66`. -/
def LlTable.get? (t : LlTable) (key : Sym × Sym) : Option (List Nat) :=
  (t.find? fun e => e.1 = key).map (·.2)

/-- `map.entry(key).or_default().push(rule_idx)`. `/repo/cfg-classify/src/ll.rs:56-57,66-67`. -/
def LlTable.push : LlTable → Sym × Sym → Nat → LlTable
  | [], key, idx => [(key, [idx])]
  | (k, l) :: t, key, idx =>
    if k = key then (k, l ++ [idx]) :: t else (k, l) :: LlTable.push t key idx

/-- The loop `for &terminal in set { .. }`. `/repo/cfg-classify/src/ll.rs:51-58,61-68`. -/
def LlTable.pushAll (t : LlTable) (lhs : Sym) (terminals : List Sym) (idx : Nat) : LlTable :=
  terminals.foldl (fun t a => t.push (lhs, a) idx) t

/-- Body of the loop over the rules. `/repo/cfg-classify/src/ll.rs:49-70`. -/
def llBody (first : FirstSets) (follow : SetMap) (t : LlTable) (e : CfgRule × Nat) :
    Res LlTable := do
  let (rule, idx) := e
  let v ← first.firstSetForString rule.rhs
  let t := t.pushAll rule.lhs v.list idx
  if v.hasNone then
    let f ← Res.ofOption (follow rule.lhs)
    .ok (t.pushAll rule.lhs f.list idx)
  else .ok t

/-- `LlParseTable::new`. `/repo/cfg-classify/src/ll.rs:39-72`, `/repo/cfg-classify/src/lib.rs:50-52`. -/
def Cfg.llParseTable (g : Cfg) : Res LlTable := do
  let first ← g.firstSets
  let follow ← g.followSetsWithFirst first.map
  g.rules.zipIdx.foldlM (llBody first follow) []

/-- `LlNonterminalClass`. `/repo/cfg-classify/src/ll.rs:30-35`. -/
inductive LlClass where
  | ll1 | contextFree
  deriving DecidableEq, Repr

/-- The map of `LlClassification` as a function. `/repo/cfg-classify/src/ll.rs:24-26`. -/
abbrev LlClasses := Sym → Option LlClass

/-- Body of the first loop of `classify`. `/repo/cfg-classify/src/ll.rs:79-90`. -/
def llClassBody (classes : LlClasses) (e : (Sym × Sym) × List Nat) : LlClasses :=
  if e.2.length > 1 then fun s => if s = e.1.1 then some .contextFree else classes s
  else fun s => if s = e.1.1 then some ((classes s).getD .ll1) else classes s

/-- `LlParseTable::classify`. `/repo/cfg-classify/src/ll.rs:75-105`. The loops over the entries
of `classes` run over all symbols that have an entry; an entry outside of the bit set would
panic. -/
def Cfg.llClassify (g : Cfg) (t : LlTable) : Res LlClasses := do
  let classes : LlClasses := t.foldl llClassBody (fun _ => none)
  let keys := t.map fun e => e.1.1
  let property ← keys.foldlM
    (fun b s => if classes s = some .contextFree then BitSet.set b s true else .ok b)
    (BitSet.reset g.src)
  let property ← g.rhsClosureForAny property
  let _ ← keys.mapM fun s => BitSet.get property s
  .ok fun s =>
    match classes s with
    | none => none
    | some c => if property[s]? = some true then some .contextFree else some c

end Verif
