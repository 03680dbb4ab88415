import Verif.Model.BitSet

/-!
# Model of the property propagation in `cfg-grammar`

`/repo/cfg-grammar/src/occurence_map.rs` and `rhs_closure`, `rhs_closure_with_values` of
`/repo/cfg-grammar/src/cfg.rs`.
-/

namespace Verif

/-- `Occurences`. `/repo/cfg-grammar/src/occurence_map.rs:14-17`. -/
structure Occurences where
  lhs : List Nat := []
  rhs : List Nat := []
  deriving DecidableEq, Repr

/-- `OccurenceMap`: the `BTreeMap` with its default value is a function.
`/repo/cfg-grammar/src/occurence_map.rs:7-10,45-47`. -/
abbrev OccurenceMap := Nat → Occurences

/-- `Vec::dedup` on symbols. `/repo/cfg-grammar/src/occurence_map.rs:30`. -/
def dedupSyms : List Sym → List Sym
  | [] => []
  | [a] => [a]
  | a :: b :: l => if a = b then dedupSyms (b :: l) else a :: dedupSyms (b :: l)

/-- `rhs_syms.sort(); rhs_syms.dedup()`. `/repo/cfg-grammar/src/occurence_map.rs:28-30`. -/
def sortDedup (l : List Sym) : List Sym := dedupSyms (l.insertionSort (· ≤ ·))

/-- Loop body of `from_rules`: `occurences.entry(rhs_sym).or_insert(..).rhs.push(i)`.
`/repo/cfg-grammar/src/occurence_map.rs:31-37`. -/
def OccurenceMap.pushRhs (m : OccurenceMap) (i : Nat) (sym : Sym) : OccurenceMap :=
  fun s => if s = sym then { m s with rhs := (m s).rhs ++ [i] } else m s

/-- `OccurenceMap::from_rules`. `/repo/cfg-grammar/src/occurence_map.rs:20-43`. -/
def OccurenceMap.fromRules (rules : List CfgRule) : OccurenceMap :=
  rules.zipIdx.foldl (fun m (rule, i) =>
    let m : OccurenceMap := fun s =>
      if s = rule.lhs then { m s with lhs := (m s).lhs ++ [i] } else m s
    (sortDedup rule.rhs).foldl (fun m sym => OccurenceMap.pushRhs m i sym) m)
    (fun _ => {})

/-- `RhsPropertyMode`. `/repo/cfg-grammar/src/cfg.rs:92-99`. -/
inductive RhsPropertyMode where
  | all | any
  deriving DecidableEq, Repr

/-- `rhs_iter.all(get_property)` / `rhs_iter.any(get_property)` with short-circuiting.
`/repo/cfg-grammar/src/cfg.rs:570-575`. -/
def rhsSatisfies (mode : RhsPropertyMode) (property : BitSet) : List Sym → Res Bool
  | [] => .ok (mode = .all)
  | sym :: rest => do
    let b ← BitSet.get property sym
    match mode with
    | .all => if b then rhsSatisfies .all property rest else .ok false
    | .any => if b then .ok true else rhsSatisfies .any property rest

/-- Body of the inner `for` loop of `rhs_closure`. `/repo/cfg-grammar/src/cfg.rs:569-579`.
The state is the property set and the stack (head = top). -/
def closureBody (mode : RhsPropertyMode) (rules : List CfgRule) (st : BitSet × List Sym)
    (ruleId : Nat) : Res (BitSet × List Sym) := do
  let (property, stack) := st
  let rule ← Res.index rules ruleId
  let satisfied ← rhsSatisfies mode property rule.rhs
  let has ← BitSet.get property rule.lhs
  if !has && satisfied then
    let property ← BitSet.set property rule.lhs true
    .ok (property, rule.lhs :: stack)
  else .ok (property, stack)

/-- The `while let Some(work_sym) = tmp_stack.pop()` loop of `rhs_closure`.
`/repo/cfg-grammar/src/cfg.rs:567-581`. One unit of fuel per popped symbol. -/
def closureLoop (mode : RhsPropertyMode) (rules : List CfgRule) (occ : OccurenceMap) :
    Nat → BitSet → List Sym → Res BitSet
  | _, property, [] => .ok property
  | 0, _, _ :: _ => .diverge
  | fuel + 1, property, workSym :: stack => do
    let (property, stack) ← (occ workSym).rhs.foldlM (closureBody mode rules) (property, stack)
    closureLoop mode rules occ fuel property stack

/-- `Cfg::rhs_closure`. `/repo/cfg-grammar/src/cfg.rs:561-584`. The stack starts with the
members in increasing order, the last one on top. The fuel is twice the size of the set;
`Proofs/Closure.lean` shows that it is never used up. -/
def Cfg.rhsClosure (g : Cfg) (mode : RhsPropertyMode) (property : BitSet) : Res BitSet :=
  closureLoop mode g.rules (OccurenceMap.fromRules g.rules) (2 * property.length + 1) property
    (BitSet.iter property).reverse

/-- `Cfg::rhs_closure_for_all`. `/repo/cfg-grammar/src/cfg.rs:546-548`. -/
def Cfg.rhsClosureForAll (g : Cfg) (property : BitSet) : Res BitSet := g.rhsClosure .all property

/-- `Cfg::rhs_closure_for_any`. `/repo/cfg-grammar/src/cfg.rs:553-555`. -/
def Cfg.rhsClosureForAny (g : Cfg) (property : BitSet) : Res BitSet := g.rhsClosure .any property

/-- The `try_fold` of `rhs_closure_with_values`: sum of the values of the right side, `none` if
one is missing. `/repo/cfg-grammar/src/cfg.rs:607-610`. The addition of `u32` panics on
overflow (debug profile; for the release profile, in which it wraps, see `Model/ValuesRelease.lean`). -/
def sumValues (value : List (Option Nat)) : Nat → List Sym → Res (Option Nat)
  | acc, [] => .ok (some acc)
  | acc, elem :: rest => do
    match ← Res.index value elem with
    | none => .ok none
    | some val => if 2 ^ 32 ≤ acc + val then .panic else sumValues value (acc + val) rest

/-- Body of the inner loop of `rhs_closure_with_values`.
`/repo/cfg-grammar/src/cfg.rs:606-620`. -/
def valuesBody (rules : List CfgRule) (st : List (Option Nat) × List Sym) (ruleId : Nat) :
    Res (List (Option Nat) × List Sym) := do
  let (value, stack) := st
  let rule ← Res.index rules ruleId
  match ← sumValues value 0 rule.rhs with
  | none => .ok (value, stack)
  | some workValue =>
    match ← Res.index value rule.lhs with
    | some currentValue =>
      if currentValue ≤ workValue then .ok (value, stack)
      else .ok (value.set rule.lhs (some workValue), rule.lhs :: stack)
    | none => .ok (value.set rule.lhs (some workValue), rule.lhs :: stack)

/-- The main loop of `rhs_closure_with_values`. `/repo/cfg-grammar/src/cfg.rs:600-621`. -/
def valuesLoop (rules : List CfgRule) (occ : OccurenceMap) :
    Nat → List (Option Nat) → List Sym → Res (List (Option Nat))
  | _, value, [] => .ok value
  | 0, _, _ :: _ => .diverge
  | fuel + 1, value, workSym :: stack => do
    let (value, stack) ← (occ workSym).rhs.foldlM (valuesBody rules) (value, stack)
    valuesLoop rules occ fuel value stack

/-- Fuel for `valuesLoop` (the loop at `/repo/cfg-grammar/src/cfg.rs:600-621` has none): a bound
on the number of stack pops, see `Proofs/Values.lean`. -/
def valuesFuel (value : List (Option Nat)) : Nat := value.length * (2 ^ 32 + 2) + 1

/-- `Cfg::rhs_closure_with_values`. `/repo/cfg-grammar/src/cfg.rs:590-624`. -/
def Cfg.rhsClosureWithValues (g : Cfg) (value : List (Option Nat)) : Res (List (Option Nat)) :=
  valuesLoop g.rules (OccurenceMap.fromRules g.rules) (valuesFuel value) value
    ((value.zipIdx.filterMap fun (v, sym) => if v.isSome then some sym else none).reverse)

end Verif
