import Verif.Model.Classify
import Verif.Model.Distance

/-!
# Model of `Recursion::minimal_distances`

`/repo/cfg-classify/src/recursive.rs:75-104,133-155`. The iterator is modelled as the list of its
items.
-/

namespace Verif

/-- `RecursiveRule` with distances. `/repo/cfg-classify/src/recursive.rs:37-46`. -/
structure RecursiveRule where
  rule : CfgRule
  recursion : RecursionKind
  distances : Nat × Nat
  deriving DecidableEq, Repr

/-- The positions of one rule whose symbol leads back to the left side.
`/repo/cfg-classify/src/recursive.rs:86-93`. -/
def ruleDots (m : BitMatrix) (rule : CfgRule) (idx : Nat) : Res (List (Nat × Nat)) := do
  let flags ← rule.rhs.mapM fun rhsSym => m.get rhsSym rule.lhs
  .ok ((flags.zipIdx.filter fun x => x.1).map fun x => (idx, x.2))

/-- The vector `dots`. `/repo/cfg-classify/src/recursive.rs:84-94`. -/
def Cfg.recursiveDots (g : Cfg) (m : BitMatrix) : Res (List (Nat × Nat)) := do
  let dots ← g.rules.zipIdx.mapM fun x => ruleDots m x.1 x.2
  .ok dots.flatten

/-- An item of the iterator, for one rule. `/repo/cfg-classify/src/recursive.rs:136-154`. -/
def MinimalDistance.recursiveRule (d : MinimalDistance) (m : BitMatrix) (rule : CfgRule) (idx : Nat) :
    Res (Option RecursiveRule) := do
  match ← ruleRecursion rule m with
  | some recursion => do
    let row ← Res.index d.distances idx
    let first ← Res.index row 0
    let last ← Res.index row (row.length - 1)
    .ok (some ⟨rule, recursion, (first.getD (2 ^ 32 - 1), last.getD (2 ^ 32 - 1))⟩)
  | none => .ok none

/-- `Recursion::new(g).minimal_distances()`, the items of the iterator.
`/repo/cfg-classify/src/recursive.rs:66-73,82-104,133-155`. -/
def Cfg.recursionDistances (g : Cfg) : Res (List RecursiveRule) := do
  let m ← g.reachabilityMatrix
  let dots ← g.recursiveDots m
  let d ← (MinimalDistance.new g).minimalDistances g dots .symmetric
  let items ← g.rules.zipIdx.mapM fun x => d.recursiveRule m x.1 x.2
  .ok (items.filterMap id)

end Verif
