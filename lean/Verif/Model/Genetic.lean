import Verif.Model.Symbol

/-!
# Model of the unfinished genetic search

`/repo/cfg-generate/src/genetic.rs`. The module is private and no other module calls it.
`BTreeSet` is a list in strictly increasing order.
-/

namespace Verif.Genetic

/-- `RuleKind`. `/repo/cfg-generate/src/genetic.rs:48-60`. -/
inductive RuleKind where
  | cyclical
  | leftRecursive
  | rightRecursive
  | middleRecursive (position : Nat)
  | ll (lookahead : Nat)
  | lr (lookahead : Nat)
  | lalr (lookahead : Nat)
  | regular
  | contextFree
  | anyKind
  deriving DecidableEq, Repr

/-- `Rhs`. `/repo/cfg-generate/src/genetic.rs:62-75`. -/
inductive Rhs where
  | unary (rhs0 : Sym) (rhs0IsTransparent : Bool)
  | binary (rhs0 : Sym) (rhs0IsTransparent : Bool) (rhs1 : Sym) (rhs1IsTransparent : Bool)
  | any
  deriving DecidableEq, Repr

/-- The derived order compares the number of the variant, then the fields in order.
`/repo/cfg-generate/src/genetic.rs:48-60`. -/
def RuleKind.key : RuleKind → List Nat
  | .cyclical => [0]
  | .leftRecursive => [1]
  | .rightRecursive => [2]
  | .middleRecursive n => [3, n]
  | .ll n => [4, n]
  | .lr n => [5, n]
  | .lalr n => [6, n]
  | .regular => [7]
  | .contextFree => [8]
  | .anyKind => [9]

/-- The derived order compares the number of the variant, then the fields in order, with `false`
before `true`. `/repo/cfg-generate/src/genetic.rs:62-75`. -/
def Rhs.key : Rhs → List Nat
  | .unary a x => [0, a, x.toNat]
  | .binary a x b y => [1, a, x.toNat, b, y.toNat]
  | .any => [2]

/-- `RuleDescription`; `amount` is a range of a start and an end.
`/repo/cfg-generate/src/genetic.rs:26-31`. -/
structure RuleDescription where
  ruleKind : RuleKind
  rhs : Rhs
  start : Nat
  stop : Nat
  deriving DecidableEq, Repr

/-- Derived comparison of keys. `/repo/cfg-generate/src/genetic.rs:48-75`. -/
def cmpKey : List Nat → List Nat → Ordering
  | [], [] => .eq
  | [], _ :: _ => .lt
  | _ :: _, [] => .gt
  | a :: as, b :: bs => (compare a b).then (cmpKey as bs)

/-- `Ord::cmp` of rule descriptions. `/repo/cfg-generate/src/genetic.rs:39-47`. -/
def RuleDescription.cmp (a b : RuleDescription) : Ordering :=
  let ordering := (cmpKey a.ruleKind.key b.ruleKind.key).then (cmpKey a.rhs.key b.rhs.key)
  (ordering.then (compare a.start b.start)).then (compare a.stop b.stop)

/-- `Population`. `/repo/cfg-generate/src/genetic.rs:22-24`. -/
structure Population where
  ruleDescriptions : List RuleDescription
  deriving DecidableEq, Repr

/-- `BTreeSet::insert`: an equal element that is there stays.
Used at `/repo/cfg-generate/src/genetic.rs:96-98`. -/
def insertSorted (x : RuleDescription) : List RuleDescription → List RuleDescription
  | [] => [x]
  | y :: ys => match x.cmp y with
    | .lt => x :: y :: ys
    | .eq => y :: ys
    | .gt => y :: insertSorted x ys

/-- `Mutation`. `/repo/cfg-generate/src/genetic.rs:77-81`. -/
structure Mutation where
  randomness : Nat
  numberOfSymbols : Nat

/-- `Population::new`. `/repo/cfg-generate/src/genetic.rs:84-88`. -/
def Population.new : Population := ⟨[]⟩

/-- `Rhs::mutate`. `/repo/cfg-generate/src/genetic.rs:115-139`. -/
def Rhs.mutate (rhs : Rhs) (_mutation : Mutation) : Rhs :=
  match rhs with
  | .unary a x => .unary a x
  | .binary a x b y => .binary a x b y
  | .any => .any

/-- `RuleDescription::mutate`. `/repo/cfg-generate/src/genetic.rs:105-113`. -/
def RuleDescription.mutate (d : RuleDescription) (mutation : Mutation) : RuleDescription :=
  { ruleKind := d.ruleKind, rhs := d.rhs.mutate mutation, start := d.start, stop := d.stop }

/-- `Population::mutate`. `/repo/cfg-generate/src/genetic.rs:94-102`. -/
def Population.mutate (p : Population) (mutation : Mutation) : Population :=
  p.ruleDescriptions.foldl
    (fun new d => ⟨insertSorted (d.mutate mutation) new.ruleDescriptions⟩) Population.new

end Verif.Genetic
