import Verif.Spec.PrecTrees

/-!
# Specification: operator tables

A precedenced rule is an operator table when its alternatives are atoms and bracketed forms at the
tightest level, and prefix, infix and postfix operators at the other levels, each with a token of its
own.
-/

namespace Verif

/-- What a terminal is used for. -/
inductive Role where
  | atom
  | operator (level : Nat)
  | opening
  | inner
  | closing
  deriving DecidableEq, Repr

/-- What comes after the opening token of a bracketed form: expressions and inner tokens, no two
expressions side by side, and a closing token. -/
inductive Enclosed (lhs : Sym) (role : Sym → Role) : List Sym → Prop
  | closing {c : Sym} : c ≠ lhs → role c = .closing → Enclosed lhs role [c]
  | inner {t : Sym} {l : List Sym} : t ≠ lhs → role t = .inner → Enclosed lhs role l →
      Enclosed lhs role (t :: l)
  | expr {l : List Sym} : l.head? ≠ some lhs → Enclosed lhs role l → Enclosed lhs role (lhs :: l)

/-- An alternative of an operator table and its own token. Levels in `right` associate to the right:
they have prefix and right associative infix operators. The other levels have postfix and left
associative infix operators. -/
inductive OpAlt (lhs : Sym) (role : Sym → Role) (right : Nat → Prop) : Alternative → Sym → Prop
  | atom {as : Assoc} {t : Sym} : t ≠ lhs → role t = .atom → OpAlt lhs role right ⟨0, as, [t]⟩ t
  | bracket {o : Sym} {l : List Sym} : o ≠ lhs → role o = .opening → Enclosed lhs role l →
      OpAlt lhs role right ⟨0, .group, o :: l⟩ o
  | infixLeft {n : Nat} {op : Sym} : 1 ≤ n → op ≠ lhs → role op = .operator n → ¬ right n →
      OpAlt lhs role right ⟨n, .left, [lhs, op, lhs]⟩ op
  | postfixOp {n : Nat} {as : Assoc} {op : Sym} : 1 ≤ n → op ≠ lhs → role op = .operator n →
      ¬ right n → as ≠ .group → OpAlt lhs role right ⟨n, as, [lhs, op]⟩ op
  | infixRight {n : Nat} {op : Sym} : 1 ≤ n → op ≠ lhs → role op = .operator n → right n →
      OpAlt lhs role right ⟨n, .right, [lhs, op, lhs]⟩ op
  | prefixOp {n : Nat} {as : Assoc} {op : Sym} : 1 ≤ n → op ≠ lhs → role op = .operator n →
      right n → as ≠ .group → OpAlt lhs role right ⟨n, as, [op, lhs]⟩ op

/-- An operator table: no two alternatives have the same token. -/
structure OperatorTable (lhs : Sym) (role : Sym → Role) (right : Nat → Prop)
    (alts : List Alternative) : Prop where
  alt : ∀ a ∈ alts, ∃ t, OpAlt lhs role right a t
  distinct : ∀ (i j : Nat) a b t, alts[i]? = some a → alts[j]? = some b → OpAlt lhs role right a t →
    OpAlt lhs role right b t → i = j

/-- An alternative of an operator table and its own token, when levels may have operators of all
kinds. -/
inductive OpForm (lhs : Sym) (role : Sym → Role) : Alternative → Sym → Prop
  | atom {as : Assoc} {t : Sym} : t ≠ lhs → role t = .atom → OpForm lhs role ⟨0, as, [t]⟩ t
  | bracket {o : Sym} {l : List Sym} : o ≠ lhs → role o = .opening → Enclosed lhs role l →
      OpForm lhs role ⟨0, .group, o :: l⟩ o
  | infixOp {n : Nat} {as : Assoc} {op : Sym} : 1 ≤ n → op ≠ lhs → role op = .operator n →
      as ≠ .group → OpForm lhs role ⟨n, as, [lhs, op, lhs]⟩ op
  | postfixOp {n : Nat} {as : Assoc} {op : Sym} : 1 ≤ n → op ≠ lhs → role op = .operator n →
      as ≠ .group → OpForm lhs role ⟨n, as, [lhs, op]⟩ op
  | prefixOp {n : Nat} {as : Assoc} {op : Sym} : 1 ≤ n → op ≠ lhs → role op = .operator n →
      as ≠ .group → OpForm lhs role ⟨n, as, [op, lhs]⟩ op

/-- A left associative infix operator or a postfix operator. -/
inductive Leftward (lhs : Sym) : Alternative → Prop
  | infixLeft {n : Nat} {op : Sym} : op ≠ lhs → Leftward lhs ⟨n, .left, [lhs, op, lhs]⟩
  | postfixOp {n : Nat} {as : Assoc} {op : Sym} : op ≠ lhs → Leftward lhs ⟨n, as, [lhs, op]⟩

/-- A right associative infix operator or a prefix operator. -/
inductive Rightward (lhs : Sym) : Alternative → Prop
  | infixRight {n : Nat} {op : Sym} : op ≠ lhs → Rightward lhs ⟨n, .right, [lhs, op, lhs]⟩
  | prefixOp {n : Nat} {as : Assoc} {op : Sym} : op ≠ lhs → Rightward lhs ⟨n, as, [op, lhs]⟩

end Verif
