import Verif.Model.Precedence
import Verif.Spec.Language

/-!
# Specification: precedence and associativity

A precedenced rule is a list of alternatives, each with a level (0 is the tightest) and an
associativity. A derivation respects the precedence when every occurrence of the left side inside an
alternative is filled by an alternative of an allowed level.
-/

namespace Verif

/-- An alternative of a precedenced rule. -/
structure Alternative where
  level : Nat
  assoc : Assoc
  rhs : List Sym
  deriving DecidableEq, Repr

/-- The alternatives given by a program of builder calls, starting at level `n` with the pending
associativity `a`. -/
def alternatives : Nat → Assoc → List PrecCall → List Alternative
  | _, _, [] => []
  | n, a, .history _ :: cs => alternatives n a cs
  | n, _, .associativity a :: cs => alternatives n a cs
  | n, a, .lowerPrecedence :: cs => alternatives (n + 1) a cs
  | n, a, .rhs syms :: cs => ⟨n, a, syms⟩ :: alternatives n .left cs
  | n, a, .rhsWithHistory syms _ :: cs => ⟨n, a, syms⟩ :: alternatives n .left cs

/-- The loosest level of a program. -/
def loosestLevel (cs : List PrecCall) : Nat := cs.count .lowerPrecedence

/-- An occurrence of a symbol during a derivation: unrestricted, or an occurrence of the left side
that must be filled by an alternative of a level below `b`. -/
inductive Occ where
  | any (a : Sym)
  | below (b : Nat)
  deriving DecidableEq, Repr

/-- The restrictions within an alternative: the leftmost (rightmost) occurrence of the left side
may be filled by the same level or tighter ones, the others by levels below `strict level`; in a
`Group` alternative by any level. -/
def Alternative.marks (a : Alternative) (lhs : Sym) (loosest : Nat) (strict : Nat → Nat) :
    List Occ :=
  a.rhs.mapIdx fun j s =>
    if s = lhs then
      match a.assoc with
      | .left => .below (if lhs ∈ a.rhs.take j then strict a.level else a.level + 1)
      | .right => .below (if lhs ∈ a.rhs.drop (j + 1) then strict a.level else a.level + 1)
      | .group => .below (loosest + 1)
    else .any s

/-- Derivations that respect the precedence: `P` are the other productions of the grammar, `T` the
terminals, `alts` the alternatives of `lhs`. -/
inductive Gen (P : Productions) (T : Sym → Prop) (lhs : Sym) (loosest : Nat) (strict : Nat → Nat)
    (alts : List Alternative) : List Occ → List Sym → Prop
  | nil : Gen P T lhs loosest strict alts [] []
  | term {a l v} : T a → Gen P T lhs loosest strict alts l v →
      Gen P T lhs loosest strict alts (.any a :: l) (a :: v)
  | rule {A α u l v} : P A α → Gen P T lhs loosest strict alts (α.map .any) u →
      Gen P T lhs loosest strict alts l v → Gen P T lhs loosest strict alts (.any A :: l) (u ++ v)
  | alt {a u l v} : a ∈ alts → Gen P T lhs loosest strict alts (a.marks lhs loosest strict) u →
      Gen P T lhs loosest strict alts l v → Gen P T lhs loosest strict alts (.any lhs :: l) (u ++ v)
  | altBelow {a b u l v} : a ∈ alts → a.level < b →
      Gen P T lhs loosest strict alts (a.marks lhs loosest strict) u →
      Gen P T lhs loosest strict alts l v → Gen P T lhs loosest strict alts (.below b :: l) (u ++ v)

/-- The plain ambiguous grammar: all alternatives are productions of the left side. -/
def Ambiguous (P : Productions) (lhs : Sym) (alts : List Alternative) : Productions := fun A α =>
  P A α ∨ A = lhs ∧ ∃ a ∈ alts, a.rhs = α

end Verif
