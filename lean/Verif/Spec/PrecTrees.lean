import Verif.Spec.Precedence
import Verif.Spec.Trees

/-!
# Specification: parse trees that respect precedence

A parse tree of a grammar with the rules `rules` and then the alternatives of a precedenced rule as
further rules of the left side respects the precedence when every occurrence of the left side within
an alternative is filled by an alternative of an allowed level (see `Alternative.marks`).
-/

namespace Verif

/-- `f` is a list of parse trees with the leaves `w` whose roots are the occurrences given, and which
respects the precedence. Rule number `rules.length + j` is the alternative number `j`. -/
inductive PrecForest (rules : List (Sym × List Sym)) (T : Sym → Prop) (lhs : Sym) (loosest : Nat)
    (strict : Nat → Nat) (alts : List Alternative) : List Occ → Forest → List Sym → Prop
  | nil : PrecForest rules T lhs loosest strict alts [] .nil []
  | leaf {s : Sym} {l : List Occ} {f : Forest} {w : List Sym} :
      T s → PrecForest rules T lhs loosest strict alts l f w →
      PrecForest rules T lhs loosest strict alts (.any s :: l) (.leaf s f) (s :: w)
  | rule {i : Nat} {A : Sym} {β : List Sym} {c f : Forest} {u v : List Sym} {l : List Occ} :
      rules[i]? = some (A, β) →
      PrecForest rules T lhs loosest strict alts (β.map .any) c u →
      PrecForest rules T lhs loosest strict alts l f v →
      PrecForest rules T lhs loosest strict alts (.any A :: l) (.node i c f) (u ++ v)
  | alt {j : Nat} {a : Alternative} {c f : Forest} {u v : List Sym} {l : List Occ} :
      alts[j]? = some a →
      PrecForest rules T lhs loosest strict alts (a.marks lhs loosest strict) c u →
      PrecForest rules T lhs loosest strict alts l f v →
      PrecForest rules T lhs loosest strict alts (.any lhs :: l) (.node (rules.length + j) c f)
        (u ++ v)
  | altBelow {j b : Nat} {a : Alternative} {c f : Forest} {u v : List Sym} {l : List Occ} :
      alts[j]? = some a → a.level < b →
      PrecForest rules T lhs loosest strict alts (a.marks lhs loosest strict) c u →
      PrecForest rules T lhs loosest strict alts l f v →
      PrecForest rules T lhs loosest strict alts (.below b :: l) (.node (rules.length + j) c f)
        (u ++ v)

end Verif
