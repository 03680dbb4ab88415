import Verif.Model.Cfg

/-! # Specification: the order on rules -/

namespace Verif

/-- Lexicographic order on strings of symbols (the order on lists of core Lean). -/
def LexLe (a b : List Sym) : Prop := a ≤ b

/-- Rules compared by left side, then by right side. -/
def RuleLe (r s : CfgRule) : Prop := r.lhs < s.lhs ∨ (r.lhs = s.lhs ∧ LexLe r.rhs s.rhs)

end Verif
