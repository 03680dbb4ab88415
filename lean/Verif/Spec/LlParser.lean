import Verif.Spec.Grammar
import Verif.Model.PredictSets

/-! # The parser that a table for one token of lookahead drives -/

namespace Verif

/-- One move of the parser. A state is the stack of symbols still to be read, and the rest of the
input. A terminal on top of the stack is read off the input. Another symbol on top is replaced by the
right side of a rule in the cell for it and the next token. -/
inductive LlMove (g : Cfg) (t : LlTable) : List Sym × List Sym → List Sym × List Sym → Prop
  | read {a : Sym} {α w : List Sym} : g.Term a → LlMove g t (a :: α, a :: w) (α, w)
  | expand {A a : Sym} {α w : List Sym} {i : Nat} {r : CfgRule} :
      i ∈ (t.get? (A, a)).getD [] → g.rules[i]? = some r →
      LlMove g t (A :: α, a :: w) (r.rhs ++ α, a :: w)

/-- The parser, started with the stack `α`, can read the input `w` to its end. -/
def LlReads (g : Cfg) (t : LlTable) (α w : List Sym) : Prop :=
  Relation.ReflTransGen (LlMove g t) (α, w) ([], [])

end Verif
