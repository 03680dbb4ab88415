import Verif.Model.Load

/-! # Model of `Cfg::stringify_to_bnf` -/

namespace Verif

/-- Whether no symbol has a name. `/repo/cfg-grammar/src/cfg.rs:682`. -/
def Cfg.noNames (g : Cfg) : Bool := g.src.names.all Option.isNone

/-- The closure `stringify_sym`. `/repo/cfg-grammar/src/cfg.rs:684-690`. -/
def Cfg.stringifySym (g : Cfg) (sym : Sym) : Text :=
  if g.noNames then (toString sym).toList
  else g.symText sym ++ '(' :: ((toString sym).toList ++ [')'])

/-- The text of a right side. The number of the element only tells the first one from the others.
`/repo/cfg-grammar/src/cfg.rs:692-708`. -/
def stringifyRhs (stringifySym : Sym → Text) : List Sym → Text
  | [] => ['(', ')']
  | sym :: syms => stringifySym sym ++ syms.flatMap fun sym => [' ', '~', ' '] ++ stringifySym sym

/-- The line of a rule. `/repo/cfg-grammar/src/cfg.rs:691,709`. -/
def stringifyRule (stringifySym : Sym → Text) (rule : CfgRule) : Text :=
  stringifySym rule.lhs ++ [' ', ':', ':', '=', ' '] ++ stringifyRhs stringifySym rule.rhs ++
    [';', '\n']

/-- `Cfg::stringify_to_bnf`. `/repo/cfg-grammar/src/cfg.rs:680-712`. -/
def Cfg.stringifyToBnf (g : Cfg) : Text := g.rules.flatMap (stringifyRule g.stringifySym)

end Verif
