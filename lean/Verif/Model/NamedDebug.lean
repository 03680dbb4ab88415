import Verif.Model.Cfg

/-!
# Model of printing named rules

`/repo/cfg-grammar/src/cfg.rs:804-820`. The text made by `debug_struct` of the standard library
from the fields is not modelled: the result is the values of the fields. Two of them print the same
exactly if they are equal, because `Debug` of strings quotes and escapes them.
-/

namespace Verif

/-- `self.names[sym.usize()].as_deref().unwrap_or(gensym)`.
`/repo/cfg-grammar/src/cfg.rs:806-807,811`. -/
def NamedCfgRule.shownName (a : NamedCfgRule) (s : Sym) : Res String := do
  let name ← nameAt a.names s
  .ok (name.getD "gensym")

/-- The names of the right side, in order, collected. `/repo/cfg-grammar/src/cfg.rs:808-812`. -/
def NamedCfgRule.shownRhs (a : NamedCfgRule) : List Sym → Res (List String)
  | [] => .ok []
  | s :: rest => do
    let name ← a.shownName s
    let names ← a.shownRhs rest
    .ok (name :: names)

/-- `Debug for NamedCfgRule`: the fields `lhs`, `rhs`, `history`.
`/repo/cfg-grammar/src/cfg.rs:804-820`. -/
def NamedCfgRule.debug (a : NamedCfgRule) : Res (String × List String × Option History) := do
  let lhs ← a.shownName a.lhs
  let rhs ← a.shownRhs a.rhs
  .ok (lhs, rhs, a.history)

end Verif
