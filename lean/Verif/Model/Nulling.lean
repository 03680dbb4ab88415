import Verif.Model.Closure

/-!
# Model of nulling-rule elimination

`binarize_and_eliminate_nulling_rules` of `/repo/cfg-grammar/src/cfg.rs`.
-/

namespace Verif

/-- `rule.rhs.get(i).map(is_nullable)`. `/repo/cfg-grammar/src/cfg.rs:316-321`. -/
def nullableAt (nullable : BitSet) (rhs : List Sym) (i : Nat) : Res (Option Bool) :=
  match rhs[i]? with
  | none => .ok none
  | some sym => do .ok (some (← BitSet.get nullable sym))

/-- The match that computes `maybe_which`. `/repo/cfg-grammar/src/cfg.rs:319-330`. -/
def maybeWhich : Option Bool → Option Bool → Res (Option BinarizedRhsRange)
  | some true, some true => .ok (some (.all 2))
  | some true, none => .ok (some (.all 1))
  | none, none => .ok (some (.all 0))
  | some true, some false => .ok (some .left)
  | some false, some true => .ok (some .right)
  | some false, none => .ok none
  | some false, some false => .ok none
  | none, some _ => .panic

/-- `grammar.rule(lhs).history(history).rhs(rhs)`: the rule builder passes the rule on to
`add_rule`. `/repo/cfg-grammar/src/rule_builder.rs:31-63`. -/
def Cfg.ruleHistoryRhs (g : Cfg) (lhs : Sym) (history : History) (rhs : List Sym) : Res Cfg := do
  .ok (← g.addRule ⟨lhs, rhs, history⟩).1

/-- Body of the loop over the rules. `/repo/cfg-grammar/src/cfg.rs:312-372`. The state is the
pair of `result` and `rewritten_work`. -/
def elimBody (nullable : BitSet) (st : Cfg × Cfg) (rule : CfgRule) : Res (Cfg × Cfg) := do
  let (result, work) := st
  if 2 < rule.rhs.length then .panic
  else
    match ← maybeWhich (← nullableAt nullable rule.rhs 0) (← nullableAt nullable rule.rhs 1) with
    | none => .ok (result, work)
    | some which => do
      let history ← processLinked (.eliminateNulling rule.rhs[0]? rule.rhs[1]? which) rule.history
      match which with
      | .all num => do
        let slice ← which.slice rule.rhs
        if num = 2 then do
          let left ← BinarizedRhsRange.left.slice rule.rhs
          let work ← work.ruleHistoryRhs rule.lhs history left
          let right ← BinarizedRhsRange.right.slice rule.rhs
          let work ← work.ruleHistoryRhs rule.lhs history right
          let result ← result.ruleHistoryRhs rule.lhs history slice
          .ok (result, work)
        else do
          let result ← result.ruleHistoryRhs rule.lhs history slice
          .ok (result, work)
      | _ => do
        let rest ← which.negate
        let slice ← rest.slice rule.rhs
        let work ← work.ruleHistoryRhs rule.lhs history slice
        .ok (result, work)

/-- `rules.retain(|rule| productive[rule.lhs])`, reading the bit set for every rule.
`/repo/cfg-grammar/src/cfg.rs:391-396`. -/
def retainLhs (b : BitSet) : List CfgRule → Res (List CfgRule)
  | [] => .ok []
  | r :: rs => do
    let keep ← BitSet.get b r.lhs
    let rest ← retainLhs b rs
    .ok (if keep then r :: rest else rest)

/-- `Cfg::binarize_and_eliminate_nulling_rules`. `/repo/cfg-grammar/src/cfg.rs:296-399`.
Returns the changed grammar and the returned grammar of nulling rules. -/
def Cfg.binarizeAndEliminateNulling (g : Cfg) : Res (Cfg × Cfg) := do
  let g ← g.limitRhsLen (some 2)
  let result := Cfg.withSymSource g.src
  let nullable ← g.nullingSymbols
  let nullable ← g.rhsClosureForAll nullable
  if (BitSet.iter nullable).length = 0 then .ok (g, result)
  else do
    let (result, work) ← g.rules.foldlM (elimBody nullable) (result, Cfg.new)
    let g := g.extend work
    let g := { g with rules := g.rules.filter fun rule => !rule.rhs.isEmpty }
    let productive ← BitSet.terminal g
    let productive ← BitSet.subtractProductive productive result
    let productive ← g.rhsClosureForAll productive
    let rules ← retainLhs productive g.rules
    .ok ({ g with rules := rules }, result)

end Verif
