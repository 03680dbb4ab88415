import Verif.Model.Cfg

/-!
# Model of precedenced rules

`/repo/cfg-grammar/src/precedenced_rule.rs`. The counter `looseness` is a `u32` in the code; it is a
natural number here, because each level also takes a fresh symbol.
-/

namespace Verif

/-- `Associativity`. `/repo/cfg-grammar/src/precedenced_rule.rs:13-20`. -/
inductive Assoc where
  | left | right | group
  deriving DecidableEq, Repr

/-- `PrecedencedRuleBuilder`. `/repo/cfg-grammar/src/precedenced_rule.rs:26-35`. -/
structure PrecBuilder where
  g : Cfg
  lhs : Sym
  tighter : Sym
  current : Sym
  history : Option History := none
  assoc : Assoc := .left
  looseness : Nat := 0
  group : List CfgRule := []
  deriving DecidableEq, Repr

/-- `PrecedencedRuleBuilder::new`. `/repo/cfg-grammar/src/precedenced_rule.rs:39-51`. -/
def PrecBuilder.new (g : Cfg) (lhs : Sym) : PrecBuilder :=
  let (tightest, g) := g.nextSym none
  { g := g, lhs := lhs, tighter := tightest, current := tightest }

/-- `iter.next()` becomes `current`, the rest of the iterator becomes `tighter`.
`/repo/cfg-grammar/src/precedenced_rule.rs:107-120`, `Left`. -/
def replaceLeft (lhs current tighter : Sym) : List Sym → List Sym
  | [] => []
  | a :: syms =>
    if a = lhs then current :: syms.map fun s => if s = lhs then tighter else s
    else a :: replaceLeft lhs current tighter syms

/-- `iter.next_back()` becomes `current`, the rest of the iterator becomes `tighter`.
`/repo/cfg-grammar/src/precedenced_rule.rs:107-120`, `Right`. -/
def replaceRight (lhs current tighter : Sym) (syms : List Sym) : List Sym :=
  (replaceLeft lhs current tighter syms.reverse).reverse

/-- `rhs_with_history`. `/repo/cfg-grammar/src/precedenced_rule.rs:87-132`. -/
def PrecBuilder.rhsWithHistory (b : PrecBuilder) (syms : List Sym) (history : History) :
    Res PrecBuilder := do
  let history ← processLinked (.assignPrecedence b.looseness) history
  let b ← match b.assoc with
    | .group => .ok { b with group := b.group ++ [⟨b.current, syms, history⟩] }
    | .left => do
      let (g, _) ← b.g.addRule ⟨b.current, replaceLeft b.lhs b.current b.tighter syms, history⟩
      .ok { b with g := g }
    | .right => do
      let (g, _) ← b.g.addRule ⟨b.current, replaceRight b.lhs b.current b.tighter syms, history⟩
      .ok { b with g := g }
  .ok { b with assoc := .left, history := none }

/-- `lower_precedence`. `/repo/cfg-grammar/src/precedenced_rule.rs:143-154`. -/
def PrecBuilder.lowerPrecedence (b : PrecBuilder) : Res PrecBuilder := do
  let tighter := b.current
  let (current, g) := b.g.nextSym none
  let (_, g) ← RuleBuilder.rhsWithHistory { lhs := some current } g [tighter] (History.ofRoot .noOp)
  .ok { b with g := g, looseness := b.looseness + 1, tighter := tighter, current := current }

/-- A call on the builder. `/repo/cfg-grammar/src/precedenced_rule.rs:64-154`. -/
inductive PrecCall where
  | history (h : History)
  | rhs (syms : List Sym)
  | rhsWithHistory (syms : List Sym) (h : History)
  | associativity (a : Assoc)
  | lowerPrecedence
  deriving DecidableEq, Repr

/-- One call: `history` 67-70, `rhs` 74-83, `rhs_with_history` 87-132, `associativity` 136-139,
`lower_precedence` 143-154 of `/repo/cfg-grammar/src/precedenced_rule.rs`. -/
def PrecBuilder.call (b : PrecBuilder) : PrecCall → Res PrecBuilder
  | .history h => .ok { b with history := some h }
  | .rhs syms =>
    PrecBuilder.rhsWithHistory { b with history := none } syms
      (b.history.getD (History.ofRoot (.rule b.lhs)))
  | .rhsWithHistory syms h => b.rhsWithHistory syms h
  | .associativity a => .ok { b with assoc := a }
  | .lowerPrecedence => b.lowerPrecedence

/-- A program of builder calls. `/repo/cfg-grammar/src/precedenced_rule.rs:64-154`. -/
def PrecBuilder.run : PrecBuilder → List PrecCall → Res PrecBuilder
  | b, [] => .ok b
  | b, c :: cs => do
    let b ← b.call c
    PrecBuilder.run b cs

/-- The loop of `finalize` over the delayed rules.
`/repo/cfg-grammar/src/precedenced_rule.rs:159-166`. -/
def PrecBuilder.addGroup (lhs loosest : Sym) : Cfg → List CfgRule → Res Cfg
  | g, [] => .ok g
  | g, rule :: rules => do
    let rhs := rule.rhs.map fun sym => if sym = lhs then loosest else sym
    let (g, _) ← g.addRule { rule with rhs := rhs }
    PrecBuilder.addGroup lhs loosest g rules

/-- `finalize`; the result is the grammar borrowed by the returned rule builder.
`/repo/cfg-grammar/src/precedenced_rule.rs:157-172`. -/
def PrecBuilder.finalize (b : PrecBuilder) : Res Cfg := do
  let g ← PrecBuilder.addGroup b.lhs b.current b.g b.group
  let (_, g) ← RuleBuilder.rhsWithHistory { lhs := some b.lhs } g [b.current]
    (History.ofRoot .noOp)
  .ok g

/-- `grammar.precedenced_rule(lhs)`, a program of calls, and `finalize()` (which `rule` and
`precedenced_rule` also call). `/repo/cfg-grammar/src/cfg.rs:539-541`,
`/repo/cfg-grammar/src/precedenced_rule.rs:55-62`. -/
def Cfg.precedencedRule (g : Cfg) (lhs : Sym) (calls : List PrecCall) : Res Cfg := do
  let b ← (PrecBuilder.new g lhs).run calls
  b.finalize

end Verif
