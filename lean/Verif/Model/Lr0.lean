import Verif.Model.BMap
import Verif.Model.BitSet

/-!
# Model of LR(0) item sets

`/repo/cfg-classify/src/lr.rs`. Simplifications: `RuleId`, `SetId` and `Dot` are natural numbers
instead of `u32`; shared item sets (`Rc`) are values.
-/

namespace Verif

/-- `Lr0Item`. `/repo/cfg-classify/src/lr.rs:23-27`. -/
structure Lr0Item where
  rhs : List Sym
  dot : Nat
  deriving DecidableEq, Repr

/-- `Lr0Items`. `/repo/cfg-classify/src/lr.rs:18-21`. -/
abbrev Lr0Items := BMap Lr0Item

/-- `postdot`. `/repo/cfg-classify/src/lr.rs:120-122`. -/
def Lr0Item.postdot (item : Lr0Item) : Option Sym := item.rhs[item.dot]?

/-- `nonterminal_postdot`. `/repo/cfg-classify/src/lr.rs:124-135`. -/
def Lr0Item.nonterminalPostdot (item : Lr0Item) (terminals : BitSet) : Res (Option Sym) :=
  match item.rhs[item.dot]? with
  | some postdot => do
    let t ← BitSet.get terminals postdot
    .ok (if !t then some postdot else none)
  | none => .ok none

/-- The inner loop of `closure` over the enumerated rules. `/repo/cfg-classify/src/lr.rs:77-91`. -/
def lr0Predict (nonterminal : Sym) :
    List (CfgRule × Nat) → Lr0Items → List Lr0Item → Lr0Items × List Lr0Item
  | [], items, queue => (items, queue)
  | (rule, idx) :: rules, items, queue =>
    if rule.lhs = nonterminal then
      let newItem : Lr0Item := ⟨rule.rhs, 0⟩
      let (items, old) := BMap.insert idx newItem items
      lr0Predict nonterminal rules items (if old.isNone then queue ++ [newItem] else queue)
    else lr0Predict nonterminal rules items queue

/-- The outer loop of `closure`. `/repo/cfg-classify/src/lr.rs:75-93`. -/
def lr0ClosureLoop (g : Cfg) (terminals : BitSet) : Nat → Lr0Items → List Lr0Item → Res Lr0Items
  | 0, _, _ => .diverge
  | _ + 1, items, [] => .ok items
  | fuel + 1, items, item :: queue => do
    match ← item.nonterminalPostdot terminals with
    | some postdot =>
      let (items, queue) := lr0Predict postdot g.rules.zipIdx items queue
      lr0ClosureLoop g terminals fuel items queue
    | none => lr0ClosureLoop g terminals fuel items queue

/-- `Lr0ClosureBuilder::closure`; `terminals` is `terminal_set`, computed by
`Lr0ClosureBuilder::new`. Every round takes an item off the queue, and items are put there for new
keys only. `/repo/cfg-classify/src/lr.rs:60-94`. -/
def lr0Closure (g : Cfg) (terminals : BitSet) (items : Lr0Items) : Res Lr0Items :=
  lr0ClosureLoop g terminals (items.length + g.rules.length + 1) items (items.map (·.2))

/-- The kernel made by `advance`; the entries come in ascending order.
`/repo/cfg-classify/src/lr.rs:98-111`. -/
def lr0Kernel (items : Lr0Items) (sym : Sym) : Lr0Items :=
  items.filterMap fun (ruleId, item) =>
    if item.postdot = some sym then some (ruleId, ⟨item.rhs, item.dot + 1⟩) else none

/-- `advance`. `/repo/cfg-classify/src/lr.rs:97-118`. -/
def lr0Advance (g : Cfg) (terminals : BitSet) (items : Lr0Items) (sym : Sym) :
    Res (Option Lr0Items) :=
  let newItems := lr0Kernel items sym
  if newItems.isEmpty then .ok none
  else do
    let newItems ← lr0Closure g terminals newItems
    .ok (some newItems)

/-- `Lr0Node`. `/repo/cfg-classify/src/lr.rs:45-50`. -/
structure Lr0Node where
  items : Lr0Items
  link : BMap Nat
  deriving DecidableEq, Repr

/-- The mutable fields of `Lr0FsmBuilder`; `cached_sets` is a `BTreeMap` whose keys are item sets,
here a list of entries. `/repo/cfg-classify/src/lr.rs:37-41`. -/
structure Lr0Fsm where
  setsQueue : List Lr0Items := []
  cachedSets : List (Lr0Items × Nat) := []
  deriving DecidableEq, Repr

/-- `introduce_set`. `/repo/cfg-classify/src/lr.rs:204-207`. -/
def Lr0Fsm.introduceSet (f : Lr0Fsm) (items : Lr0Items) (id : Nat) : Lr0Fsm :=
  { f with cachedSets := f.cachedSets ++ [(items, id)], setsQueue := f.setsQueue ++ [items] }

/-- `id_of`. `/repo/cfg-classify/src/lr.rs:193-202`. -/
def Lr0Fsm.idOf (f : Lr0Fsm) (items : Lr0Items) : Nat × Lr0Fsm :=
  match f.cachedSets.lookup items with
  | none =>
    let id := f.cachedSets.length
    (id, f.introduceSet items id)
  | some id => (id, f)

/-- The loop over the terminals. `/repo/cfg-classify/src/lr.rs:159-164`. -/
def lr0Links (g : Cfg) (terminals : BitSet) (items : Lr0Items) :
    List Sym → BMap Nat → Lr0Fsm → Res (BMap Nat × Lr0Fsm)
  | [], link, f => .ok (link, f)
  | terminal :: rest, link, f => do
    match ← lr0Advance g terminals items terminal with
    | some advancedSet =>
      let (id, f) := f.idOf advancedSet
      lr0Links g terminals items rest (BMap.insert terminal id link).1 f
    | none => lr0Links g terminals items rest link f

/-- The loop over the queue of item sets. `/repo/cfg-classify/src/lr.rs:156-167`. -/
def lr0FsmLoop (g : Cfg) (terminals : BitSet) :
    Nat → Lr0Fsm → List Lr0Node → Res (List Lr0Node)
  | 0, _, _ => .diverge
  | fuel + 1, f, result =>
    match f.setsQueue with
    | [] => .ok result
    | items :: queue => do
      let (link, f) ← lr0Links g terminals items terminals.iter [] { f with setsQueue := queue }
      lr0FsmLoop g terminals fuel f (result ++ [⟨items, link⟩])

/-- `augment_grammar`: the grammar, the new start symbol and the number of its rule.
`/repo/cfg-classify/src/lr.rs:182-191`. -/
def Cfg.lr0Augment (g : Cfg) (start : Sym) : Res (Cfg × Sym × Nat) := do
  let (newStart, g) := g.nextSym none
  let ruleId := g.rules.length
  let (_, g) ← RuleBuilder.rhsWithHistory { lhs := some newStart } g [start] (History.ofRoot .noOp)
  .ok (g, newStart, ruleId)

/-- A bound on the number of item sets: every rule is absent or has its dot somewhere. Fuel for
the loop at `/repo/cfg-classify/src/lr.rs:156-167`, which has no bound in the code. -/
def lr0Fuel (rules : List CfgRule) : Nat := (rules.map fun r => r.rhs.length + 2).prod + 1

/-- `Lr0FsmBuilder::new(grammar).make_lr0_fsm(start)`, with the grammar it leaves behind.
`/repo/cfg-classify/src/lr.rs:140-180`. -/
def Cfg.makeLr0Fsm (g : Cfg) (start : Sym) : Res (Cfg × List Lr0Node) := do
  let terminals ← g.terminalSymbols
  let (g, _, ruleId) ← g.lr0Augment start
  let initial ← lr0Closure g terminals [(ruleId, ⟨[start], 0⟩)]
  let nodes ← lr0FsmLoop g terminals (lr0Fuel g.rules) (Lr0Fsm.introduceSet {} initial 0) []
  .ok (g, nodes)

end Verif
