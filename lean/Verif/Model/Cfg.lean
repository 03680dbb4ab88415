import Verif.Model.Symbol
import Verif.Model.History
import Mathlib.Data.List.Sort

/-!
# Model of `cfg-grammar`: the grammar type and its basic operations

`/repo/cfg-grammar/src/cfg.rs`.
-/

namespace Verif

/-- `CfgRule`. `/repo/cfg-grammar/src/cfg.rs:43-50`. -/
structure CfgRule where
  lhs : Sym
  rhs : List Sym
  history : History := {}
  deriving DecidableEq, Repr

/-- `WrappedRoot`. `/repo/cfg-grammar/src/cfg.rs:75-84`. -/
structure WrappedRoot where
  startOfInput : Sym
  innerRoot : Sym
  endOfInput : Sym
  root : Sym
  deriving DecidableEq, Repr

/-- `Cfg`. `/repo/cfg-grammar/src/cfg.rs:26-39`. The private field `lexemes` (never read) and
the scratch field `tmp_stack` (empty between calls) are left out. So is the private field
`eliminate_nulling`: it is set to `false` at line 143, read at line 244 and never changed. -/
structure Cfg where
  src : SymbolSource := SymbolSource.new
  rules : List CfgRule := []
  roots : List Sym := []
  wrappedRoots : List WrappedRoot := []
  rhsLenInvariant : Option Nat := none
  deriving DecidableEq, Repr

namespace Cfg

/-- `Cfg::with_sym_source`. `/repo/cfg-grammar/src/cfg.rs:135-146`. -/
def withSymSource (s : SymbolSource) : Cfg := { src := s }

/-- `Cfg::new`. `/repo/cfg-grammar/src/cfg.rs:119-130`. -/
def new : Cfg := withSymSource SymbolSource.new

/-- `Cfg::num_syms`. `/repo/cfg-grammar/src/cfg.rs:179-181`. -/
def numSyms (g : Cfg) : Nat := g.src.numSyms

/-- `Cfg::next_sym`. `/repo/cfg-grammar/src/cfg.rs:157-159`. -/
def nextSym (g : Cfg) (name : Option String) : Sym × Cfg :=
  let (s, src) := g.src.nextSym name
  (s, { g with src := src })

/-- `Cfg::set_roots`. `/repo/cfg-grammar/src/cfg.rs:191-193`. -/
def setRoots (g : Cfg) (roots : List Sym) : Cfg := { g with roots := roots }

/-- `self.rules.push(rule)`. `/repo/cfg-grammar/src/cfg.rs:472,513`. -/
def pushRule (g : Cfg) (rule : CfgRule) : Cfg := { g with rules := g.rules ++ [rule] }

/-- `rule_rhs_len_allowed_range().contains(&len)`.
`/repo/cfg-grammar/src/cfg.rs:243-245,471`. With no limit the end of the range is
`usize::MAX`, which no vector length reaches, so the upper bound is dropped. The lower bound
is `eliminate_nulling as usize`, always 0. -/
def rhsLenAllowed (g : Cfg) (len : Nat) : Bool :=
  match g.rhsLenInvariant with
  | none => true
  | some n => decide (len < n)

/-- `rule_rhs_len_allowed_range().end` in `add_rule`.
`/repo/cfg-grammar/src/cfg.rs:243-245`. With no limit it is `usize::MAX`. -/
def rhsLenEnd (g : Cfg) : Nat := g.rhsLenInvariant.getD (2 ^ 64 - 1)

/-- The `while` loop of `add_rule`. `/repo/cfg-grammar/src/cfg.rs:489-516`.
`rhsRev` is the vector `rhs_rev` (last element is the next symbol to be consumed).
One unit of fuel per iteration; running out of fuel is `diverge`. -/
def addRuleLoop (rule : CfgRule) : Nat → Cfg → List Sym → Nat → Res (Cfg × Nat)
  | fuel, g, rhsRev, parts =>
    if rhsRev.isEmpty then .ok (g, parts)
    else match fuel with
    | 0 => .diverge
    | fuel + 1 => do
      -- drain the tail (lines 490-494)
      let tailIdx := rhsRev.length - g.rhsLenEnd
      let tail := (rhsRev.drop tailIdx).reverse
      let rhsRev := rhsRev.take tailIdx
      -- left side: the rule's own, or a fresh symbol pushed back (lines 495-501)
      let (lhs, g, rhsRev) :=
        if rhsRev.isEmpty then (rule.lhs, g, rhsRev)
        else
          let (lhs, g) := g.nextSym none
          (lhs, g, rhsRev ++ [lhs])
      -- history (lines 502-512)
      let history ←
        if (parts = 0 ∧ rhsRev.isEmpty) ∨ g.rhsLenEnd ≠ 2 then .ok rule.history
        else processLinked (.binarize parts rule.rhs.length rhsRev.isEmpty) rule.history
      addRuleLoop rule fuel (g.pushRule ⟨lhs, tail, history⟩) rhsRev (parts + 1)

/-- `Cfg::add_rule`. `/repo/cfg-grammar/src/cfg.rs:470-519`. Returns the grammar and the
number of parts. The fuel is the length of the right side plus one; `Props/Binarize.lean`
shows that running out of it means that the loop runs forever. -/
def addRule (g : Cfg) (rule : CfgRule) : Res (Cfg × Nat) :=
  if g.rhsLenAllowed rule.rhs.length then .ok (g.pushRule rule, 1)
  else addRuleLoop rule (rule.rhs.length + 1) g rule.rhs.reverse 0

/-- Adding a list of rules one after the other, as the loop of `limit_rhs_len` does.
`/repo/cfg-grammar/src/cfg.rs:236-238`. -/
def addRules (g : Cfg) (rules : List CfgRule) : Res Cfg :=
  rules.foldlM (fun g rule => do .ok (← g.addRule rule).1) g

/-- `Cfg::limit_rhs_len`. `/repo/cfg-grammar/src/cfg.rs:234-239`. -/
def limitRhsLen (g : Cfg) (limit : Option Nat) : Res Cfg :=
  addRules { g with rhsLenInvariant := limit, rules := [] } g.rules

/-- Lexicographic comparison of symbol lists: `Ord for [Symbol]`, used through the sort key at
`/repo/cfg-grammar/src/cfg.rs:249`. -/
def lexLe : List Sym → List Sym → Bool
  | [], _ => true
  | _ :: _, [] => false
  | a :: as, b :: bs => if a < b then true else if b < a then false else lexLe as bs

/-- Comparison of the keys `(rule.lhs, rule.rhs.clone())`.
`/repo/cfg-grammar/src/cfg.rs:249`. -/
def ruleLe (r s : CfgRule) : Bool :=
  if r.lhs < s.lhs then true else if s.lhs < r.lhs then false else lexLe r.rhs s.rhs

/-- `Cfg::sort`. `/repo/cfg-grammar/src/cfg.rs:248-250`. The standard library's stable sort
is modelled by a stable insertion sort (a stable sort has only one possible result). -/
def sort (g : Cfg) : Cfg := { g with rules := g.rules.insertionSort fun r s => ruleLe r s }

/-- `Vec::dedup_by_key` with key `(lhs, rhs)`: an element is dropped if its key equals that
of the last kept element. `/repo/cfg-grammar/src/cfg.rs:259`. -/
def dedupRules : List CfgRule → List CfgRule
  | [] => []
  | r :: rs => r :: go r rs
where
  /-- Loop with the last kept element. -/
  go : CfgRule → List CfgRule → List CfgRule
  | _, [] => []
  | last, r :: rs =>
    if r.lhs = last.lhs ∧ r.rhs = last.rhs then go last rs else r :: go r rs

/-- `Cfg::dedup`. `/repo/cfg-grammar/src/cfg.rs:258-260`. -/
def dedup (g : Cfg) : Cfg := { g with rules := dedupRules g.rules }

/-- `Cfg::extend`. `/repo/cfg-grammar/src/cfg.rs:264-266`. -/
def extend (g other : Cfg) : Cfg := { g with rules := g.rules ++ other.rules }

/-- `Cfg::retain` (with a pure predicate). `/repo/cfg-grammar/src/cfg.rs:461-463`. -/
def retain (g : Cfg) (f : CfgRule → Bool) : Cfg := { g with rules := g.rules.filter f }

/-- `Cfg::clear_rules`. `/repo/cfg-grammar/src/cfg.rs:522-524`. -/
def clearRules (g : Cfg) : Cfg := { g with rules := [] }

/-- `Cfg::reverse`. `/repo/cfg-grammar/src/cfg.rs:527-531`. -/
def reverse (g : Cfg) : Cfg :=
  { g with rules := g.rules.map fun r => { r with rhs := r.rhs.reverse } }

/-- `DotInfo`. `/repo/cfg-grammar/src/cfg.rs:105-117`. -/
structure DotInfo where
  lhs : Sym
  predot : Option Sym
  postdot : Option Sym
  earley : Option RuleDot
  deriving DecidableEq, Repr

/-- `usize::wrapping_sub(1)` on a 64-bit platform. `/repo/cfg-grammar/src/cfg.rs:440`. -/
def wrappingPred (n : Nat) : Nat := (n + (2 ^ 64 - 1)) % 2 ^ 64

/-- `Cfg::column`. `/repo/cfg-grammar/src/cfg.rs:437-445`. -/
def column (g : Cfg) (col : Nat) : List DotInfo :=
  g.rules.map fun rule =>
    { lhs := rule.lhs
      predot := rule.rhs[wrappingPred col]?
      postdot := rule.rhs[col]?
      earley := some (rule.history.dot col) }

/-- One iteration of the loop in `wrap_input`. `/repo/cfg-grammar/src/cfg.rs:639-655`. -/
def wrapOne (g : Cfg) (innerRoot : Sym) : Res Cfg :=
  let (root, g) := g.nextSym (some "root")
  let (startOfInput, g) := g.nextSym (some "start_of_input")
  let (endOfInput, g) := g.nextSym (some "end_of_input")
  do
    let (g, _) ← g.addRule ⟨root, [startOfInput, innerRoot, endOfInput],
      History.ofRoot (.rule root)⟩
    .ok { g with
      wrappedRoots := g.wrappedRoots ++ [⟨startOfInput, innerRoot, endOfInput, root⟩]
      roots := g.roots ++ [root] }

/-- `Cfg::wrap_input`. `/repo/cfg-grammar/src/cfg.rs:634-657`. -/
def wrapInput (g : Cfg) : Res Cfg :=
  g.roots.foldlM wrapOne { g with wrappedRoots := [], roots := [] }

/-- `Cfg::is_empty`. `/repo/cfg-grammar/src/cfg.rs:660-669`. Sorting followed by binary
search is membership. -/
def isEmpty (g : Cfg) : Bool :=
  if g.wrappedRoots.isEmpty then g.rules.isEmpty
  else g.rules.all fun rule => g.roots.contains rule.lhs

/-- `Cfg::equivalent`. `/repo/cfg-grammar/src/compare.rs:5-11`. -/
def equivalent (g other : Cfg) : Bool :=
  (g.rules.zip other.rules).foldl
    (fun eq (i, j) => eq && (i.lhs == j.lhs) && (i.rhs.zip j.rhs).all fun (a, b) => a == b)
    true

end Cfg

/-- `NamedCfgRule`. `/repo/cfg-grammar/src/cfg.rs:55-67`. -/
structure NamedCfgRule where
  lhs : Sym
  rhs : List Sym
  history : Option History
  names : List (Option String)
  deriving DecidableEq, Repr

/-- `NamedCfgRule::new`. `/repo/cfg-grammar/src/cfg.rs:749-757`. An empty list panics
(`names.len() - 1`, debug profile). -/
def NamedCfgRule.new (names : List (Option String)) : Res NamedCfgRule :=
  if names.length = 0 then .panic
  else .ok ⟨0, List.range' 1 (names.length - 1), none, names⟩

/-- `NamedCfgRule::with_history`. `/repo/cfg-grammar/src/cfg.rs:765-773`. -/
def NamedCfgRule.withHistory (names : List (Option String)) (history : History) :
    Res NamedCfgRule :=
  if names.length = 0 then .panic
  else .ok ⟨0, List.range' 1 (names.length - 1), some history, names⟩

/-- `CfgRule::named`. `/repo/cfg-grammar/src/cfg.rs:731-738`. -/
def CfgRule.named (rule : CfgRule) (src : SymbolSource) : NamedCfgRule :=
  ⟨rule.lhs, rule.rhs, some rule.history, src.names⟩

/-- Indexing `names[i]`, which panics out of range. `/repo/cfg-grammar/src/cfg.rs:793,799`. -/
def nameAt (names : List (Option String)) (i : Sym) : Res (Option String) :=
  Res.index names i

/-- `Iterator::all` over the zipped right sides, stopping at the first `false`.
`/repo/cfg-grammar/src/cfg.rs:795-799`. -/
def namedRhsEq (na nb : List (Option String)) : List (Sym × Sym) → Res Bool
  | [] => .ok true
  | (a, b) :: rest => do
    let x ← nameAt na a
    let y ← nameAt nb b
    if x = y then namedRhsEq na nb rest else .ok false

/-- `PartialEq for NamedCfgRule`. `/repo/cfg-grammar/src/cfg.rs:791-802`. -/
def NamedCfgRule.eq (a b : NamedCfgRule) : Res Bool := do
  let x ← nameAt a.names a.lhs
  let y ← nameAt b.names b.lhs
  if x ≠ y then .ok false
  else if a.rhs.length ≠ b.rhs.length then .ok false
  else do
    let e ← namedRhsEq a.names b.names (a.rhs.zip b.rhs)
    .ok (e && (a.history.isNone || b.history.isNone || decide (a.history = b.history)))

/-! ## Rule builder -/

/-- `RuleBuilder` without the borrowed grammar. `/repo/cfg-grammar/src/rule_builder.rs:12-16`. -/
structure RuleBuilder where
  lhs : Option Sym := none
  history : Option History := none
  deriving DecidableEq, Repr

/-- A call on the rule builder. `/repo/cfg-grammar/src/rule_builder.rs:29-79`. -/
inductive RuleCall where
  | rule (lhs : Sym)
  | history (h : History)
  | rhs (syms : List Sym)
  | rhsWithHistory (syms : List Sym) (h : History)
  | rhsWithLinkedHistory (syms : List Sym) (node : LinkedHistoryNode)
  deriving DecidableEq, Repr

/-- `RuleBuilder::rhs_with_history`. `/repo/cfg-grammar/src/rule_builder.rs:58-63`. -/
def RuleBuilder.rhsWithHistory (b : RuleBuilder) (g : Cfg) (syms : List Sym) (h : History) :
    Res (RuleBuilder × Cfg) := do
  let lhs ← Res.ofOption b.lhs
  let (g, _) ← g.addRule ⟨lhs, syms, h⟩
  .ok (b, g)

/-- One call. `rule`: lines 31-35, `history`: 39-42, `rhs`: 46-55, `rhs_with_history`: 58-63,
`rhs_with_linked_history`: 66-79 of `/repo/cfg-grammar/src/rule_builder.rs`. -/
def RuleBuilder.call (b : RuleBuilder) (g : Cfg) : RuleCall → Res (RuleBuilder × Cfg)
  | .rule lhs => .ok ({ b with lhs := some lhs, history := none }, g)
  | .history h => .ok ({ b with history := some h }, g)
  | .rhs syms => do
    let newHistory ← match b.history with
      | some h => Res.ok h
      | none => do .ok (History.ofRoot (.rule (← Res.ofOption b.lhs)))
    RuleBuilder.rhsWithHistory { b with history := none } g syms newHistory
  | .rhsWithHistory syms h => b.rhsWithHistory g syms h
  | .rhsWithLinkedHistory syms node => do
    let lhs ← Res.ofOption b.lhs
    let h ← processLinked node (History.ofRoot (.rule lhs))
    b.rhsWithHistory g syms h

/-- A program of builder calls, starting with `RuleBuilder::new(grammar)`.
`/repo/cfg-grammar/src/rule_builder.rs:20-27`. -/
def RuleBuilder.run : RuleBuilder → Cfg → List RuleCall → Res (RuleBuilder × Cfg)
  | b, g, [] => .ok (b, g)
  | b, g, c :: cs => do
    let (b, g) ← b.call g c
    RuleBuilder.run b g cs

end Verif
