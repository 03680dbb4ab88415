import Verif.Spec.Rename
import Verif.Spec.Precedence
import Verif.Spec.Sequence
import Verif.Model.Nulling
import Verif.Model.Classify
import Verif.Model.Lr0
import Verif.Model.Remap

/-! # Specification: sessions of calls on a grammar

What a caller may do with a grammar: the calls, and what must hold of their arguments. -/

namespace Verif

/-- What can be relied on between calls: rules, roots and wrapped roots consist of symbols of the
grammar, the rules respect the length limit, and no name is that of a symbol that does not exist. -/
structure Cfg.Sound (g : Cfg) : Prop where
  rules : g.WF
  roots : g.RootsIn (· < g.numSyms)
  limit : g.Limited
  names : g.src.names.length ≤ g.numSyms

/-- The numbers and symbols in a node given to `rhs_with_linked_history` fit together. -/
def LinkedHistoryNode.Ok : LinkedHistoryNode → Prop
  | .binarize height fullLen isTop => isTop = true ∨ height + 2 ≤ fullLen
  | .eliminateNulling _ rhs1 .right => rhs1 ≠ none
  | .eliminateNulling rhs0 _ .left => rhs0 ≠ none
  | _ => True

/-- A chain of calls on a rule builder over symbols below `n`, where right sides come after some
left side (`lhs` says whether there was one). -/
def BuildOk (n : Nat) : Bool → List RuleCall → Prop
  | _, [] => True
  | _, .rule a :: cs => a < n ∧ BuildOk n true cs
  | lhs, .history _ :: cs => BuildOk n lhs cs
  | lhs, .rhs syms :: cs => lhs = true ∧ (∀ s ∈ syms, s < n) ∧ BuildOk n lhs cs
  | lhs, .rhsWithHistory syms _ :: cs => lhs = true ∧ (∀ s ∈ syms, s < n) ∧ BuildOk n lhs cs
  | lhs, .rhsWithLinkedHistory syms node :: cs =>
    lhs = true ∧ (∀ s ∈ syms, s < n) ∧ node.Ok ∧ BuildOk n lhs cs

/-- The symbols of a sequence rule are below `n`. -/
def Sequence.Below (n : Nat) (seq : Sequence) : Prop :=
  seq.lhs < n ∧ seq.rhs < n ∧ ∀ s, seq.separator.sym? = some s → s < n

/-- A call that changes a grammar. -/
inductive Call where
  /-- `next_sym` -/
  | sym (name : Option String)
  /-- `set_roots` -/
  | setRoots (roots : List Sym)
  /-- `add_rule` -/
  | addRule (rule : CfgRule)
  /-- calls on a rule builder -/
  | build (calls : List RuleCall)
  /-- a sequence rule, added and rewritten -/
  | sequence (p : Profile) (seq : Sequence)
  /-- a precedenced rule -/
  | precedenced (lhs : Sym) (calls : List PrecCall)
  /-- `limit_rhs_len` -/
  | limitLen (limit : Option Nat)
  /-- `sort` -/
  | sort
  /-- `dedup` -/
  | dedup
  /-- `retain` -/
  | retain (f : CfgRule → Bool)
  /-- `clear_rules` -/
  | clear
  /-- `reverse` -/
  | reverse
  /-- `extend` -/
  | extend (other : Cfg)
  /-- `wrap_input` -/
  | wrap
  /-- `binarize_and_eliminate_nulling_rules`, keeping the first grammar -/
  | eliminateNulling
  /-- `usefulness_with_roots` and `remove_useless_rules` -/
  | removeUseless (roots : List Sym)
  /-- `make_proper` -/
  | makeProper
  /-- `Cycles::new` and `remove_cycles` -/
  | removeCycles
  /-- `Cycles::new` and `rewrite_cycles` -/
  | rewriteCycles
  /-- `Remap::new` and `reorder_symbols` -/
  | reorder (f : Sym → Sym → Ordering)
  /-- `Remap::new` and `remove_unused_symbols` -/
  | removeUnused
  /-- `make_lr0_fsm`, which adds a start rule -/
  | lr0 (start : Sym)

/-- The effect of a call on the grammar. -/
def Call.run (g : Cfg) : Call → Res Cfg
  | .sym name => .ok (g.nextSym name).2
  | .setRoots roots => .ok (g.setRoots roots)
  | .addRule rule => do .ok (← g.addRule rule).1
  | .build calls => do .ok (← RuleBuilder.run {} g calls).2
  | .sequence p seq => g.rewriteSequence p seq
  | .precedenced lhs calls => g.precedencedRule lhs calls
  | .limitLen limit => g.limitRhsLen limit
  | .sort => .ok g.sort
  | .dedup => .ok g.dedup
  | .retain f => .ok (g.retain f)
  | .clear => .ok g.clearRules
  | .reverse => .ok g.reverse
  | .extend other => .ok (g.extend other)
  | .wrap => g.wrapInput
  | .eliminateNulling => do .ok (← g.binarizeAndEliminateNulling).1
  | .removeUseless roots => do (← g.usefulnessWithRoots roots).removeUselessRules g
  | .makeProper => do .ok (← g.makeProper).1
  | .removeCycles => do .ok (← (← Cycles.new g).removeCycles).grammar
  | .rewriteCycles => do .ok (← (← Cycles.new g).rewriteCycles).grammar
  | .reorder f => do .ok (← (Remap.new g).reorderSymbols f).g
  | .removeUnused => do .ok (← (Remap.new g).removeUnusedSymbols).g
  | .lr0 start => do .ok (← g.makeLr0Fsm start).1

/-- What must hold of the arguments of a call: symbols are symbols of the grammar, a length limit
is at least two, numbers of repetitions fit, grammars used for extension respect the length limit,
comparisons are total, and unused symbols are removed when there are rules and the roots occur in
them. -/
def Call.Ok (g : Cfg) : Call → Prop
  | .sym _ | .sort | .dedup | .retain _ | .clear | .reverse | .wrap | .eliminateNulling
  | .makeProper | .removeCycles | .rewriteCycles => True
  | .setRoots roots => ∀ s ∈ roots, s < g.numSyms
  | .addRule rule => rule.lhs < g.numSyms ∧ ∀ s ∈ rule.rhs, s < g.numSyms
  | .build calls => BuildOk g.numSyms false calls
  | .sequence _ seq => seq.Below g.numSyms ∧ seq.InU32 ∧ seq.Fits
  | .precedenced lhs calls => lhs < g.numSyms ∧
    ∀ x ∈ alternatives 0 .left calls, ∀ s ∈ x.rhs, s < g.numSyms
  | .limitLen limit => ∀ n, limit = some n → 2 ≤ n
  | .extend other => ∀ r ∈ other.rules, (r.lhs < g.numSyms ∧ ∀ s ∈ r.rhs, s < g.numSyms) ∧
    ∀ n, g.rhsLenInvariant = some n → r.rhs.length ≤ n
  | .removeUseless roots => ∀ s ∈ roots, s < g.numSyms
  | .reorder f => TotalCmp f
  | .removeUnused => g.rules ≠ [] ∧ g.RootsIn g.Used
  | .lr0 start => start < g.numSyms

/-- The calls one after the other. -/
def runAll : Cfg → List Call → Res Cfg
  | g, [] => .ok g
  | g, c :: cs => do runAll (← c.run g) cs

/-- The arguments of each call are as they must be when it is made. -/
def AllOk : Cfg → List Call → Prop
  | _, [] => True
  | g, c :: cs => c.Ok g ∧ ∀ g', c.run g = .ok g' → AllOk g' cs

end Verif
