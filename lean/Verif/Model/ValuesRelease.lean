import Verif.Model.Closure
import Verif.Model.Distance

/-!
# Model of `rhs_closure_with_values` in the release profile

`/repo/cfg-grammar/src/cfg.rs:590-624`. The sums of 32-bit weights wrap around; everything else is as in
`Model/Closure.lean`.
-/

namespace Verif

/-- The `try_fold` in the release profile. `/repo/cfg-grammar/src/cfg.rs:607-610`. -/
def sumValuesWrap (value : List (Option Nat)) : Nat → List Sym → Res (Option Nat)
  | acc, [] => .ok (some acc)
  | acc, elem :: rest => do
    match ← Res.index value elem with
    | none => .ok none
    | some val => sumValuesWrap value ((acc + val) % 2 ^ 32) rest

/-- Body of the inner loop in the release profile. `/repo/cfg-grammar/src/cfg.rs:606-620`. -/
def valuesBodyWrap (rules : List CfgRule) (st : List (Option Nat) × List Sym) (ruleId : Nat) :
    Res (List (Option Nat) × List Sym) := do
  let (value, stack) := st
  let rule ← Res.index rules ruleId
  match ← sumValuesWrap value 0 rule.rhs with
  | none => .ok (value, stack)
  | some workValue =>
    match ← Res.index value rule.lhs with
    | some currentValue =>
      if currentValue ≤ workValue then .ok (value, stack)
      else .ok (value.set rule.lhs (some workValue), rule.lhs :: stack)
    | none => .ok (value.set rule.lhs (some workValue), rule.lhs :: stack)

/-- The main loop in the release profile. `/repo/cfg-grammar/src/cfg.rs:600-621`. -/
def valuesLoopWrap (rules : List CfgRule) (occ : OccurenceMap) :
    Nat → List (Option Nat) → List Sym → Res (List (Option Nat))
  | _, value, [] => .ok value
  | 0, _, _ :: _ => .diverge
  | fuel + 1, value, workSym :: stack => do
    let (value, stack) ← (occ workSym).rhs.foldlM (valuesBodyWrap rules) (value, stack)
    valuesLoopWrap rules occ fuel value stack

/-- `Cfg::rhs_closure_with_values` in the release profile. `/repo/cfg-grammar/src/cfg.rs:590-624`. -/
def Cfg.rhsClosureWithValuesRelease (g : Cfg) (value : List (Option Nat)) : Res (List (Option Nat)) :=
  valuesLoopWrap g.rules (OccurenceMap.fromRules g.rules) (valuesFuel value) value
    ((value.zipIdx.filterMap fun (v, sym) => if v.isSome then some sym else none).reverse)

/-- `MinimalDistance::minimal_sentence_lengths` in the release profile.
`/repo/cfg-predict-distance/src/lib.rs:125-141`. -/
def Cfg.minimalSentenceLengthsRelease (g : Cfg) (minLength : List (Option Nat)) :
    Res (List (Option Nat)) := do
  let terminalSet ← g.terminalSymbols
  let minLength ← terminalSet.iter.foldlM
    (fun l terminal => Cfg.minimalSentenceLengths.setValue l terminal 1) minLength
  let minLength ← g.rules.foldlM
    (fun l rule => if rule.rhs.isEmpty then Cfg.minimalSentenceLengths.setValue l rule.lhs 0
      else .ok l) minLength
  g.rhsClosureWithValuesRelease minLength

end Verif
