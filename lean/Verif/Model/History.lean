import Verif.Model.Res
import Verif.Spec.Language

/-!
# Model of `cfg-history`

`/repo/cfg-history/src/lib.rs`, `/repo/cfg-history/src/earley/mod.rs`,
`/repo/cfg-history/src/earley/rule_dot.rs`.
Numbers of type `u32` are naturals; `n as u32` is reduction modulo 2^32.
-/

namespace Verif

/-- `!0u32`. `/repo/cfg-history/src/earley/mod.rs:66,80`. -/
def u32Max : Nat := 2 ^ 32 - 1

/-- `ExternalDottedRule`. `/repo/cfg-history/src/earley/mod.rs:55-58`. -/
structure ExternalDottedRule where
  id : Nat := 0
  pos : Nat := 0
  deriving DecidableEq, Repr

/-- `RuleDot`; `event` is `EventId::id` and `distance` is `MinimalDistance::distance`.
`/repo/cfg-history/src/earley/rule_dot.rs:7-14`. The defaults are the derived `Default`. -/
structure RuleDot where
  event : Nat := 0
  trace : ExternalDottedRule := {}
  distance : Nat := 0
  deriving DecidableEq, Repr

/-- `RuleDot::new`. `/repo/cfg-history/src/earley/rule_dot.rs:18-24`. -/
def RuleDot.new (id pos : Nat) : RuleDot := ⟨0, ⟨id, pos⟩, u32Max⟩

/-- `RuleDot::none`. `/repo/cfg-history/src/earley/rule_dot.rs:27-33`. -/
def RuleDot.none : RuleDot := ⟨0, ⟨u32Max, u32Max⟩, u32Max⟩

/-- `SequenceDetails`. `/repo/cfg-history/src/earley/mod.rs:122-126`. -/
structure SequenceDetails where
  top : Bool
  rhs : Sym
  sep : Option Sym
  deriving DecidableEq, Repr

/-- `History`. `/repo/cfg-history/src/earley/mod.rs:105-118`. The array `dots` is three
fields; `origin` is `ExternalOrigin::id`. The defaults are the derived `Default`. -/
structure History where
  dot0 : RuleDot := {}
  dot1 : RuleDot := {}
  dot2 : RuleDot := {}
  origin : Nat := 0
  nullable : Option (Sym × Bool) := .none
  weight : Option Nat := .none
  sequence : Option SequenceDetails := .none
  deriving DecidableEq, Repr

/-- `BinarizedRhsRange`. `/repo/cfg-history/src/lib.rs:281-288`. -/
inductive BinarizedRhsRange where
  | left | right | all (n : Nat)
  deriving DecidableEq, Repr

/-- `BinarizedRhsRange::as_range` applied to a slice.
`/repo/cfg-history/src/lib.rs:292-298`; slicing past the end panics. -/
def BinarizedRhsRange.slice (r : BinarizedRhsRange) (rhs : List Sym) : Res (List Sym) :=
  match r with
  | .left => if rhs.length < 1 then .panic else .ok (rhs.take 1)
  | .right => if rhs.length < 2 then .panic else .ok ((rhs.take 2).drop 1)
  | .all n => if rhs.length < n then .panic else .ok (rhs.take n)

/-- `BinarizedRhsRange::negate`. `/repo/cfg-history/src/lib.rs:305-311`. -/
def BinarizedRhsRange.negate : BinarizedRhsRange → Res BinarizedRhsRange
  | .left => .ok .right
  | .right => .ok .left
  | .all _ => .panic

/-- `RootHistoryNode`. `/repo/cfg-history/src/lib.rs:92-106`. -/
inductive RootHistoryNode where
  | noOp | rule (lhs : Sym) | origin (origin : Nat)
  deriving DecidableEq, Repr

namespace History

/-- `History::new`. `/repo/cfg-history/src/earley/mod.rs:191-197`. -/
def new (id : Nat) : History := { origin := id }

/-- `process_root`. `/repo/cfg-history/src/earley/mod.rs:175-181`. -/
def ofRoot : RootHistoryNode → History
  | .noOp => new u32Max
  | .rule _ => new 0
  | .origin n => new (n % 2 ^ 32)

/-- `History::dot`. `/repo/cfg-history/src/earley/mod.rs:210-212`. -/
def dot (h : History) : Nat → RuleDot
  | 0 => h.dot0
  | 1 => h.dot1
  | 2 => h.dot2
  | _ => RuleDot.none

/-- `History::at_dot`. `/repo/cfg-history/src/earley/mod.rs:214-216`. -/
def atDot (h : History) (n : Nat) : RuleDot := RuleDot.new h.origin (n % 2 ^ 32)

/-- `History::binarize`. `/repo/cfg-history/src/earley/mod.rs:218-251`. `self.dots` is an
array of length 3, so it is never empty. The subtraction `full_len - 2 - height` panics on
underflow (debug profile). -/
def binarize (h : History) (height fullLen : Nat) (isTop : Bool) : Res History :=
  if isTop then
    if fullLen = 2 then
      .ok { h with dot0 := h.atDot 0, dot1 := RuleDot.none, dot2 := h.atDot 1 }
    else if 3 ≤ fullLen then
      .ok { h with dot0 := h.atDot 0, dot1 := h.atDot (fullLen - 2),
                   dot2 := h.atDot (fullLen - 1) }
    else
      .ok { h with dot0 := h.atDot 0, dot1 := RuleDot.none, dot2 := RuleDot.none }
  else if fullLen < 2 + height then .panic
  else
    .ok { h with dot0 := RuleDot.none, dot1 := h.atDot (fullLen - 2 - height),
                 dot2 := RuleDot.none, origin := u32Max }

/-- `History::eliminate_nulling`. `/repo/cfg-history/src/earley/mod.rs:253-275`. -/
def eliminateNulling (h : History) (rhs0 rhs1 : Option Sym) (subset : BinarizedRhsRange) :
    Res History :=
  match subset with
  | .all _ => .ok { origin := h.origin }
  | .right => match rhs1 with
    | some sym => .ok { h with nullable := some (sym, true) }
    | .none => .panic
  | .left => match rhs0 with
    | some sym => .ok { h with nullable := some (sym, false) }
    | .none => .panic

/-- `SymKind`. `/repo/cfg-history/src/earley/mod.rs:97-101`. -/
inductive SymKind where
  | element | separator | other
  deriving DecidableEq, Repr

/-- The classification closure in `rewrite_sequence_bottom`.
`/repo/cfg-history/src/earley/mod.rs:300-308`. -/
def symKind (d : SequenceDetails) (sym : Sym) : SymKind :=
  if sym = d.rhs then .element
  else if some sym = d.sep then .separator
  else .other

/-- The match in the loop of `rewrite_sequence_bottom`.
`/repo/cfg-history/src/earley/mod.rs:313-319`. -/
def seqDot (h : History) : SymKind → SymKind → RuleDot
  | _, .separator => h.dot1
  | .separator, _ => h.dot2
  | .element, _ => h.dot1
  | _, .element => h.dot0
  | _, _ => RuleDot.none

/-- `History::rewrite_sequence_bottom`. `/repo/cfg-history/src/earley/mod.rs:291-326`. -/
def rewriteSequenceBottom (h : History) (d : SequenceDetails) (newRhs : List Sym) : History :=
  let syms := ((newRhs.map (symKind d)) ++ [SymKind.other]).take 3
  let lefts := SymKind.other :: syms
  let dots := (lefts.zip syms).map fun (l, r) => h.seqDot l r
  { dot0 := dots.getD 0 RuleDot.none, dot1 := dots.getD 1 RuleDot.none,
    dot2 := dots.getD 2 RuleDot.none }

/-- `History::rewrite_sequence` (with `rewrite_sequence_top`).
`/repo/cfg-history/src/earley/mod.rs:277-289`. -/
def rewriteSequence (h : History) (d : SequenceDetails) (newRhs : List Sym) : History :=
  if d.top then { h.rewriteSequenceBottom d newRhs with origin := h.origin }
  else h.rewriteSequenceBottom d newRhs

end History

/-- `LinkedHistoryNode`. `/repo/cfg-history/src/lib.rs:19-88`. The weight carries the value
of `(weight * 1000f64) as u32`; floating point is not modelled. -/
inductive LinkedHistoryNode where
  | binarize (height fullLen : Nat) (isTop : Bool)
  | eliminateNulling (rhs0 rhs1 : Option Sym) (which : BinarizedRhsRange)
  | assignPrecedence (looseness : Nat)
  | rewriteSequence (top : Bool) (rhs : Sym) (sep : Option Sym)
  | sequenceRhs (rhs : List (Option Sym))
  | weight (millis : Nat)
  deriving DecidableEq, Repr

/-- `process_linked`. `/repo/cfg-history/src/earley/mod.rs:144-173`. In the `SequenceRhs`
case the value computed by `rewrite_sequence` is dropped, as in the code (line 167). -/
def processLinked (node : LinkedHistoryNode) (prev : History) : Res History :=
  match node with
  | .assignPrecedence _ => .ok prev
  | .binarize height fullLen isTop => prev.binarize height fullLen isTop
  | .eliminateNulling rhs0 rhs1 which => prev.eliminateNulling rhs0 rhs1 which
  | .rewriteSequence top rhs sep => .ok { prev with sequence := some ⟨top, rhs, sep⟩ }
  | .weight millis => .ok { prev with weight := some millis }
  | .sequenceRhs rhs =>
    match prev.sequence with
    | some details =>
      let _ := prev.rewriteSequence details (rhs.filterMap id)
      .ok prev
    | none => .ok prev

end Verif
