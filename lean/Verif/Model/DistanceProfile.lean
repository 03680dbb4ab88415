import Verif.Model.Distance
import Verif.Model.ValuesRelease

/-!
# Model of `cfg-predict-distance` in both build profiles

`/repo/cfg-predict-distance/src/lib.rs`. The functions of `Model/Distance.lean` with the build profile
as an argument: sums of `u32` panic on overflow in debug builds and wrap around in release builds.
`Proofs/DistanceProfile.lean` shows that they are those of `Model/Distance.lean` for debug builds.
-/

namespace Verif

/-- `cur += …` on `u32`. `/repo/cfg-predict-distance/src/lib.rs:229`. -/
def addLen (p : Profile) (a b : Nat) : Res Nat :=
  match p with
  | .debug => if 2 ^ 32 ≤ a + b then .panic else .ok (a + b)
  | .release => .ok ((a + b) % 2 ^ 32)

/-- `MinimalDistance::minimal_sentence_lengths`. `/repo/cfg-predict-distance/src/lib.rs:125-141`. -/
def Cfg.minimalSentenceLengthsIn (g : Cfg) (p : Profile) (minLength : List (Option Nat)) :
    Res (List (Option Nat)) :=
  match p with
  | .debug => g.minimalSentenceLengths minLength
  | .release => g.minimalSentenceLengthsRelease minLength

/-- `MinimalDistance::update_sym_distance`, on the `Distances` of the direction.
`/repo/cfg-predict-distance/src/lib.rs:220-241`. -/
def Distances.updateSymIn (p : Profile) (d : Distances) (minLength : List (Option Nat)) (cur : Nat)
    (sym : Sym) : Res (Distances × Nat) := do
  let (after, _) ← setMinAt d.after sym cur
  let len ← Res.ofOption (← Res.index minLength sym)
  let cur ← addLen p cur len
  match ← Res.index d.before sym with
  | some predicted => .ok ({ d with after := after }, min cur predicted)
  | none => .ok ({ d with after := after }, cur)

/-- The loops of `update_rule_distances` over pairs of a position in the row and a symbol.
`/repo/cfg-predict-distance/src/lib.rs:204-207,210-213`. -/
def Distances.walkIn (p : Profile) (minLength : List (Option Nat)) : List (Nat × Sym) → Nat →
    List (Option Nat) → Distances → Res (List (Option Nat) × Distances × Nat)
  | [], cur, row, d => .ok (row, d, cur)
  | (pos, sym) :: steps, cur, row, d => do
    let (row, _) ← setMinAt row pos cur
    let (d, cur) ← d.updateSymIn p minLength cur sym
    walkIn p minLength steps cur row d

/-- `MinimalDistance::update_rule_distances`, on the row `distances[idx]` and the `Distances` of the
direction. Returns the row, the `Distances`, `cur` and `changed`.
`/repo/cfg-predict-distance/src/lib.rs:196-218`. -/
def Distances.updateRuleIn (p : Profile) (minLength : List (Option Nat)) (cur : Nat) (rhs : List Sym)
    (row : List (Option Nat)) (d : Distances) (reverse : Bool) :
    Res (List (Option Nat) × Distances × Nat × Bool) := do
  let (steps, last) :=
    if reverse then (rhs.zipIdx.map fun (sym, dot) => (dot, sym), rhs.length)
    else ((rhs.zipIdx.map fun (sym, dot) => (dot + 1, sym)).reverse, 0)
  let (row, d, cur) ← Distances.walkIn p minLength steps cur row d
  let (row, changed) ← setMinAt row last cur
  .ok (row, d, cur, changed)

/-- `update_rule_distances` called with `reverse = false` on the whole state.
`/repo/cfg-predict-distance/src/lib.rs:165,182`. -/
def MinimalDistance.updateForwardIn (p : Profile) (m : MinimalDistance) (cur : Nat) (rhs : List Sym)
    (idx : Nat) : Res (MinimalDistance × Nat × Bool) := do
  let row ← Res.index m.distances idx
  let (row, d, cur, changed) ←
    Distances.updateRuleIn p m.minLength cur rhs row m.forwardDistances false
  .ok ({ m with distances := m.distances.set idx row, forwardDistances := d }, cur, changed)

/-- `update_rule_distances` called with `reverse = true` on the whole state.
`/repo/cfg-predict-distance/src/lib.rs:169,187`. -/
def MinimalDistance.updateBackwardIn (p : Profile) (m : MinimalDistance) (cur : Nat) (rhs : List Sym)
    (idx : Nat) : Res (MinimalDistance × Nat × Bool) := do
  let row ← Res.index m.distances idx
  let (row, d, cur, changed) ←
    Distances.updateRuleIn p m.minLength cur rhs row m.backwardDistances true
  .ok ({ m with distances := m.distances.set idx row, backwardDistances := d }, cur, changed)

/-- First half of `immediate_process_dot`. `/repo/cfg-predict-distance/src/lib.rs:164-167`. -/
def MinimalDistance.processForwardIn (p : Profile) (m : MinimalDistance) (idx : Nat) (rule : CfgRule)
    (dot : Nat) : Res MinimalDistance := do
  sliceCheck rule.rhs dot
  let (m, min, _) ← m.updateForwardIn p 0 (rule.rhs.take dot) idx
  let (before, _) ← setMinAt m.forwardDistances.before rule.lhs min
  .ok { m with forwardDistances := { m.forwardDistances with before := before } }

/-- Second half of `immediate_process_dot`. `/repo/cfg-predict-distance/src/lib.rs:168-171`. -/
def MinimalDistance.processBackwardIn (p : Profile) (m : MinimalDistance) (idx : Nat) (rule : CfgRule)
    (dot : Nat) : Res MinimalDistance := do
  sliceCheck rule.rhs dot
  let (m, min, _) ← m.updateBackwardIn p 0 (rule.rhs.drop dot) idx
  let (before, _) ← setMinAt m.backwardDistances.before rule.lhs min
  .ok { m with backwardDistances := { m.backwardDistances with before := before } }

/-- `MinimalDistance::immediate_process_dot`. `/repo/cfg-predict-distance/src/lib.rs:157-172`. -/
def MinimalDistance.processDotIn (p : Profile) (m : MinimalDistance) (idx : Nat) (rule : CfgRule)
    (direction : DistanceDirection) (dot : Nat) : Res MinimalDistance := do
  let m ← if direction.includesForward then m.processForwardIn p idx rule dot else .ok m
  if direction.includesBackward then m.processBackwardIn p idx rule dot else .ok m

/-- `MinimalDistance::immediate_minimal_distances`.
`/repo/cfg-predict-distance/src/lib.rs:143-155`. -/
def MinimalDistance.immediateIn (p : Profile) (m : MinimalDistance) (g : Cfg)
    (dots : List (Nat × Nat)) (direction : DistanceDirection) : Res MinimalDistance :=
  g.rules.zipIdx.foldlM (fun m (rule, idx) =>
    (dotSpan dots idx).foldlM (fun m d => m.processDotIn p idx rule direction d.2) m) m

/-- First half of the loop body of `transitive_minimal_distances`.
`/repo/cfg-predict-distance/src/lib.rs:181-185`. -/
def MinimalDistance.passForwardIn (p : Profile) (m : MinimalDistance) (rule : CfgRule) (idx : Nat)
    (changed : Bool) : Res (MinimalDistance × Bool) := do
  match ← Res.index m.forwardDistances.after rule.lhs with
  | some distance => do
    let (m, _, now) ← m.updateForwardIn p distance rule.rhs idx
    .ok (m, changed || now)
  | none => .ok (m, changed)

/-- Second half of the loop body of `transitive_minimal_distances`.
`/repo/cfg-predict-distance/src/lib.rs:186-190`. -/
def MinimalDistance.passBackwardIn (p : Profile) (m : MinimalDistance) (rule : CfgRule) (idx : Nat)
    (changed : Bool) : Res (MinimalDistance × Bool) := do
  match ← Res.index m.backwardDistances.after rule.lhs with
  | some distance => do
    let (m, _, now) ← m.updateBackwardIn p distance rule.rhs idx
    .ok (m, changed || now)
  | none => .ok (m, changed)

/-- Body of the `for` loop of `transitive_minimal_distances`.
`/repo/cfg-predict-distance/src/lib.rs:180-191`. -/
def MinimalDistance.passRuleIn (p : Profile) (m : MinimalDistance) (rule : CfgRule) (idx : Nat)
    (changed : Bool) : Res (MinimalDistance × Bool) := do
  let (m, changed) ← m.passForwardIn p rule idx changed
  m.passBackwardIn p rule idx changed

/-- One pass over the rules. `/repo/cfg-predict-distance/src/lib.rs:179-192`. -/
def MinimalDistance.passIn (p : Profile) (m : MinimalDistance) (g : Cfg) :
    Res (MinimalDistance × Bool) :=
  g.rules.zipIdx.foldlM (fun (st : MinimalDistance × Bool) (x : CfgRule × Nat) =>
    st.1.passRuleIn p x.1 x.2 st.2) (m, false)

/-- The `while` loop of `transitive_minimal_distances`, one unit of fuel per pass.
`/repo/cfg-predict-distance/src/lib.rs:175-193`. -/
def MinimalDistance.transitiveIn (p : Profile) (g : Cfg) : Nat → MinimalDistance → Res MinimalDistance
  | 0, _ => .diverge
  | fuel + 1, m => do
    let (m, changed) ← m.passIn p g
    if changed then transitiveIn p g fuel m else .ok m

/-- `MinimalDistance::minimal_distances`. `/repo/cfg-predict-distance/src/lib.rs:111-123`. -/
def MinimalDistance.minimalDistancesIn (p : Profile) (m : MinimalDistance) (g : Cfg)
    (dots : List (Nat × Nat)) (direction : DistanceDirection) : Res MinimalDistance := do
  let dots := dots.insertionSort fun a b => dotLe a b
  let minLength ← g.minimalSentenceLengthsIn p m.minLength
  let m ← { m with minLength := minLength }.immediateIn p g dots direction
  m.transitiveIn p g m.fuel

end Verif
