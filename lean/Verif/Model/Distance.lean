import Verif.Model.Closure

/-!
# Model of `cfg-predict-distance`

`/repo/cfg-predict-distance/src/lib.rs`. Additions of `u32` panic on overflow (debug profile; in
release they wrap, see `Model/DistanceProfile.lean` and
`Model/ValuesRelease.lean`). The borrowed grammar is passed as an argument.
-/

namespace Verif

/-- `DistanceDirection`. `/repo/cfg-predict-distance/src/lib.rs:27-61`. -/
inductive DistanceDirection where
  | forward | backward | symmetric
  deriving DecidableEq, Repr

/-- `DistanceDirection::includes_forward`. `/repo/cfg-predict-distance/src/lib.rs:64-69`. -/
def DistanceDirection.includesForward : DistanceDirection → Bool
  | .backward => false
  | _ => true

/-- `DistanceDirection::includes_backward`. `/repo/cfg-predict-distance/src/lib.rs:71-76`. -/
def DistanceDirection.includesBackward : DistanceDirection → Bool
  | .forward => false
  | _ => true

/-- `Distances`. `/repo/cfg-predict-distance/src/lib.rs:19-22`. -/
structure Distances where
  before : List (Option Nat)
  after : List (Option Nat)
  deriving DecidableEq, Repr

/-- `Distances::new`. `/repo/cfg-predict-distance/src/lib.rs:80-85`. -/
def Distances.new (numSyms : Nat) : Distances :=
  ⟨List.replicate numSyms none, List.replicate numSyms none⟩

/-- `MinimalDistance`, without the reference to the grammar.
`/repo/cfg-predict-distance/src/lib.rs:11-17`. -/
structure MinimalDistance where
  distances : List (List (Option Nat))
  forwardDistances : Distances
  backwardDistances : Distances
  minLength : List (Option Nat)
  deriving DecidableEq, Repr

/-- `MinimalDistance::new`. `/repo/cfg-predict-distance/src/lib.rs:90-102`. -/
def MinimalDistance.new (g : Cfg) : MinimalDistance where
  distances := g.rules.map fun rule => List.replicate (rule.rhs.length + 1) none
  forwardDistances := Distances.new g.numSyms
  backwardDistances := Distances.new g.numSyms
  minLength := List.replicate g.numSyms none

/-- `set_min`. `/repo/cfg-predict-distance/src/lib.rs:245-257`. -/
def setMin (current : Option Nat) (new : Nat) : Option Nat × Bool :=
  match current with
  | some c => if c > new then (some new, true) else (some c, false)
  | none => (some new, true)

/-- `set_min` on an element of a vector, as at `/repo/cfg-predict-distance/src/lib.rs:166,205`. -/
def setMinAt (l : List (Option Nat)) (i new : Nat) : Res (List (Option Nat) × Bool) := do
  let current ← Res.index l i
  let (v, changed) := setMin current new
  .ok (l.set i v, changed)

/-- `MinimalDistance::minimal_sentence_lengths`.
`/repo/cfg-predict-distance/src/lib.rs:125-141`. -/
def Cfg.minimalSentenceLengths (g : Cfg) (minLength : List (Option Nat)) :
    Res (List (Option Nat)) := do
  let terminalSet ← g.terminalSymbols
  let minLength ← terminalSet.iter.foldlM (fun l terminal => setValue l terminal 1) minLength
  let minLength ← g.rules.foldlM
    (fun l rule => if rule.rhs.isEmpty then setValue l rule.lhs 0 else .ok l) minLength
  g.rhsClosureWithValues minLength
where
  /-- Assignment `min_length[sym] = Some(v)`. `/repo/cfg-predict-distance/src/lib.rs:129,134`. -/
  setValue (l : List (Option Nat)) (sym : Sym) (v : Nat) : Res (List (Option Nat)) :=
    if sym < l.length then .ok (l.set sym (some v)) else .panic

/-- `MinimalDistance::update_sym_distance`, on the `Distances` of the direction.
`/repo/cfg-predict-distance/src/lib.rs:220-241`. -/
def Distances.updateSym (d : Distances) (minLength : List (Option Nat)) (cur : Nat) (sym : Sym) :
    Res (Distances × Nat) := do
  let (after, _) ← setMinAt d.after sym cur
  let len ← Res.ofOption (← Res.index minLength sym)
  if 2 ^ 32 ≤ cur + len then .panic else
  match ← Res.index d.before sym with
  | some predicted => .ok ({ d with after := after }, min (cur + len) predicted)
  | none => .ok ({ d with after := after }, cur + len)

/-- The loops of `update_rule_distances` over pairs of a position in the row and a symbol.
`/repo/cfg-predict-distance/src/lib.rs:204-207,210-213`. -/
def Distances.walk (minLength : List (Option Nat)) : List (Nat × Sym) → Nat →
    List (Option Nat) → Distances → Res (List (Option Nat) × Distances × Nat)
  | [], cur, row, d => .ok (row, d, cur)
  | (pos, sym) :: steps, cur, row, d => do
    let (row, _) ← setMinAt row pos cur
    let (d, cur) ← d.updateSym minLength cur sym
    walk minLength steps cur row d

/-- `MinimalDistance::update_rule_distances`, on the row `distances[idx]` and the `Distances` of the
direction. Returns the row, the `Distances`, `cur` and `changed`.
`/repo/cfg-predict-distance/src/lib.rs:196-218`. -/
def Distances.updateRule (minLength : List (Option Nat)) (cur : Nat) (rhs : List Sym)
    (row : List (Option Nat)) (d : Distances) (reverse : Bool) :
    Res (List (Option Nat) × Distances × Nat × Bool) := do
  let (steps, last) :=
    if reverse then (rhs.zipIdx.map fun (sym, dot) => (dot, sym), rhs.length)
    else ((rhs.zipIdx.map fun (sym, dot) => (dot + 1, sym)).reverse, 0)
  let (row, d, cur) ← Distances.walk minLength steps cur row d
  let (row, changed) ← setMinAt row last cur
  .ok (row, d, cur, changed)

/-- `update_rule_distances` called with `reverse = false` on the whole state.
`/repo/cfg-predict-distance/src/lib.rs:165,182`. -/
def MinimalDistance.updateForward (m : MinimalDistance) (cur : Nat) (rhs : List Sym) (idx : Nat) :
    Res (MinimalDistance × Nat × Bool) := do
  let row ← Res.index m.distances idx
  let (row, d, cur, changed) ← Distances.updateRule m.minLength cur rhs row m.forwardDistances false
  .ok ({ m with distances := m.distances.set idx row, forwardDistances := d }, cur, changed)

/-- `update_rule_distances` called with `reverse = true` on the whole state.
`/repo/cfg-predict-distance/src/lib.rs:169,187`. -/
def MinimalDistance.updateBackward (m : MinimalDistance) (cur : Nat) (rhs : List Sym) (idx : Nat) :
    Res (MinimalDistance × Nat × Bool) := do
  let row ← Res.index m.distances idx
  let (row, d, cur, changed) ← Distances.updateRule m.minLength cur rhs row m.backwardDistances true
  .ok ({ m with distances := m.distances.set idx row, backwardDistances := d }, cur, changed)

/-- The slices `rhs[..dot]`, `rhs[dot..]` panic beyond the end.
`/repo/cfg-predict-distance/src/lib.rs:165,169`. -/
def sliceCheck (rhs : List Sym) (dot : Nat) : Res Unit :=
  if dot ≤ rhs.length then .ok () else .panic

/-- First half of `immediate_process_dot`. `/repo/cfg-predict-distance/src/lib.rs:164-167`. -/
def MinimalDistance.processForward (m : MinimalDistance) (idx : Nat) (rule : CfgRule) (dot : Nat) :
    Res MinimalDistance := do
  sliceCheck rule.rhs dot
  let (m, min, _) ← m.updateForward 0 (rule.rhs.take dot) idx
  let (before, _) ← setMinAt m.forwardDistances.before rule.lhs min
  .ok { m with forwardDistances := { m.forwardDistances with before := before } }

/-- Second half of `immediate_process_dot`. `/repo/cfg-predict-distance/src/lib.rs:168-171`. -/
def MinimalDistance.processBackward (m : MinimalDistance) (idx : Nat) (rule : CfgRule) (dot : Nat) :
    Res MinimalDistance := do
  sliceCheck rule.rhs dot
  let (m, min, _) ← m.updateBackward 0 (rule.rhs.drop dot) idx
  let (before, _) ← setMinAt m.backwardDistances.before rule.lhs min
  .ok { m with backwardDistances := { m.backwardDistances with before := before } }

/-- `MinimalDistance::immediate_process_dot`. `/repo/cfg-predict-distance/src/lib.rs:157-172`. -/
def MinimalDistance.processDot (m : MinimalDistance) (idx : Nat) (rule : CfgRule)
    (direction : DistanceDirection) (dot : Nat) : Res MinimalDistance := do
  let m ← if direction.includesForward then m.processForward idx rule dot else .ok m
  if direction.includesBackward then m.processBackward idx rule dot else .ok m

/-- Order of pairs, used by `sort_unstable` and `binary_search`.
`/repo/cfg-predict-distance/src/lib.rs:118,263`. -/
def dotLe (a b : Nat × Nat) : Bool := a.1 < b.1 || (a.1 == b.1 && a.2 ≤ b.2)

/-- `binary_search_span` on sorted dots. `/repo/cfg-predict-distance/src/lib.rs:259-271`. If
`(idx, 0)` is there several times, `binary_search` may land on any of them, and the model takes the
first. -/
def dotSpan (dots : List (Nat × Nat)) (idx : Nat) : List (Nat × Nat) :=
  (dots.dropWhile fun d => !dotLe (idx, 0) d).takeWhile fun d => d.1 == idx

/-- `MinimalDistance::immediate_minimal_distances`.
`/repo/cfg-predict-distance/src/lib.rs:143-155`. -/
def MinimalDistance.immediate (m : MinimalDistance) (g : Cfg) (dots : List (Nat × Nat))
    (direction : DistanceDirection) : Res MinimalDistance :=
  g.rules.zipIdx.foldlM (fun m (rule, idx) =>
    (dotSpan dots idx).foldlM (fun m d => m.processDot idx rule direction d.2) m) m

/-- First half of the loop body of `transitive_minimal_distances`.
`/repo/cfg-predict-distance/src/lib.rs:181-185`. -/
def MinimalDistance.passForward (m : MinimalDistance) (rule : CfgRule) (idx : Nat)
    (changed : Bool) : Res (MinimalDistance × Bool) := do
  match ← Res.index m.forwardDistances.after rule.lhs with
  | some distance => do
    let (m, _, now) ← m.updateForward distance rule.rhs idx
    .ok (m, changed || now)
  | none => .ok (m, changed)

/-- Second half of the loop body of `transitive_minimal_distances`.
`/repo/cfg-predict-distance/src/lib.rs:186-190`. -/
def MinimalDistance.passBackward (m : MinimalDistance) (rule : CfgRule) (idx : Nat)
    (changed : Bool) : Res (MinimalDistance × Bool) := do
  match ← Res.index m.backwardDistances.after rule.lhs with
  | some distance => do
    let (m, _, now) ← m.updateBackward distance rule.rhs idx
    .ok (m, changed || now)
  | none => .ok (m, changed)

/-- Body of the `for` loop of `transitive_minimal_distances`.
`/repo/cfg-predict-distance/src/lib.rs:180-191`. -/
def MinimalDistance.passRule (m : MinimalDistance) (rule : CfgRule) (idx : Nat) (changed : Bool) :
    Res (MinimalDistance × Bool) := do
  let (m, changed) ← m.passForward rule idx changed
  m.passBackward rule idx changed

/-- One pass over the rules. `/repo/cfg-predict-distance/src/lib.rs:179-192`. -/
def MinimalDistance.pass (m : MinimalDistance) (g : Cfg) : Res (MinimalDistance × Bool) :=
  g.rules.zipIdx.foldlM (fun (st : MinimalDistance × Bool) (x : CfgRule × Nat) =>
    st.1.passRule x.1 x.2 st.2) (m, false)

/-- The `while` loop of `transitive_minimal_distances`, one unit of fuel per pass.
`/repo/cfg-predict-distance/src/lib.rs:175-193`. -/
def MinimalDistance.transitive (g : Cfg) : Nat → MinimalDistance → Res MinimalDistance
  | 0, _ => .diverge
  | fuel + 1, m => do
    let (m, changed) ← m.pass g
    if changed then transitive g fuel m else .ok m

/-- Fuel for `transitive` (the loop at `/repo/cfg-predict-distance/src/lib.rs:177` has none):
each pass but the last lowers an entry; see `Proofs/Distance.lean`. -/
def MinimalDistance.fuel (m : MinimalDistance) : Nat :=
  (m.distances.map List.length).sum * 2 ^ 32 + 1

/-- `MinimalDistance::minimal_distances`. `/repo/cfg-predict-distance/src/lib.rs:111-123`. -/
def MinimalDistance.minimalDistances (m : MinimalDistance) (g : Cfg) (dots : List (Nat × Nat))
    (direction : DistanceDirection) : Res MinimalDistance := do
  let dots := dots.insertionSort fun a b => dotLe a b
  let minLength ← g.minimalSentenceLengths m.minLength
  let m ← { m with minLength := minLength }.immediate g dots direction
  m.transitive g m.fuel

end Verif
