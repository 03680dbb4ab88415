import Verif.Model.Sequence

/-! # Specification: repetitions with separators -/

namespace Verif

/-- `β` consists of `n` repetitions of `x` with the promised separation. -/
def Repeats (x : Sym) (n : Nat) : Separator → List Sym → Prop
  | .null, β => β = List.replicate n x
  | .proper s, β => β = (List.replicate n x).intersperse s
  | .trailing s, β => β = (List.replicate n [x, s]).flatten
  | .liberal s, β =>
    β = (List.replicate n x).intersperse s ∨ β = (List.replicate n [x, s]).flatten

/-- The productions promised by a sequence rule: one for every number of repetitions between
`start` and `stop`. -/
def SeqProd (seq : Sequence) : Productions := fun A β =>
  A = seq.lhs ∧ ∃ n, seq.start ≤ n ∧ (∀ e, seq.stop = some e → n ≤ e) ∧
    Repeats seq.rhs n seq.separator β

/-- The bounds are `u32` values. -/
def Sequence.InU32 (seq : Sequence) : Prop :=
  seq.start < 2 ^ 32 ∧ ∀ e, seq.stop = some e → e < 2 ^ 32

/-- The symbol in a separator. -/
def Separator.sym? : Separator → Option Sym
  | .null => none
  | .proper s => some s
  | .trailing s => some s
  | .liberal s => some s

/-- The range is not inverted. -/
def Sequence.NonEmpty (seq : Sequence) : Prop := ∀ e, seq.stop = some e → seq.start ≤ e

/-- The non-empty ranges that the rewriting can handle: every number of repetitions that it
rounds up to a power of two is at most `2 ^ 31`. Ranges from at least 2 that are not a single number
are split into `start - 1` repetitions and `1 ..= end - start + 1` repetitions. -/
def Sequence.Fits (seq : Sequence) : Prop :=
  match seq.stop with
  | some e => seq.start ≤ e ∧
    (seq.start ≤ 1 ∨ seq.start = e → e ≤ 2 ^ 31) ∧
    (2 ≤ seq.start ∧ seq.start < e → seq.start ≤ 2 ^ 31 + 1 ∧ e - seq.start + 1 ≤ 2 ^ 31)
  | none => seq.start ≤ 2 ^ 31 + 1

/-- The number `n` satisfies the lower and upper bound of a Rust range. -/
def InRange (lo hi : RangeBound) (n : Nat) : Prop :=
  (match lo with
    | .included a => a ≤ n
    | .excluded a => a < n
    | .unbounded => True) ∧
  (match hi with
    | .included b => n ≤ b
    | .excluded b => n < b
    | .unbounded => True)

/-- The number in a bound. -/
def RangeBound.Within (b : RangeBound) : Prop :=
  match b with
  | .included n => n < 2 ^ 32
  | .excluded n => n < 2 ^ 32
  | .unbounded => True

/-! ## Builder -/

/-- The left side of the last `sequence` call; the most recent call is first. -/
def lastLhs : List SeqCall → Option Sym
  | [] => none
  | .sequence lhs :: _ => some lhs
  | _ :: calls => lastLhs calls

/-- The separator given since the last `sequence` call. -/
def lastSeparator : List SeqCall → Separator
  | [] => .null
  | .sequence _ :: _ => .null
  | .separator sep :: _ => sep
  | _ :: calls => lastSeparator calls

/-- The range given since the last rule was added. -/
def lastRange : List SeqCall → Option (Nat × Option Nat)
  | [] => none
  | .inclusive start stop :: _ => some (start, stop)
  | .range lo hi :: _ => some (rangeBounds lo hi)
  | .rhs _ :: _ => none
  | .rhsWithHistory _ _ :: _ => none
  | _ :: calls => lastRange calls

/-- The history given since the last `rhs` call. -/
def lastHistory : List SeqCall → Option History
  | [] => none
  | .history h :: _ => some h
  | .rhs _ :: _ => none
  | _ :: calls => lastHistory calls

/-- The sequence rule added by a call, if the call adds one and the builder is ready. -/
def addedBy (before : List SeqCall) : SeqCall → Option Sequence
  | .rhs sym => do
    let (start, stop) ← lastRange before
    let lhs ← lastLhs before
    some ⟨lhs, sym, start, stop, lastSeparator before, lastHistory before⟩
  | .rhsWithHistory sym h => do
    let (start, stop) ← lastRange before
    let lhs ← lastLhs before
    some ⟨lhs, sym, start, stop, lastSeparator before, h⟩
  | _ => none

end Verif
