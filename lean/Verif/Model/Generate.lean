import Verif.Model.BitSet
import Mathlib.Order.Defs.LinearOrder
import Mathlib.Data.List.Sort

/-!
# Model of `cfg-generate`

`/repo/cfg-generate/src/weighted/`. Weights and random numbers (`f64`, or another type with the
trait `Weight`) are elements of any type with a linear order, a zero and an addition: no law of
the addition is part of the model, so it may round. NaN and overflow are not modelled. The thread
random source of `with_thread_rng` is one of the sources that `random` is modelled for.
-/

namespace Verif

/-- `slice::binary_search_by` on a key, used at
`/repo/cfg-generate/src/weighted/weighted_rhs_by_lhs.rs:78-84`: the position in `Ok` or `Err`, with
what the standard library promises about it. Among several matches any one may be returned. -/
structure BinarySearch (W : Type) [LinearOrder W] where
  /-- the position in `Ok(idx) | Err(idx)` -/
  idx : List W → W → Nat
  /-- it is at most the length -/
  le : ∀ l v, idx l v ≤ l.length
  /-- `Ok`: a matching element is found, if there is any -/
  found : ∀ (l : List W) v, l.Pairwise (· ≤ ·) → v ∈ l → l[idx l v]? = some v
  /-- `Err`: otherwise, the place to insert the value at -/
  insertion : ∀ (l : List W) v, l.Pairwise (· ≤ ·) → v ∉ l →
    (∀ x ∈ l.take (idx l v), x < v) ∧ ∀ x ∈ l.drop (idx l v), v < x

/-- `WeightedRhs`. `/repo/cfg-generate/src/weighted/weighted_rhs_by_lhs.rs:22-26`. -/
structure WeightedRhs (W : Type) where
  weight : W
  rhs : List Sym
  deriving DecidableEq

/-- `WeightedRhsList`. `/repo/cfg-generate/src/weighted/weighted_rhs_by_lhs.rs:16-20`. -/
structure WeightedRhsList (W : Type) where
  totalWeight : W
  rhsList : List (WeightedRhs W)
  deriving DecidableEq

/-- `WeightedRhsByLhs`, with the `BTreeMap` as a function.
`/repo/cfg-generate/src/weighted/weighted_rhs_by_lhs.rs:11-14`. -/
abbrev WeightedRhsByLhs (W : Type) := Sym → Option (WeightedRhsList W)

/-- `WeightedRhsByLhs::add_weight`.
`/repo/cfg-generate/src/weighted/weighted_rhs_by_lhs.rs:35-42`. -/
def WeightedRhsByLhs.addWeight {W : Type} [Zero W] [Add W] (m : WeightedRhsByLhs W) (weight : W)
    (lhs : Sym) (rhs : List Sym) : WeightedRhsByLhs W :=
  let list := (m lhs).getD ⟨0, []⟩
  fun s => if s = lhs then
    some ⟨list.totalWeight + weight, list.rhsList ++ [⟨list.totalWeight, rhs⟩]⟩ else m s

/-- `Weighted::weighted`; `ofMillis` is `|weight| weight as f64 / 1000f64`.
`/repo/cfg-generate/src/weighted/weighted_rhs_by_lhs.rs:56-63`. -/
def Cfg.weighted {W : Type} [Zero W] [Add W] (g : Cfg) (ofMillis : Nat → W) :
    WeightedRhsByLhs W :=
  g.rules.foldl (fun m rule =>
    m.addWeight (ofMillis (rule.history.weight.getD 1000)) rule.lhs rule.rhs) fun _ => none

/-- `GenRange`: a random source. `/repo/cfg-generate/src/weighted/random.rs:80-88`. -/
structure GenRange (R W : Type) where
  generate : R → W → Res (W × R)
  mutateStart : R → Nat → R

section

variable {R W : Type} [Zero W] [Add W] [LinearOrder W]

/-- Choice from a list, with the random source.
`/repo/cfg-generate/src/weighted/weighted_rhs_by_lhs.rs:74-86`. -/
def WeightedRhsList.pick (search : BinarySearch W) (src : GenRange R W) (list : WeightedRhsList W)
    (rng : R) : Res (List Sym × R) := do
  if list.rhsList.length = 1 then
    let rhs ← Res.index list.rhsList 0
    .ok (rhs.rhs, rng)
  else
    let (value, rng) ← src.generate rng list.totalWeight
    let idx := search.idx (list.rhsList.map WeightedRhs.weight) value
    let rhs ← Res.index list.rhsList (idx - 1)
    .ok (rhs.rhs, rng)

/-- `WeightedRhsByLhs::pick_rhs`.
`/repo/cfg-generate/src/weighted/weighted_rhs_by_lhs.rs:69-90`. -/
def WeightedRhsByLhs.pickRhs (search : BinarySearch W) (src : GenRange R W)
    (m : WeightedRhsByLhs W) (lhs : Sym) (rng : R) : Res (List Sym × R) :=
  match m lhs with
  | some list => list.pick search src rng
  | none => .ok ([], rng)

end

/-- `RandomGenError`. `/repo/cfg-generate/src/weighted/random.rs:16-25`. -/
inductive RandomGenError where
  | limitExceeded
  | negativeRuleAttemptsExceeded
  deriving DecidableEq, Repr

/-- `Limits`. `/repo/cfg-generate/src/weighted/random.rs:28-34`. -/
structure Limits where
  terminals : Nat
  negativeRuleAttempts : Nat

/-- `NegativeRule`. `/repo/cfg-generate/src/weighted/random.rs:138-145`. -/
structure NegativeRule where
  sym : Sym
  chars : List Char

/-- The `BTreeMap` of negative rules: the last one for a symbol counts.
`/repo/cfg-generate/src/weighted/random.rs:170-173`. -/
def negativeMap (rules : List NegativeRule) (sym : Sym) : Option (List Char) :=
  (rules.reverse.find? fun n => n.sym = sym).map NegativeRule.chars

/-- `BacktrackState`. `/repo/cfg-generate/src/weighted/random.rs:147-152`. -/
structure BacktrackState (R : Type) where
  forbidden : List Char
  rng : R
  resultLen : Nat
  prevWork : List Sym

/-- The variables of `random`. `/repo/cfg-generate/src/weighted/random.rs:164-175`. An entry of
`backtracking` that is not there is an empty one. -/
structure GenState (R : Type) where
  work : List Sym
  result : List Sym
  string : List Char
  rng : R
  backtracking : Nat → List (BacktrackState R)
  attempts : Nat → Option Nat

section

variable {R W : Type} [Zero W] [Add W] [LinearOrder W]

/-- The `for` loop over the backtracking states of a position.
`/repo/cfg-generate/src/weighted/random.rs:190-205`. -/
def GenState.backtrack (src : GenRange R W) : List (BacktrackState R) → GenState R →
    Res (Except RandomGenError (GenState R))
  | [], st => .ok (.ok st)
  | state :: rest, st =>
    if state.forbidden <:+ st.string then
      let string := st.string.take (st.string.length - state.forbidden.length)
      match st.attempts string.length with
      | none => .panic
      | some attempts =>
        let st : GenState R :=
          { rng := src.mutateStart state.rng attempts, string := string
            result := st.result.take state.resultLen, work := state.prevWork
            backtracking := st.backtracking
            attempts := fun p => if p = string.length then some (attempts + 1) else st.attempts p }
        if attempts + 1 > 256 * 64 then .ok (.error .negativeRuleAttemptsExceeded)
        else GenState.backtrack src rest st
    else GenState.backtrack src rest st

/-- Output of a terminal. `/repo/cfg-generate/src/weighted/random.rs:178-207`. -/
def GenState.terminal (src : GenRange R W) (limit : Option Limits)
    (toChar : Sym → R → Option Char × R) (sym : Sym) (st : GenState R) :
    Res (Except RandomGenError (GenState R)) :=
  let st : GenState R :=
    { st with
      result := st.result ++ [sym]
      string := st.string ++ (toChar sym st.rng).1.toList
      rng := (toChar sym st.rng).2 }
  if limit.any fun l => st.result.length > l.terminals then .ok (.error .limitExceeded)
  else GenState.backtrack src (st.backtracking st.string.length) st

/-- A negative symbol: remember the state. `/repo/cfg-generate/src/weighted/random.rs:208-219`. -/
def GenState.negative (forbidden : List Char) (st : GenState R) : GenState R :=
  { st with
    backtracking := fun p =>
      if p = st.string.length + forbidden.length then
        st.backtracking p ++ [⟨forbidden, st.rng, st.result.length, st.work⟩]
      else st.backtracking p
    attempts := fun p =>
      if p = st.string.length then some ((st.attempts p).getD 0) else st.attempts p }

/-- Body of the `while` loop, for the symbol taken off `work`.
`/repo/cfg-generate/src/weighted/random.rs:178-226`. -/
def GenState.step (search : BinarySearch W) (src : GenRange R W) (limit : Option Limits)
    (negative : List NegativeRule) (toChar : Sym → R → Option Char × R) (terminalSet : BitSet)
    (weighted : WeightedRhsByLhs W) (sym : Sym) (st : GenState R) :
    Res (Except RandomGenError (GenState R)) := do
  if ← terminalSet.get sym then
    st.terminal src limit toChar sym
  else match negativeMap negative sym with
    | some forbidden => .ok (.ok (st.negative forbidden))
    | none => do
      let (rhs, rng) ← weighted.pickRhs search src sym st.rng
      .ok (.ok { st with work := rhs ++ st.work, rng := rng })

/-- The `while` loop, one unit of fuel per turn. `/repo/cfg-generate/src/weighted/random.rs:176-228`. -/
def GenState.run (search : BinarySearch W) (src : GenRange R W) (limit : Option Limits)
    (negative : List NegativeRule) (toChar : Sym → R → Option Char × R) (terminalSet : BitSet)
    (weighted : WeightedRhsByLhs W) : Nat → GenState R →
    Res (Except RandomGenError (List Sym × List Char))
  | 0, _ => .diverge
  | fuel + 1, st =>
    match st.work with
    | [] => .ok (.ok (st.result, st.string))
    | sym :: work => do
      match ← { st with work := work }.step search src limit negative toChar terminalSet weighted
          sym with
      | .error e => .ok (.error e)
      | .ok st => GenState.run search src limit negative toChar terminalSet weighted fuel st

/-- `Random::random`. `/repo/cfg-generate/src/weighted/random.rs:155-230`. The code has no `fuel`:
it returns what this returns for some number of turns, or runs for ever. -/
def Cfg.random (search : BinarySearch W) (ofMillis : Nat → W) (src : GenRange R W) (g : Cfg)
    (start : Sym) (limit : Option Limits) (rng : R) (negative : List NegativeRule)
    (toChar : Sym → R → Option Char × R) (fuel : Nat) :
    Res (Except RandomGenError (List Sym × List Char)) := do
  let terminalSet ← g.terminalSymbols
  GenState.run search src limit negative toChar terminalSet (g.weighted ofMillis) fuel
    { work := [start], result := [], string := [], rng := rng
      backtracking := fun _ => [], attempts := fun _ => none }

end

/-- `ByteSource`: the bytes of the iterator to come, and the stack of bytes to take first (head =
top). `/repo/cfg-generate/src/weighted/random.rs:74-76`. -/
structure ByteSource where
  bytes : List UInt8
  ahead : List UInt8
  deriving DecidableEq

/-- `self.0.next().unwrap_or(0)`. `/repo/cfg-generate/src/weighted/random.rs:112,128`. -/
def ByteSource.next (s : ByteSource) : UInt8 × ByteSource :=
  match s.bytes with
  | [] => (0, s)
  | b :: bytes => (b, { s with bytes := bytes })

/-- `mix` of `mutate_start`. `/repo/cfg-generate/src/weighted/random.rs:118-124`. -/
def ByteSource.mix (byte : UInt8) : UInt8 :=
  let byte := byte ^^^ (byte >>> 5)
  let byte := byte * 123
  let byte := byte ^^^ (byte >>> 5)
  let byte := byte * 34
  byte ^^^ (byte >>> 5)

/-- The loop of `mutate_start`: bytes are taken, mixed and collected.
`/repo/cfg-generate/src/weighted/random.rs:126-132`. -/
def ByteSource.mixed (attempt : Nat) : Nat → ByteSource → List UInt8 × ByteSource
  | 0, s => ([], s)
  | n + 1, s =>
    let (byte, s) := s.next
    let (result, s) := ByteSource.mixed attempt n s
    (ByteSource.mix (byte ^^^ UInt8.ofNat attempt) :: result, s)

/-- `GenRange for ByteSource`; `scale byte limit` is `byte as f64 * limit / 255.0`.
`/repo/cfg-generate/src/weighted/random.rs:108-135`. -/
def ByteSource.genRange {W : Type} (scale : Nat → W → W) : GenRange ByteSource W where
  generate s limit :=
    match s.ahead with
    | ahead :: rest => .ok (scale ahead.toNat limit, { s with ahead := rest })
    | [] => .ok (scale s.next.1.toNat limit, s.next.2)
  mutateStart s attempt :=
    let (result, s) := ByteSource.mixed attempt (attempt / 256 + 1) s
    { s with ahead := result ++ s.ahead }

end Verif
