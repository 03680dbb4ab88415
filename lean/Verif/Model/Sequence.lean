import Verif.Model.Cfg

/-!
# Model of `cfg-sequence`

`/repo/cfg-sequence/src/lib.rs`, `/repo/cfg-sequence/src/rewrite.rs`,
`/repo/cfg-sequence/src/builder.rs`, `/repo/cfg-sequence/src/ext.rs`.
The repetition counts are `u32`; the arithmetic on them is modelled with its overflow behaviour in
the debug profile (panic) and in the release profile (wrapping).
-/

namespace Verif

/-- `Separator`. `/repo/cfg-sequence/src/lib.rs:38-51`. -/
inductive Separator where
  | trailing (sep : Sym)
  | proper (sep : Sym)
  | liberal (sep : Sym)
  | null
  deriving DecidableEq, Repr

/-- `Separator::prefix_separator`. `/repo/cfg-sequence/src/lib.rs:81-89`. -/
def Separator.prefixSeparator : Separator → Separator
  | .proper sep => .trailing sep
  | .liberal sep => .trailing sep
  | other => other

/-- `From<Separator> for Option<Symbol>`. `/repo/cfg-sequence/src/lib.rs:91-98`. -/
def Separator.toOption : Separator → Option Sym
  | .trailing sep => some sep
  | _ => none

/-- `Sequence`. `/repo/cfg-sequence/src/lib.rs:20-36`; `end` is a reserved word of Lean. -/
structure Sequence where
  lhs : Sym
  rhs : Sym
  start : Nat
  stop : Option Nat
  separator : Separator
  history : Option History := none
  deriving DecidableEq, Repr

/-- `Sequence::inclusive`. `/repo/cfg-sequence/src/lib.rs:54-59`. -/
def Sequence.inclusive (s : Sequence) (start : Nat) (stop : Option Nat) : Sequence :=
  { s with start := start, stop := stop }

/-- `Sequence::separator`. `/repo/cfg-sequence/src/lib.rs:61-65`. -/
def Sequence.withSeparator (s : Sequence) (sep : Separator) : Sequence :=
  { s with separator := sep }

/-- `std::ops::Bound`, used at `/repo/cfg-sequence/src/lib.rs:69-73`. -/
inductive RangeBound where
  | included (n : Nat)
  | excluded (n : Nat)
  | unbounded
  deriving DecidableEq, Repr

/-- The closure `to_option` of `range`: `(excluded as i64 + diff) as u32` with `diff` 1 or -1.
`/repo/cfg-sequence/src/lib.rs:69-73`, `/repo/cfg-sequence/src/builder.rs:73-77`. -/
def RangeBound.toOption (b : RangeBound) (diff : Int) : Option Nat :=
  match b with
  | .included n => some n
  | .excluded n => some (((n : Int) + diff) % 2 ^ 32).toNat
  | .unbounded => none

/-- `range`: the two bounds converted. `/repo/cfg-sequence/src/lib.rs:67-78`,
`/repo/cfg-sequence/src/builder.rs:71-82`. -/
def rangeBounds (lo hi : RangeBound) : Nat × Option Nat :=
  ((lo.toOption 1).getD 0, hi.toOption (-1))

/-- `Sequence::range`. `/repo/cfg-sequence/src/lib.rs:67-78`. -/
def Sequence.range (s : Sequence) (lo hi : RangeBound) : Sequence :=
  s.inclusive (rangeBounds lo hi).1 (rangeBounds lo hi).2

/-- `sequence.range(a..=b)`, as used at `/repo/cfg-sequence/src/rewrite.rs:176-177,186-188,209-210,215`. -/
def Sequence.closed (s : Sequence) (a b : Nat) : Sequence := s.range (.included a) (.included b)

/-- `u32::next_power_of_two`, used at `/repo/cfg-sequence/src/rewrite.rs:184,207`: the least power
of two that is not below `n`; beyond `2 ^ 31` it overflows, which panics in debug and gives 0 in
release. -/
def nextPowerOfTwo (p : Profile) (n : Nat) : Res Nat :=
  if n ≤ 1 then .ok 1
  else if n ≤ 2 ^ 31 then .ok (2 ^ (Nat.log2 (n - 1) + 1))
  else match p with
    | .debug => .panic
    | .release => .ok 0

/-- Subtraction of `u32` values, e.g. `/repo/cfg-sequence/src/rewrite.rs:188,210,215,216`. -/
def subU32 (p : Profile) (a b : Nat) : Res Nat :=
  if b ≤ a then .ok (a - b)
  else match p with
    | .debug => .panic
    | .release => .ok (2 ^ 32 + a - b)

/-- Addition of `u32` values, `/repo/cfg-sequence/src/rewrite.rs:216`. -/
def addU32 (p : Profile) (a b : Nat) : Res Nat :=
  if a + b < 2 ^ 32 then .ok (a + b)
  else match p with
    | .debug => .panic
    | .release => .ok ((a + b) % 2 ^ 32)

/-- `PartialSequence`, the key of the private map. `/repo/cfg-sequence/src/rewrite.rs:28-34`. -/
structure PartialSequence where
  rhs : Sym
  start : Nat
  stop : Option Nat
  separator : Separator
  deriving DecidableEq, Repr

/-- `From<Sequence> for PartialSequence`. `/repo/cfg-sequence/src/rewrite.rs:42-51`. -/
def Sequence.key (s : Sequence) : PartialSequence := ⟨s.rhs, s.start, s.stop, s.separator⟩

/-- `SequencesToProductions`. `/repo/cfg-sequence/src/rewrite.rs:19-25`. The top of the stack is
the head of the list; the hash map is an association list. The options `top` and `lhs` are set
before they are read, so they are plain values. -/
structure SeqState where
  g : Cfg
  stack : List Sequence := []
  map : List (PartialSequence × Sym) := []
  top : History := {}
  lhs : Sym := 0
  deriving DecidableEq, Repr

/-- `recurse`. `/repo/cfg-sequence/src/rewrite.rs:94-108`. -/
def SeqState.recurse (st : SeqState) (seq : Sequence) : Sym × SeqState :=
  match st.map.lookup seq.key with
  | some lhs => (lhs, st)
  | none =>
    let (lhs, g) := st.g.nextSym none
    (lhs, { st with g := g, map := (seq.key, lhs) :: st.map,
                    stack := { seq with lhs := lhs } :: st.stack })

/-- `rhs`. `/repo/cfg-sequence/src/rewrite.rs:110-124`. -/
def SeqState.rhs (st : SeqState) (rhs : List Sym) : Res SeqState :=
  if 3 < rhs.length then .panic
  else do
    let history ← processLinked (.sequenceRhs [rhs[0]?, rhs[1]?, rhs[2]?]) st.top
    let (g, _) ← st.g.addRule ⟨st.lhs, rhs, history⟩
    .ok { st with g := g }

/-- The arms of `reduce` for `Proper` and `Null` separators and a positive start.
`/repo/cfg-sequence/src/rewrite.rs:160-225`. -/
def SeqState.reducePositive (p : Profile) (st : SeqState) (seq : Sequence) : Res SeqState :=
  let { lhs, rhs, start, stop, separator, .. } := seq
  if start = 1 then
    match stop with
    | none => do
      let st ← st.rhs [rhs]
      match separator with
      | .proper sep => st.rhs [lhs, sep, rhs]
      | _ => st.rhs [lhs, rhs]
    | some e =>
      if e = 1 then st.rhs [rhs]
      else if e = 2 then
        let (sym1, st) := st.recurse (seq.closed 1 1)
        let (sym2, st) := st.recurse (seq.closed 2 2)
        do
          let st ← st.rhs [sym1]
          st.rhs [sym2]
      else do
        let pow2 := (← nextPowerOfTwo p e) / 2
        let rest ← subU32 p e pow2
        let (rhs1, st) := st.recurse (seq.closed 1 pow2)
        let (block, st) :=
          st.recurse ((seq.closed pow2 pow2).withSeparator separator.prefixSeparator)
        let (rhs2, st) := st.recurse (seq.closed 1 rest)
        let st ← st.rhs [rhs1]
        st.rhs [block, rhs2]
  else if start = 2 ∧ stop = some 2 then
    match separator with
    | .proper sep => st.rhs [rhs, sep, rhs]
    | _ => st.rhs [rhs, rhs]
  else do
    let (seq1, seq2) ←
      if some start = stop then do
        let pow2 := (← nextPowerOfTwo p start) / 2
        let rest ← subU32 p start pow2
        .ok (seq.closed pow2 pow2, seq.closed rest rest)
      else do
        let before ← subU32 p start 1
        let stop ← match stop with
          | none => .ok none
          | some e => do
            let d ← subU32 p e start
            let d ← addU32 p d 1
            .ok (some d)
        .ok (seq.closed before before, seq.inclusive 1 stop)
    let (rhs1, st) := st.recurse (seq1.withSeparator separator.prefixSeparator)
    let (rhs2, st) := st.recurse (seq2.withSeparator separator)
    st.rhs [rhs1, rhs2]

/-- `reduce`. `/repo/cfg-sequence/src/rewrite.rs:126-227`. -/
def SeqState.reduce (p : Profile) (st : SeqState) (seq : Sequence) : Res SeqState :=
  let st := { st with lhs := seq.lhs }
  match seq.separator with
  | .liberal sep =>
    let (sym1, st) := st.recurse (seq.withSeparator (.proper sep))
    let (sym2, st) := st.recurse (seq.withSeparator (.trailing sep))
    do
      let st ← st.rhs [sym1]
      st.rhs [sym2]
  | separator =>
    if seq.start = 0 then
      if seq.stop = some 0 then st.rhs []
      else do
        let st ← st.rhs []
        let (sym, st) := st.recurse (seq.inclusive 1 seq.stop)
        st.rhs [sym]
    else
      match separator with
      | .trailing sep =>
        let (sym, st) := st.recurse (seq.withSeparator (.proper sep))
        st.rhs [sym, sep]
      | _ => st.reducePositive p seq

/-- The loop of `rewrite`. `/repo/cfg-sequence/src/rewrite.rs:88-91`. One unit of fuel per
iteration; running out of fuel is `diverge`. -/
def SeqState.loop (p : Profile) : Nat → SeqState → Res SeqState
  | fuel, st =>
    match st.stack with
    | [] => .ok st
    | seq :: stack =>
      match fuel with
      | 0 => .diverge
      | fuel + 1 =>
        if seq.start ≤ seq.stop.getD u32Max then do
          let st ← SeqState.reduce p { st with stack := stack } seq
          SeqState.loop p fuel st
        else .panic

/-- Fuel for the loop of `rewrite` (`/repo/cfg-sequence/src/rewrite.rs:88-91`);
`Props/Sequence.lean` shows that it is never used up. -/
def seqFuel : Nat := 1000

/-- `rewrite`, starting with `SequencesToProductions::new(destination)`; the maps and the stack of
an earlier rewrite are cleared. `/repo/cfg-sequence/src/rewrite.rs:55-92`. -/
def Cfg.rewriteSequence (p : Profile) (g : Cfg) (top : Sequence) : Res Cfg := do
  let prev := top.history.getD (History.ofRoot (.rule top.lhs))
  let historyTop ← processLinked (.rewriteSequence true top.rhs top.separator.toOption) prev
  let st ← SeqState.reduce p { g := g, top := historyTop } top
  let prev := top.history.getD (History.ofRoot .noOp)
  let historyBottom ← processLinked (.rewriteSequence false top.rhs top.separator.toOption) prev
  let st ← SeqState.loop p seqFuel { st with top := historyBottom }
  .ok st.g

/-! ## Builder -/

/-- `SequenceRuleBuilder` without its destination. `/repo/cfg-sequence/src/builder.rs:11-17`. -/
structure SeqBuilder where
  lhs : Option Sym := none
  range : Option (Nat × Option Nat) := none
  separator : Separator := .null
  history : Option History := none
  deriving DecidableEq, Repr

/-- A call on the builder. `/repo/cfg-sequence/src/builder.rs:34-102`; `intersperse` is
`separator` with `Proper`, and `rhs_with_range` is `range` followed by `rhs`. -/
inductive SeqCall where
  | sequence (lhs : Sym)
  | separator (sep : Separator)
  | history (h : History)
  | inclusive (start : Nat) (stop : Option Nat)
  | range (lo hi : RangeBound)
  | rhs (sym : Sym)
  | rhsWithHistory (sym : Sym) (h : Option History)
  deriving DecidableEq, Repr

/-- `rhs_with_history` with the destination a vector of sequences.
`/repo/cfg-sequence/src/builder.rs:89-101`, `/repo/cfg-sequence/src/destination.rs:18-21`. -/
def SeqBuilder.rhsWithHistory (b : SeqBuilder) (dest : List Sequence) (rhs : Sym)
    (h : Option History) : Res (SeqBuilder × List Sequence) := do
  let (start, stop) ← Res.ofOption b.range
  let lhs ← Res.ofOption b.lhs
  .ok ({ b with range := none }, dest ++ [⟨lhs, rhs, start, stop, b.separator, h⟩])

/-- One call: `sequence` 35-39, `separator` 42-45, `history` 54-57, `inclusive` 60-63, `range`
72-82, `rhs` 66-69 of `/repo/cfg-sequence/src/builder.rs`. -/
def SeqBuilder.call (b : SeqBuilder) (dest : List Sequence) :
    SeqCall → Res (SeqBuilder × List Sequence)
  | .sequence lhs => .ok ({ b with lhs := some lhs, separator := .null }, dest)
  | .separator sep => .ok ({ b with separator := sep }, dest)
  | .history h => .ok ({ b with history := some h }, dest)
  | .inclusive start stop => .ok ({ b with range := some (start, stop) }, dest)
  | .range lo hi => .ok ({ b with range := some (rangeBounds lo hi) }, dest)
  | .rhs sym => SeqBuilder.rhsWithHistory { b with history := none } dest sym b.history
  | .rhsWithHistory sym h => b.rhsWithHistory dest sym h

/-- A program of builder calls. `/repo/cfg-sequence/src/builder.rs:24-32`. -/
def SeqBuilder.run : SeqBuilder → List Sequence → List SeqCall → Res (SeqBuilder × List Sequence)
  | b, dest, [] => .ok (b, dest)
  | b, dest, c :: cs => do
    let (b, dest) ← b.call dest c
    SeqBuilder.run b dest cs

end Verif
