import Verif.Model.Res
import Verif.Spec.Language

/-!
# Model of `cfg-symbol`

`/repo/cfg-symbol/src/symbol.rs`, `/repo/cfg-symbol/src/source.rs`,
`/repo/cfg-symbol/src/intern.rs`.

Two versions of the source are given. `BSource` keeps the numeric bound of the symbol type
and the build profile. `SymbolSource` is the version without bound that the grammar model
uses; `BSource` agrees with it below capacity (`Props/Symbols.lean`).
-/

namespace Verif

/-- Width of a symbol: `SymbolPrimitive::MAX`.
`/repo/cfg-symbol/src/symbol.rs:17-40`. -/
inductive Width where
  | u8 | u16 | u32
  deriving DecidableEq, Repr

/-- `SymbolPrimitive::MAX`, the highest numeric value.
`/repo/cfg-symbol/src/symbol.rs:24,29,34,39`. -/
def Width.max : Width → Nat
  | .u8 => 2 ^ 8 - 1
  | .u16 => 2 ^ 16 - 1
  | .u32 => 2 ^ 32 - 1

/-- Build profile: `debug_assert!` and overflow checks are active only in `debug`,
e.g. `/repo/cfg-symbol/src/source.rs:88`. -/
inductive Profile where
  | debug | release
  deriving DecidableEq, Repr

/-- The inner number of a `Symbol` (`NonZeroU8/16/32`), always at least 1.
`/repo/cfg-symbol/src/symbol.rs:46-48`. -/
notation "RawSym" => Nat

/-- `Symbol::first`. `/repo/cfg-symbol/src/symbol.rs:58-66`. -/
def firstRaw : RawSym := 1

/-- `Symbol::usize`: the raw number minus one.
`/repo/cfg-symbol/src/symbol.rs:73-78`; the assertion for 16-bit platforms is left out. -/
def rawUsize (n : RawSym) : Sym := n - 1

/-- `advance`: `NonZeroU32::saturating_add(1)`, conversion to the width (panics if it does
not fit), then the debug assertion that the maximum was not reached.
`/repo/cfg-symbol/src/source.rs:81-90`. -/
def advance (w : Width) (p : Profile) (n : RawSym) : Res RawSym :=
  let x := min (n + 1) (2 ^ 32 - 1)
  if w.max < x then .panic
  else if p = .debug ∧ x = w.max then .panic
  else .ok x

/-- `SymbolSource<T>` with its numeric bound. `/repo/cfg-symbol/src/source.rs:68-71`. -/
structure BSource where
  next : RawSym
  names : List (Option String)
  deriving DecidableEq, Repr

/-- `SymbolSource::new`. `/repo/cfg-symbol/src/source.rs:94-99`. -/
def BSource.new : BSource := ⟨firstRaw, []⟩

/-- `SymbolSource::next_sym`. `/repo/cfg-symbol/src/source.rs:122-127`. -/
def BSource.nextSym (w : Width) (p : Profile) (s : BSource) (name : Option String) :
    Res (RawSym × BSource) := do
  let next ← advance w p s.next
  .ok (s.next, ⟨next, s.names ++ [name]⟩)

/-- `SymbolSource::with_names`, and `SymbolSource::sym` with all names `None`.
`/repo/cfg-symbol/src/source.rs:101-120`. The array length is the list length. -/
def BSource.withNames (w : Width) (p : Profile) (s : BSource) :
    List (Option String) → Res (List RawSym × BSource)
  | [] => .ok ([], s)
  | name :: rest => do
    let (a, s) ← s.nextSym w p name
    let (as, s) ← s.withNames w p rest
    .ok (a :: as, s)

/-- `SymbolSource::num_syms`. `/repo/cfg-symbol/src/source.rs:151-153`. -/
def BSource.numSyms (s : BSource) : Nat := rawUsize s.next

/-- `SymbolSource::truncate`. `/repo/cfg-symbol/src/source.rs:200-214`. The addition
`new_len as u32 + 1` panics in debug when it overflows; in release it wraps to 0 and
`NonZeroU32::new(0).expect` panics, so both profiles panic. -/
def BSource.truncate (w : Width) (s : BSource) (newLen : Nat) : Res BSource :=
  if newLen = 0 then .panic
  else if w.max < newLen then .panic
  else if 2 ^ 32 ≤ newLen + 1 then .panic
  else if w.max < newLen + 1 then .panic
  else .ok ⟨newLen + 1, s.names.take newLen⟩

/-- The symbol source without numeric bound: `num_syms` and the names.
`/repo/cfg-symbol/src/source.rs:68-71`. `numSyms` stands for `next_symbol.usize()`. -/
structure SymbolSource where
  numSyms : Nat
  names : List (Option String)
  deriving DecidableEq, Repr

namespace SymbolSource

/-- `SymbolSource::new`. `/repo/cfg-symbol/src/source.rs:94-99`. -/
def new : SymbolSource := ⟨0, []⟩

/-- `SymbolSource::next_sym`. `/repo/cfg-symbol/src/source.rs:122-127`. -/
def nextSym (s : SymbolSource) (name : Option String) : Sym × SymbolSource :=
  (s.numSyms, ⟨s.numSyms + 1, s.names ++ [name]⟩)

/-- `SymbolSource::with_names` / `sym`. `/repo/cfg-symbol/src/source.rs:101-120`. -/
def withNames (s : SymbolSource) : List (Option String) → List Sym × SymbolSource
  | [] => ([], s)
  | name :: rest =>
    let (a, s) := s.nextSym name
    let (as, s) := s.withNames rest
    (a :: as, s)

/-- `SymbolSource::name_of`. `/repo/cfg-symbol/src/source.rs:134-139`. -/
def nameOf (s : SymbolSource) (sym : Sym) : String :=
  match s.names[sym]? with
  | some (some name) => name
  | _ => "g" ++ toString sym

/-- `SymbolSource::original_name_of`. `/repo/cfg-symbol/src/source.rs:143-148`. -/
def originalNameOf (s : SymbolSource) (sym : Sym) : Option String :=
  match s.names[sym]? with
  | some v => v
  | none => none

/-- `SymbolSource::name_map`: the pairs inserted into the hash map, in insertion order; a
later insertion of the same name replaces the earlier one.
`/repo/cfg-symbol/src/source.rs:228-234`. The hash map is a function. -/
def nameMap (s : SymbolSource) : String → Option Sym :=
  (s.names.zipIdx.filterMap fun (opt, i) => opt.map fun name => (name, i)).foldl
    (fun m (name, i) => fun x => if x = name then some i else m x) (fun _ => none)

/-- Body of the loop in `remap_symbols`: grow the new table to hold `newSym`, then store.
`/repo/cfg-symbol/src/source.rs:186-189`. -/
def placeName (newNames : List (Option String)) (newSym : Sym) (name : Option String) :
    List (Option String) :=
  (newNames ++ List.replicate (newSym + 1 - newNames.length) none).set newSym name

/-- `SymbolSource::remap_symbols`. `/repo/cfg-symbol/src/source.rs:179-192`. -/
def remapSymbols (s : SymbolSource) (map : Sym → Res Sym) : Res SymbolSource := do
  let newNames ← s.names.zipIdx.foldlM
    (fun acc (name, sym) => do .ok (placeName acc (← map sym) name)) []
  .ok ⟨s.numSyms, newNames⟩

/-- `SymbolSource::truncate` (without numeric bound: panics on zero only).
`/repo/cfg-symbol/src/source.rs:200-214`. -/
def truncate (s : SymbolSource) (newLen : Nat) : Res SymbolSource :=
  if newLen = 0 then .panic
  else .ok ⟨newLen, s.names.take newLen⟩

end SymbolSource

/-! ## Serialisation -/

/-- miniserde `Serialize for Symbol`: the number as `u64`.
`/repo/cfg-symbol/src/symbol.rs:120-129` and `81-86`. -/
def miniSer (n : RawSym) : Nat := n - 1

/-- miniserde `Visitor::nonnegative` for `Symbol`. `none` is `Err(Error)`.
`/repo/cfg-symbol/src/symbol.rs:97-112`. `(n + 1) as u32` is taken modulo 2^32,
`NonZeroU32::new` fails on 0 and `try_into` fails above the width's maximum. -/
def miniDe (w : Width) (n : Nat) : Option RawSym :=
  if n < w.max then
    let m := (n + 1) % 2 ^ 32
    if m = 0 then none
    else if w.max < m then none
    else some m
  else none

/-- Little-endian bytes of a `u32` (`u32::ser_bin` of nanoserde, external), called at
`/repo/cfg-symbol/src/symbol.rs:144`. -/
def u32ToBytes (n : Nat) : List Nat :=
  [n % 256, n / 256 % 256, n / 65536 % 256, n / 16777216 % 256]

/-- nanoserde `SerBin for Symbol`. `/repo/cfg-symbol/src/symbol.rs:142-146`. -/
def nanoSer (n : RawSym) (output : List Nat) : List Nat := output ++ u32ToBytes n

/-- Outcome of `DeBin::de_bin`: `some` is `Ok`, `none` is `Err` (too few bytes);
`Res.panic` is the `unwrap` of a zero. `/repo/cfg-symbol/src/symbol.rs:133-139`. -/
def nanoDe (offset : Nat) (bytes : List Nat) : Res (Option (RawSym × Nat)) :=
  match (bytes.drop offset) with
  | b0 :: b1 :: b2 :: b3 :: _ =>
    let n := b0 + 256 * b1 + 65536 * b2 + 16777216 * b3
    if n = 0 then .panic else .ok (some (n, offset + 4))
  | _ => .ok none

/-! ## Mappings -/

/-- `Mapping`. `/repo/cfg-symbol/src/intern.rs:12-17`. -/
structure Mapping where
  toInternal : List (Option Sym)
  toExternal : List Sym
  deriving DecidableEq, Repr

/-- `Mapping::new`. `/repo/cfg-symbol/src/intern.rs:22-27`. -/
def Mapping.new (numExternal : Nat) : Mapping :=
  ⟨List.replicate numExternal none, []⟩

/-- `Mapping::translate`. `/repo/cfg-symbol/src/intern.rs:31-47`.
`self.to_external[middle.usize()]` panics when out of range. -/
def Mapping.translate (self other : Mapping) : Res Mapping := do
  let toInternal := self.toInternal.map fun internal =>
    match internal with
    | some sym => (other.toInternal[sym]?).bind fun x => x
    | none => none
  let remapped ← other.toExternal.mapM fun middle => Res.index self.toExternal middle
  .ok ⟨toInternal, remapped⟩

end Verif
