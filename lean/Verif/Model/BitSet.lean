import Verif.Model.Cfg

/-!
# Model of `SymbolBitSet`

`/repo/cfg-grammar/src/symbol_bit_set.rs`. A bit vector (external crate `bit-vec`) is a list
of Booleans; reading or writing outside of it panics.
-/

namespace Verif

/-- `SymbolBitSet`. `/repo/cfg-grammar/src/symbol_bit_set.rs:14-16`. -/
abbrev BitSet := List Bool

namespace BitSet

/-- `Index for SymbolBitSet`. `/repo/cfg-grammar/src/symbol_bit_set.rs:193-203`. -/
def get (b : BitSet) (sym : Sym) : Res Bool := Res.index b sym

/-- `SymbolBitSet::set`. `/repo/cfg-grammar/src/symbol_bit_set.rs:140-142`
(`BitVec::set` panics out of range). -/
def set (b : BitSet) (sym : Sym) (elem : Bool) : Res BitSet :=
  if sym < b.length then .ok (List.set b sym elem) else .panic

/-- `SymbolBitSet::reset`. `/repo/cfg-grammar/src/symbol_bit_set.rs:44-48`. -/
def reset (src : SymbolSource) : BitSet := List.replicate src.numSyms false

/-- `SymbolBitSet::set_all`. `/repo/cfg-grammar/src/symbol_bit_set.rs:54-58`. -/
def setAll (src : SymbolSource) : BitSet := List.replicate src.numSyms true

/-- Set every symbol of a list to `elem`, in order: the inner loops at
`/repo/cfg-grammar/src/symbol_bit_set.rs:63-68,75-80`. -/
def setMany (b : BitSet) (syms : List Sym) (elem : Bool) : Res BitSet :=
  syms.foldlM (fun b sym => set b sym elem) b

/-- `SymbolBitSet::used`. `/repo/cfg-grammar/src/symbol_bit_set.rs:61-69`. -/
def used (g : Cfg) : Res BitSet :=
  g.rules.foldlM (fun b rule => setMany b (rule.lhs :: rule.rhs) true) (reset g.src)

/-- `SymbolBitSet::unused`. `/repo/cfg-grammar/src/symbol_bit_set.rs:73-81`. -/
def unused (g : Cfg) : Res BitSet :=
  g.rules.foldlM (fun b rule => setMany b (rule.lhs :: rule.rhs) false) (setAll g.src)

/-- `SymbolBitSet::negate`. `/repo/cfg-grammar/src/symbol_bit_set.rs:85-87`. -/
def negate (b : BitSet) : BitSet := b.map (! ·)

/-- `SymbolBitSet::terminal`. `/repo/cfg-grammar/src/symbol_bit_set.rs:93-98`. -/
def terminal (g : Cfg) : Res BitSet :=
  g.rules.foldlM (fun b rule => set b rule.lhs false) (setAll g.src)

/-- `SymbolBitSet::nulling`. `/repo/cfg-grammar/src/symbol_bit_set.rs:104-113`. -/
def nulling (b : BitSet) (g : Cfg) : Res BitSet :=
  g.rules.foldlM (fun b rule => if rule.rhs.isEmpty then set b rule.lhs true else .ok b)
    (if b.length = 0 then reset g.src else b)

/-- `SymbolBitSet::productive`. `/repo/cfg-grammar/src/symbol_bit_set.rs:119-126`. -/
def productive (b : BitSet) (g : Cfg) : Res BitSet :=
  g.rules.foldlM (fun b rule => set b rule.lhs true)
    (if b.length = 0 then reset g.src else b)

/-- `SymbolBitSet::subtract_productive`.
`/repo/cfg-grammar/src/symbol_bit_set.rs:130-137`. -/
def subtractProductive (b : BitSet) (g : Cfg) : Res BitSet :=
  g.rules.foldlM (fun b rule => set b rule.lhs false)
    (if b.length = 0 then setAll g.src else b)

/-- `SymbolBitSet::iter`. `/repo/cfg-grammar/src/symbol_bit_set.rs:155-160`. -/
def iter (b : BitSet) : List Sym :=
  b.zipIdx.filterMap fun (isPresent, sym) => if isPresent then some sym else none

/-- `SymbolBitSet::union`. `/repo/cfg-grammar/src/symbol_bit_set.rs:163-165`
(`BitVec::or` panics when the lengths differ). -/
def union (a b : BitSet) : Res BitSet :=
  if a.length = b.length then .ok (List.zipWith (· || ·) a b) else .panic

/-- `SymbolBitSet::all`. `/repo/cfg-grammar/src/symbol_bit_set.rs:174-176`. -/
def all (b : BitSet) : Bool := List.all b fun x => x

/-- `SymbolBitSet::is_empty`. `/repo/cfg-grammar/src/symbol_bit_set.rs:179-181`. -/
def isEmpty (b : BitSet) : Bool := List.any b fun x => x

/-- `SymbolBitSet::reserve`. `/repo/cfg-grammar/src/symbol_bit_set.rs:184-187`. -/
def reserve (b : BitSet) (len : Nat) : BitSet := b ++ List.replicate (len - b.length) false

end BitSet

/-- `Cfg::terminal_symbols`. `/repo/cfg-grammar/src/symbol_bit_set.rs:207-211`. -/
def Cfg.terminalSymbols (g : Cfg) : Res BitSet := BitSet.terminal g

/-- `Cfg::nulling_symbols`. `/repo/cfg-grammar/src/symbol_bit_set.rs:214-219`. -/
def Cfg.nullingSymbols (g : Cfg) : Res BitSet := BitSet.nulling (BitSet.reset g.src) g

/-- `Cfg::unused_symbols`. `/repo/cfg-grammar/src/symbol_bit_set.rs:222-227`. -/
def Cfg.unusedSymbols (g : Cfg) : Res BitSet := BitSet.unused g

end Verif
