import Verif.Model.BitSet

/-!
# Model of `cfg-symbol-bit-matrix`: relations between symbols

`/repo/cfg-symbol-bit-matrix/src/symbol_bit_matrix.rs`. The bit matrix itself is the external
crate `bit-matrix`: a matrix is a list of rows, reading or writing outside of it panics,
`transitive_closure` is Warshall's algorithm, `reflexive_closure` sets the diagonal.
-/

namespace Verif

/-- `SymbolBitMatrix`. `/repo/cfg-symbol-bit-matrix/src/symbol_bit_matrix.rs:9-19`. The wrapper
types for the three kinds of matrices are left out. -/
abbrev BitMatrix := List (List Bool)

namespace BitMatrix

/-- `SymbolBitMatrix::new`. `/repo/cfg-symbol-bit-matrix/src/symbol_bit_matrix.rs:22-26`. -/
def new (n : Nat) : BitMatrix := List.replicate n (List.replicate n false)

/-- `Index for SymbolBitMatrix`.
`/repo/cfg-symbol-bit-matrix/src/symbol_bit_matrix.rs:113-122`. -/
def get (m : BitMatrix) (row col : Sym) : Res Bool := do Res.index (← Res.index m row) col

/-- `SymbolBitMatrix::set` with `true`.
`/repo/cfg-symbol-bit-matrix/src/symbol_bit_matrix.rs:28-30`. -/
def set (m : BitMatrix) (row col : Sym) : Res BitMatrix := do
  let r ← Res.index m row
  if col < r.length then .ok (List.set m row (List.set r col true)) else .panic

/-- One round of Warshall's algorithm: every row that contains `k` gets the members of row `k`.
External crate `bit-matrix`, `BitMatrix::transitive_closure`, called at
`/repo/cfg-symbol-bit-matrix/src/symbol_bit_matrix.rs:155,210`. -/
def warshallStep (m : BitMatrix) (k : Nat) : BitMatrix :=
  match m[k]? with
  | none => m
  | some rowK => m.map fun row => if row[k]? = some true then List.zipWith (· || ·) row rowK else row

/-- `BitMatrix::transitive_closure` of the external crate `bit-matrix`, called at
`/repo/cfg-symbol-bit-matrix/src/symbol_bit_matrix.rs:155,210`. -/
def transitiveClosure (m : BitMatrix) : BitMatrix := (List.range m.length).foldl warshallStep m

/-- `BitMatrix::reflexive_closure` of the external crate `bit-matrix`, called at
`/repo/cfg-symbol-bit-matrix/src/symbol_bit_matrix.rs:147`. -/
def reflexiveClosure (m : BitMatrix) : BitMatrix := m.mapIdx fun i row => List.set row i true

/-- `iter_row_syms`. `/repo/cfg-symbol-bit-matrix/src/symbol_bit_matrix.rs:33-38`. -/
def iterRowSyms (m : BitMatrix) (row : Sym) : Res (List Sym) := do
  .ok (BitSet.iter (← Res.index m row))

end BitMatrix

namespace Cfg

/-- `empty_matrix`. `/repo/cfg-symbol-bit-matrix/src/symbol_bit_matrix.rs:179-181`. -/
def emptyMatrix (g : Cfg) : BitMatrix := BitMatrix.new g.numSyms

/-- `direct_derivation_matrix`.
`/repo/cfg-symbol-bit-matrix/src/symbol_bit_matrix.rs:183-193`. -/
def directDerivationMatrix (g : Cfg) : Res BitMatrix :=
  g.rules.foldlM (fun m rule => rule.rhs.foldlM (fun m sym => m.set rule.lhs sym) m) g.emptyMatrix

/-- `reachability_matrix`.
`/repo/cfg-symbol-bit-matrix/src/symbol_bit_matrix.rs:153-158,195-197`. -/
def reachabilityMatrix (g : Cfg) : Res BitMatrix := do
  .ok (← g.directDerivationMatrix).transitiveClosure

/-- Body of the loop of `unit_derivation_matrix`.
`/repo/cfg-symbol-bit-matrix/src/symbol_bit_matrix.rs:202-209`. -/
def unitBody (m : BitMatrix) (rule : CfgRule) : Res BitMatrix :=
  match rule.rhs with
  | [sym] => if rule.lhs ≠ sym then m.set rule.lhs sym else .ok m
  | _ => .ok m

/-- `unit_derivation_matrix`.
`/repo/cfg-symbol-bit-matrix/src/symbol_bit_matrix.rs:199-213`. -/
def unitDerivationMatrix (g : Cfg) : Res BitMatrix := do
  .ok (← g.rules.foldlM unitBody g.emptyMatrix).transitiveClosure

end Cfg

end Verif
