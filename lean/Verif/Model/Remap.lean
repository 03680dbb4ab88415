import Verif.Model.BitSet

/-!
# Model of symbol renumbering

`/repo/cfg-symbol-bit-matrix/src/remap_symbols.rs`. Log output (`trace!`) is left out.
-/

namespace Verif

/-- `Remap`, with the borrowed grammar as a value.
`/repo/cfg-symbol-bit-matrix/src/remap_symbols.rs:13-16`. -/
structure Remap where
  g : Cfg
  mapping : Mapping
  deriving DecidableEq, Repr

/-- `Remap::new`. `/repo/cfg-symbol-bit-matrix/src/remap_symbols.rs:20-32`. -/
def Remap.new (g : Cfg) : Remap :=
  ⟨g, ⟨(List.range g.numSyms).map some, List.range g.numSyms⟩⟩

/-- The rule with its symbols translated; the closure `map` may panic.
`/repo/cfg-symbol-bit-matrix/src/remap_symbols.rs:87-93`. -/
def CfgRule.remap (rule : CfgRule) (map : Sym → Res Sym) : Res CfgRule := do
  let lhs ← map rule.lhs
  let rhs ← rule.rhs.mapM map
  .ok { rule with lhs := lhs, rhs := rhs }

/-- The closure given to `retain`: the kept rules, and the translated rules in `added_rules`. A rule
is kept if all its symbols stay the same; to test that, all of them are translated, so the test and
the translation panic alike. `/repo/cfg-symbol-bit-matrix/src/remap_symbols.rs:78-95`. -/
def remapRules (map : Sym → Res Sym) : List CfgRule → Res (List CfgRule × List CfgRule)
  | [] => .ok ([], [])
  | rule :: rules => do
    let new ← rule.remap map
    let (kept, added) ← remapRules map rules
    if new.lhs = rule.lhs ∧ new.rhs = rule.rhs then .ok (rule :: kept, added)
    else .ok (kept, new :: added)

/-- Translation of a wrapped root. `/repo/cfg-symbol-bit-matrix/src/remap_symbols.rs:121-136`. -/
def WrappedRoot.remap (w : WrappedRoot) (map : Sym → Res Sym) : Res WrappedRoot := do
  let innerRoot ← map w.innerRoot
  let root ← map w.root
  let startOfInput ← map w.startOfInput
  let endOfInput ← map w.endOfInput
  .ok ⟨startOfInput, innerRoot, endOfInput, root⟩

/-- `Remap::remap_symbols`. `/repo/cfg-symbol-bit-matrix/src/remap_symbols.rs:74-141`. -/
def Remap.remapSymbols (r : Remap) (map : Sym → Res Sym) : Res Remap := do
  let (kept, added) ← remapRules map r.g.rules
  let g ← Cfg.addRules { r.g with rules := kept } added
  let roots ← g.roots.mapM map
  let wrappedRoots ← g.wrappedRoots.mapM fun w => w.remap map
  let src ← g.src.remapSymbols map
  .ok { r with g := { g with src := src, roots := roots, wrappedRoots := wrappedRoots } }

/-- The loop that fills `to_internal`. `/repo/cfg-symbol-bit-matrix/src/remap_symbols.rs:59-66`. -/
def fillInternal : List (Sym × Nat) → List (Option Sym) → Res (List (Option Sym))
  | [], toInternal => .ok toInternal
  | (before, after) :: rest, toInternal =>
    if before < toInternal.length then fillInternal rest (toInternal.set before (some after))
    else .panic

/-- `Remap::reorder_symbols`. `sort_by` is a stable sort; for a comparison that is no total order
it may panic or leave any order, which is not modelled.
`/repo/cfg-symbol-bit-matrix/src/remap_symbols.rs:46-69`. -/
def Remap.reorderSymbols (r : Remap) (f : Sym → Sym → Ordering) : Res Remap := do
  let n := r.g.numSyms
  let toExternal := (List.range n).insertionSort fun a b => f a b ≠ .gt
  let toInternal ← fillInternal toExternal.zipIdx (Mapping.new n).toInternal
  let newMapping : Mapping := ⟨toInternal, toExternal⟩
  let mapping ← r.mapping.translate newMapping
  Remap.remapSymbols { r with mapping := mapping } fun sym => do
    Res.ofOption (← Res.index newMapping.toInternal sym)

/-- The comparison of `remove_unused_symbols`: `false` before `true`. The bit set has a bit for
every symbol of the grammar, so the index does not panic; out of range the model reads `false`.
`/repo/cfg-symbol-bit-matrix/src/remap_symbols.rs:37`. -/
def cmpUnused (unused : BitSet) (a b : Sym) : Ordering :=
  compare (unused.getD a false) (unused.getD b false)

/-- `Remap::remove_unused_symbols`. `/repo/cfg-symbol-bit-matrix/src/remap_symbols.rs:35-42`. -/
def Remap.removeUnusedSymbols (r : Remap) : Res Remap := do
  let unused ← r.g.unusedSymbols
  let r ← r.reorderSymbols (cmpUnused unused)
  let src ← r.g.src.truncate (r.g.numSyms - unused.iter.length)
  .ok { r with g := { r.g with src := src } }

end Verif
