import Verif.Model.Res

/-!
# Model of `BTreeMap` with natural number keys

Used for `BTreeMap<RuleId, Lr0Item>` and `BTreeMap<Symbol, SetId>` in
`/repo/cfg-classify/src/lr.rs`. A map is the list of its entries, in ascending order of the keys.
-/

namespace Verif

/-- A `BTreeMap`, e.g. `/repo/cfg-classify/src/lr.rs:20,48`. -/
abbrev BMap (α : Type) := List (Nat × α)

namespace BMap

/-- `BTreeMap::insert`, with the old value, e.g. `/repo/cfg-classify/src/lr.rs:83-86`. -/
def insert {α : Type} (k : Nat) (v : α) : BMap α → BMap α × Option α
  | [] => ([(k, v)], none)
  | (k', v') :: m =>
    if k < k' then ((k, v) :: (k', v') :: m, none)
    else if k = k' then ((k, v) :: m, some v')
    else
      let (m, old) := insert k v m
      ((k', v') :: m, old)

end BMap

end Verif
