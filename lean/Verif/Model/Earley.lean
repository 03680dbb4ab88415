import Verif.Model.Res

/-!
# Interface of the crate `tiny_earley`

The loaders parse with the external crate `tiny_earley`. It is represented by an arbitrary
`Recognizer`; what is assumed of it is `Recognizer.Correct` in `Spec/Earley.lean`. The evaluation of
a parse tree by the loader's own code is modelled in `Model/Load.lean` and
`Model/LoadAdvanced.lean`.
-/

namespace Verif

/-- A symbol of a syntax given to `grammar!`, e.g. `/repo/cfg-load/src/basic.rs:310-326`. -/
inductive GSym (T N : Type) where
  | t (terminal : T)
  | n (nonterminal : N)
  deriving DecidableEq, Repr

/-- A syntax: the rules with their numbers, as commented at
`/repo/cfg-load/src/basic.rs:313-324`. -/
abbrev Syntax (T N : Type) := List (Nat × N × List (GSym T N))

/-- A parse tree, as visited by the evaluator through `leaf` and `product`.
`/repo/cfg-load/src/basic.rs:57-167`. A leaf holds the values given to `scan`. -/
inductive Tree (T : Type) where
  | leaf (terminal : T) (values : Nat)
  | node (action : Nat) (args : List (Tree T))

/-- The recognizer for some syntax. `viable` is the result of `end_earleme` after scanning the given
terminals, each with its `values`; `tree` is the tree at `finished_node`, or `none` if there is no
finished node. Used at `/repo/cfg-load/src/basic.rs:344,366-391`. -/
structure Recognizer (T : Type) where
  viable : List (T × Nat) → Bool
  tree : List (T × Nat) → Option (Tree T)

end Verif
