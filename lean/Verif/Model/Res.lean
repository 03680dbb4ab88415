/-!
# Outcome of running a piece of Rust code

`ok` is a normal return, `panic` a Rust panic (failed assertion, index out of range,
`unwrap` on `None`, `unreachable!`), `diverge` a loop that never ends.
-/

namespace Verif

/-- Outcome of a Rust call: a value, a panic, or no return at all. Not a type of the code; it
stands for e.g. the `assert!` at `/repo/cfg-symbol/src/source.rs:201` and for the `while` loop
at `/repo/cfg-grammar/src/cfg.rs:489`. -/
inductive Res (α : Type) where
  | ok (a : α)
  | panic
  | diverge
  deriving DecidableEq, Repr

namespace Res

/-- Sequencing of outcomes: the second call runs only after a normal return, as for two
statements in a row, e.g. `/repo/cfg-classify/src/useful.rs:60-62`. -/
protected def bind {α β : Type} : Res α → (α → Res β) → Res β
  | ok a, f => f a
  | panic, _ => panic
  | diverge, _ => diverge

instance : Monad Res where
  pure := Res.ok
  bind := Res.bind

@[simp] theorem pure_eq {α : Type} (a : α) : (pure a : Res α) = ok a := rfl
@[simp] theorem bind_ok {α β : Type} (a : α) (f : α → Res β) : (ok a >>= f) = f a := rfl
@[simp] theorem bind_panic {α β : Type} (f : α → Res β) :
    ((panic : Res α) >>= f) = panic := rfl
@[simp] theorem bind_diverge {α β : Type} (f : α → Res β) :
    ((diverge : Res α) >>= f) = diverge := rfl

theorem bind_eq_ok {α β : Type} {x : Res α} {f : α → Res β} {b : β} :
    (x >>= f) = ok b ↔ ∃ a, x = ok a ∧ f a = ok b := by
  cases x <;> simp

instance : LawfulMonad Res := LawfulMonad.mk'
  (id_map := by intro α x; cases x <;> rfl)
  (pure_bind := by intros; rfl)
  (bind_assoc := by intro α β γ x f g; cases x <;> rfl)

@[simp] theorem map_ok {α β : Type} (f : α → β) (a : α) : (f <$> ok a) = ok (f a) := rfl

/-- `x` returned normally (no counterpart in /repo; used to state examples). -/
def isOk {α : Type} : Res α → Bool
  | ok _ => true
  | _ => false

/-- `Option` as an outcome: `None` means panic (`unwrap`, `expect`), e.g.
`/repo/cfg-symbol/src/symbol.rs:136`. -/
def ofOption {α : Type} : Option α → Res α
  | some a => ok a
  | none => panic

/-- Indexing `v[i]`: panics when out of range, e.g. `/repo/cfg-grammar/src/cfg.rs:569`. -/
def index {α : Type} (l : List α) (i : Nat) : Res α := ofOption l[i]?

theorem index_ok {α : Type} {l : List α} {i : Nat} {a : α} :
    index l i = ok a ↔ l[i]? = some a := by
  unfold index
  cases l[i]? <;> simp [ofOption]

theorem index_lt {α : Type} {l : List α} {i : Nat} (h : i < l.length) :
    index l i = ok l[i] := by
  rw [index_ok, List.getElem?_eq_getElem h]

theorem index_panic {α : Type} {l : List α} {i : Nat} (h : l.length ≤ i) :
    index l i = panic := by
  unfold index
  rw [List.getElem?_eq_none h]; rfl

end Res

end Verif
