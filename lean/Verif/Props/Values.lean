import Verif.Proofs.Values

/-! # Property C11: propagating weights

The table of weights is read with `value[s]?.join` (`none` for a symbol without a weight). -/

namespace Verif

/-- `E ::= E p E | N`, `N ::= d`, `Z ::= ε`; symbols `E N p d Z = 0 .. 4`. -/
def exValues : Cfg :=
  { src := ⟨5, [none, none, none, none, none]⟩,
    rules := [⟨0, [0, 2, 0], {}⟩, ⟨0, [1], {}⟩, ⟨1, [3], {}⟩, ⟨4, [], {}⟩], roots := [0] }

theorem exValues_wf : exValues.WF := by decide +kernel

/-- **C11.** For every well-formed grammar and every table of 32-bit weights,
`rhs_closure_with_values` terminates; if it returns, the table maps each symbol to the least
weight of a string derivable from it by rules with non-empty right sides (and to nothing exactly
when no such string has a weight). -/
theorem C11_least_weights {g : Cfg} (hwf : g.WF) (value : List (Option Nat))
    (hlen : value.length = g.numSyms)
    (hsmall : ∀ (s : Nat) v, value[s]?.join = some v → v < 2 ^ 32) :
    g.rhsClosureWithValues value = .panic ∨
    ∃ value', g.rhsClosureWithValues value = .ok value' ∧ value'.length = g.numSyms ∧
      (∀ (s : Nat) v, value'[s]?.join = some v ↔
        HasWeight (NonEmptyProds g.prod) (fun t => value[t]?.join) s v ∧
        ∀ c, HasWeight (NonEmptyProds g.prod) (fun t => value[t]?.join) s c → v ≤ c) ∧
      ∀ (s : Nat), value'[s]?.join = none ↔
        ∀ c, ¬ HasWeight (NonEmptyProds g.prod) (fun t => value[t]?.join) s c := by
  have hK : ∃ K, 1 ≤ K ∧ ∀ r ∈ g.rules, r.rhs.length ≤ K := by
    refine ⟨(g.rules.map fun r => r.rhs.length).sum + 1, by omega, fun r hr => ?_⟩
    generalize g.rules = l at hr
    induction l with
    | nil => simp at hr
    | cons a l ih =>
      rw [List.map_cons, List.sum_cons]
      rcases List.mem_cons.1 hr with rfl | hr
      · omega
      · have := ih hr; omega
  obtain ⟨K, hK1, hK⟩ := hK
  rcases rhsClosureWithValues_spec hwf value hlen hsmall (2 ^ 32) K hK1 hK
    (fun s v h => Nat.le_of_lt (hsmall s v h)) with ⟨h, -⟩ | ⟨value', h1, h2, h3⟩
  · exact .inl h
  · refine .inr ⟨value', h1, h2, h3, fun s => ⟨fun hn c hc => ?_, fun hn => ?_⟩⟩
    · obtain ⟨c₀, h4, h5⟩ : ∃ c₀, HasWeight (NonEmptyProds g.prod) (tbl value) s c₀ ∧
          ∀ c, HasWeight (NonEmptyProds g.prod) (tbl value) s c → c₀ ≤ c := by
        classical
        have hex : ∃ c, HasWeight (NonEmptyProds g.prod) (tbl value) s c := ⟨c, hc⟩
        exact ⟨Nat.find hex, Nat.find_spec hex, fun c hc => Nat.find_min' hex hc⟩
      have := (h3 s c₀).2 ⟨h4, h5⟩
      rw [show value'[s]?.join = tbl value' s from rfl, this] at hn
      cases hn
    · cases e : value'[s]?.join with
      | none => rfl
      | some v => exact (hn v ((h3 s v).1 e).1).elim

/-- **C11**, no panic. The sums stay within 32 bits, so that the call returns, whenever
`V * K ^ (n + 1) < 2 ^ 32`, where `V` bounds the initial weights, `K` the lengths of right sides
and `n` is the number of symbols. -/
theorem C11_returns {g : Cfg} (hwf : g.WF) (value : List (Option Nat))
    (hlen : value.length = g.numSyms) (V K : Nat)
    (hV : ∀ (s : Nat) v, value[s]?.join = some v → v ≤ V)
    (hK1 : 1 ≤ K) (hK : ∀ r ∈ g.rules, r.rhs.length ≤ K)
    (hb : V * K ^ (g.numSyms + 1) < 2 ^ 32) :
    ∃ value', g.rhsClosureWithValues value = .ok value' := by
  have hsmall : ∀ s v, tbl value s = some v → v < 2 ^ 32 := by
    intro s v h
    have h1 := hV s v h
    have h2 : V ≤ V * K ^ (g.numSyms + 1) := Nat.le_mul_of_pos_right _ (Nat.pow_pos hK1)
    omega
  rcases rhsClosureWithValues_spec hwf value hlen hsmall V K hK1 hK hV with ⟨-, h⟩ | ⟨v', h, -⟩
  · exact (h hb).elim
  · exact ⟨v', h⟩

/-- The overflow is real: `A ::= t t` with weight `2^31` for `t`. -/
theorem C11_panic_witness :
    (Cfg.rhsClosureWithValues
      { src := ⟨2, [none, none]⟩, rules := [⟨0, [1, 1], {}⟩] }
      [none, some (2 ^ 31)]) = .panic := by decide +kernel

example : exValues.WF ∧ [none, none, some 1, some 1, some 0].length = exValues.numSyms ∧
    exValues.rhsClosureWithValues [none, none, some 1, some 1, some 0]
      = .ok [some 1, some 1, some 1, some 1, some 0] :=
  ⟨exValues_wf, rfl, by decide +kernel⟩

example : (∀ r ∈ exValues.rules, r.rhs.length ≤ 3) ∧ 1 * 3 ^ (exValues.numSyms + 1) < 2 ^ 32 := by
  decide

end Verif
