import Verif.Proofs.ValuesRelease
import Verif.Props.Values
import Verif.Props.Distance

/-! # Property C116: propagating weights in the release profile -/

namespace Verif

/-- **C116.** In the release profile `rhs_closure_with_values` returns for every well-formed grammar
and every table of 32-bit weights. A symbol gets a weight exactly if it derives a string with a weight by
rules with non-empty right sides; it is the weight of such a string, up to multiples of `2 ^ 32`. It need
not be the least one: see `C116_violated_wrap`. -/
theorem C116_release_partial {g : Cfg} (hwf : g.WF) (value : List (Option Nat))
    (hlen : value.length = g.numSyms)
    (hsmall : ∀ (s : Nat) v, value[s]?.join = some v → v < 2 ^ 32) :
    ∃ value', g.rhsClosureWithValuesRelease value = .ok value' ∧ value'.length = g.numSyms ∧
      (∀ (s : Nat) v, value'[s]?.join = some v →
        ∃ c, HasWeight (NonEmptyProds g.prod) (fun t => value[t]?.join) s c ∧ v = c % 2 ^ 32) ∧
      ∀ (s : Nat), value'[s]?.join = none ↔
        ∀ c, ¬ HasWeight (NonEmptyProds g.prod) (fun t => value[t]?.join) s c := by
  obtain ⟨value', h1, h2, h3, h4⟩ := rhsClosureWithValuesRelease_spec hwf value hlen hsmall
  refine ⟨value', h1, h2, fun s v hv => (h3 s v hv).2, fun s => ⟨fun hn c hc => ?_, fun hn => ?_⟩⟩
  · obtain ⟨v, hv⟩ := h4 s c hc
    have : value'[s]?.join = some v := hv
    rw [this] at hn
    cases hn
  · cases e : value'[s]?.join with
    | none => rfl
    | some v =>
      obtain ⟨c, hc, -⟩ := (h3 s v e).2
      exact (hn c hc).elim

/-- **C116.** What a debug build returns, a release build returns, so that C11 holds there. -/
theorem C116_agrees_partial {g : Cfg} {value value' : List (Option Nat)}
    (h : g.rhsClosureWithValues value = .ok value') : g.rhsClosureWithValuesRelease value = .ok value' :=
  valuesLoopWrap_agrees h

/-- **C116**, when the sums are known to stay below `2 ^ 32`: the release build gives the least weights. -/
theorem C116_least_partial {g : Cfg} (hwf : g.WF) (value : List (Option Nat))
    (hlen : value.length = g.numSyms) (V K : Nat)
    (hV : ∀ (s : Nat) v, value[s]?.join = some v → v ≤ V)
    (hK1 : 1 ≤ K) (hK : ∀ r ∈ g.rules, r.rhs.length ≤ K)
    (hb : V * K ^ (g.numSyms + 1) < 2 ^ 32) :
    ∃ value', g.rhsClosureWithValuesRelease value = .ok value' ∧
      ∀ (s : Nat) v, value'[s]?.join = some v ↔
        HasWeight (NonEmptyProds g.prod) (fun t => value[t]?.join) s v ∧
        ∀ c, HasWeight (NonEmptyProds g.prod) (fun t => value[t]?.join) s c → v ≤ c := by
  obtain ⟨value', h⟩ := C11_returns hwf value hlen V K hV hK1 hK hb
  refine ⟨value', C116_agrees_partial h, ?_⟩
  have hsmall : ∀ (s : Nat) v, value[s]?.join = some v → v < 2 ^ 32 := by
    intro s v hv
    have h1 := hV s v hv
    have h2 : V ≤ V * K ^ (g.numSyms + 1) := Nat.le_mul_of_pos_right _ (Nat.pow_pos hK1)
    omega
  rcases C11_least_weights hwf value hlen hsmall with h' | ⟨v', h', -, h3, -⟩
  · rw [h] at h'; cases h'
  · obtain rfl := Res.ok.inj (h.symm.trans h')
    exact h3

/-- The grammar `A0 ::= A1 A1`, `A1 ::= A2 A2`, …, `A31 ::= t t`. -/
def exDoubling : Cfg :=
  { src := ⟨33, List.replicate 33 none⟩
    rules := (List.range 32).map fun i => ⟨i, [i + 1, i + 1], {}⟩
    roots := [0] }

/-- The grammar `A ::= t t`. -/
def exTwice : Cfg := { src := ⟨2, [none, none]⟩, rules := [⟨0, [1, 1], {}⟩] }

/-- **C116**, violated: `A ::= t t` with the weight `2 ^ 31` for `t` gets the weight `0`, although the only
string of `A` with a weight has the weight `2 ^ 32`. -/
theorem C116_violated_wrap :
    ∃ (g : Cfg) (value : List (Option Nat)), g.WF ∧ value.length = g.numSyms ∧
      (∀ (s : Nat) v, value[s]?.join = some v → v < 2 ^ 32) ∧
      (∃ value', g.rhsClosureWithValuesRelease value = .ok value' ∧ value'[0]?.join = some 0) ∧
      ∀ c, HasWeight (NonEmptyProds g.prod) (fun t => value[t]?.join) 0 c → 2 ^ 32 ≤ c := by
  refine ⟨exTwice, [none, some (2 ^ 31)],
    by decide +kernel, rfl, ?_, ⟨[some 0, some (2 ^ 31)], by decide +kernel, rfl⟩, ?_⟩
  · intro s v h
    match s with
    | 0 => simp at h
    | 1 => simp at h; omega
    | s + 2 => simp at h
  · rintro c ⟨w, d, hw⟩
    rcases Der.single_iff.1 (derives_iff_der.1 d) with rfl | ⟨α, ⟨⟨r, hr, -, rfl⟩, -⟩, hd⟩
    · simp [weight] at hw
    · obtain rfl := List.mem_singleton.1 hr
      have key : ∀ x, Der (NonEmptyProds exTwice.prod) [1] x → x = [1] := by
        intro x hx
        rcases Der.single_iff.1 hx with h | ⟨β, ⟨⟨q, hq, e, -⟩, -⟩, -⟩
        · exact h
        · obtain rfl := List.mem_singleton.1 hq
          cases e
      obtain ⟨x, y, rfl, h1, h2⟩ := (Der.append_iff (u₁ := [1]) (u₂ := [1])).1 hd
      rw [key _ h1, key _ h2] at hw
      simp [weight] at hw
      omega

/-- The lengths of shortest sentences wrap too: the shortest sentence of `exDoubling` has `2 ^ 32` symbols,
a debug build panics, and a release build gives `0`. -/
theorem C116_violated_lengths : exDoubling.WF ∧
    exDoubling.minimalSentenceLengths (List.replicate 33 none) = .panic ∧
    exDoubling.minimalSentenceLengthsRelease (List.replicate 33 none) =
      .ok ((List.range 33).map fun i => some (2 ^ (32 - i) % 2 ^ 32)) := by
  decide +kernel

example : exValues.WF ∧ [none, none, some 1, some 1, some 0].length = exValues.numSyms ∧
    exValues.rhsClosureWithValues [none, none, some 1, some 1, some 0]
      = .ok [some 1, some 1, some 1, some 1, some 0] :=
  ⟨exValues_wf, rfl, by decide +kernel⟩

example : (∀ r ∈ exValues.rules, r.rhs.length ≤ 3) ∧ 1 * 3 ^ (exValues.numSyms + 1) < 2 ^ 32 := by
  decide

end Verif
