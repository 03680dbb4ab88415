import Verif.Props.ZeroWeight

/-! # Property C133: tables with integer weights -/

namespace Verif

open Cfg

/-- `total_weight += weight` for a weight type `u8`, `u16` or `u32` of the given number of bits.
`/repo/cfg-generate/src/weighted/weighted_rhs_by_lhs.rs:41`,
`/repo/cfg-generate/src/weighted/weight.rs:9-11`. -/
def addInt (p : Profile) (bits a b : Nat) : Res Nat :=
  if a + b < 2 ^ bits then .ok (a + b)
  else match p with
    | .debug => .panic
    | .release => .ok ((a + b) % 2 ^ bits)

/-- `WeightedRhsByLhs::add_weight` for integer weights. What is left of the table after a panic is
not modelled. `/repo/cfg-generate/src/weighted/weighted_rhs_by_lhs.rs:35-42`. -/
def WeightedRhsByLhs.addWeightInt (p : Profile) (bits : Nat) (m : WeightedRhsByLhs Nat) (weight : Nat)
    (lhs : Sym) (rhs : List Sym) : Res (WeightedRhsByLhs Nat) := do
  let list := (m lhs).getD ⟨0, []⟩
  let total ← addInt p bits list.totalWeight weight
  .ok fun s => if s = lhs then some ⟨total, list.rhsList ++ [⟨list.totalWeight, rhs⟩]⟩ else m s

/-- `WeightedRhsByLhs::new` and calls of `add_weight`, each with weight, left and right side.
`/repo/cfg-generate/src/weighted/weighted_rhs_by_lhs.rs:28-43`. -/
def intTable (p : Profile) (bits : Nat) (calls : List (Nat × Sym × List Sym)) :
    Res (WeightedRhsByLhs Nat) :=
  calls.foldlM (fun m c => m.addWeightInt p bits c.1 c.2.1 c.2.2) fun _ => none

/-- The weights as numbers that they are converted to (`into`), exact for all integer types.
`/repo/cfg-generate/src/weighted/weighted_rhs_by_lhs.rs:77,80`. -/
def WeightedRhsByLhs.toRat (m : WeightedRhsByLhs Nat) : WeightedRhsByLhs ℚ :=
  fun s => (m s).map fun l => ⟨(l.totalWeight : ℚ), l.rhsList.map fun x => ⟨(x.weight : ℚ), x.rhs⟩⟩

/-- Specification: a grammar with these rules and weights. -/
def callsCfg (calls : List (Nat × Sym × List Sym)) : Cfg :=
  { src := ⟨0, []⟩, rules := calls.map fun c => ⟨c.2.1, c.2.2, { weight := some c.1 }⟩ }

/-- Specification: the sum of the weights given for a symbol. -/
def callsTotal (calls : List (Nat × Sym × List Sym)) (A : Sym) : Nat :=
  ((calls.filter fun c => c.2.1 = A).map (·.1)).sum

theorem callsTotal_append (calls : List (Nat × Sym × List Sym)) (c : Nat × Sym × List Sym) (A : Sym) :
    callsTotal (calls ++ [c]) A = callsTotal calls A + if c.2.1 = A then c.1 else 0 := by
  unfold callsTotal
  rw [List.filter_append, List.map_append, List.sum_append]
  by_cases h : c.2.1 = A <;> simp [h]

theorem intTable_append (p : Profile) (bits : Nat) (calls : List (Nat × Sym × List Sym))
    (c : Nat × Sym × List Sym) :
    intTable p bits (calls ++ [c]) = (intTable p bits calls >>= fun m =>
      m.addWeightInt p bits c.1 c.2.1 c.2.2) := by
  unfold intTable
  rw [List.foldlM_append]
  congr 1
  funext m
  rw [List.foldlM_cons]
  cases m.addWeightInt p bits c.1 c.2.1 c.2.2 <;> rfl

/-- The table if all sums fit. -/
theorem intTable_fits (p : Profile) (bits : Nat) (calls : List (Nat × Sym × List Sym))
    (h : ∀ A, callsTotal calls A < 2 ^ bits) :
    ∃ m, intTable p bits calls = .ok m ∧ (∀ A, ((m A).map (·.totalWeight)).getD 0 = callsTotal calls A) ∧
      m.toRat = (callsCfg calls).weighted fun k => (k : ℚ) := by
  induction calls using List.reverseRecOn with
  | nil => exact ⟨_, rfl, fun A => rfl, rfl⟩
  | append_singleton calls c ih =>
    obtain ⟨m, h1, h2, h3⟩ := ih fun A => by
      have := h A
      rw [callsTotal_append] at this
      omega
    have hl : ((m c.2.1).getD ⟨0, []⟩).totalWeight = callsTotal calls c.2.1 := by
      rw [← h2]
      cases m c.2.1 <;> rfl
    have hfit : addInt p bits ((m c.2.1).getD ⟨0, []⟩).totalWeight c.1 =
        .ok (((m c.2.1).getD ⟨0, []⟩).totalWeight + c.1) := by
      unfold addInt
      rw [if_pos]
      have := h c.2.1
      rw [callsTotal_append, if_pos rfl] at this
      rw [hl]
      exact this
    rw [intTable_append, h1, Res.bind_ok]
    unfold WeightedRhsByLhs.addWeightInt
    simp only [hfit, Res.bind_ok]
    refine ⟨_, rfl, fun A => ?_, ?_⟩
    · rw [callsTotal_append]
      by_cases hA : A = c.2.1
      · subst hA
        simp [hl]
      · rw [if_neg hA, if_neg (fun e => hA e.symm), h2]
        rfl
    · have he : (callsCfg (calls ++ [c])).weighted (fun k => (k : ℚ)) =
          ((callsCfg calls).weighted fun k => (k : ℚ)).addWeight (c.1 : ℚ) c.2.1 c.2.2 := by
        unfold Cfg.weighted callsCfg
        simp only [List.map_append, List.map_cons, List.map_nil, List.foldl_append, List.foldl_cons,
          List.foldl_nil, Option.getD_some]
      rw [he, ← h3]
      funext A
      unfold WeightedRhsByLhs.addWeight WeightedRhsByLhs.toRat
      simp only
      by_cases hA : A = c.2.1
      · subst hA
        rw [if_pos rfl, if_pos rfl]
        cases m c.2.1 <;> simp
      · rw [if_neg hA, if_neg hA]

/-- **C133, the part that holds**: if the sum of the weights of each symbol fits the type, the table
is made, and choosing from it is choosing from a grammar with these weights (see C61). Missing: sums
beyond the type (`C133_violated_wrap`). -/
theorem C133_fits_partial (p : Profile) (bits : Nat) {calls : List (Nat × Sym × List Sym)}
    (h : ∀ A, callsTotal calls A < 2 ^ bits) :
    ∃ m, intTable p bits calls = .ok m ∧
      ∀ {R : Type} (search : BinarySearch ℚ) (src : GenRange R ℚ) (A : Sym) (rng : R),
        m.toRat.pickRhs search src A rng =
          ((callsCfg calls).weighted fun k => (k : ℚ)).pickRhs search src A rng := by
  obtain ⟨m, h1, -, h2⟩ := intTable_fits p bits calls h
  exact ⟨m, h1, fun search src A rng => by rw [h2]⟩

/-- **C133.** In debug builds a table is made exactly if the sums fit; otherwise there is a panic. -/
theorem C133_debug (bits : Nat) (calls : List (Nat × Sym × List Sym)) :
    ((∃ m, intTable .debug bits calls = .ok m) ↔ ∀ A, callsTotal calls A < 2 ^ bits) ∧
    (intTable .debug bits calls = .panic ↔ ∃ A, 2 ^ bits ≤ callsTotal calls A) := by
  have key : (∃ A, 2 ^ bits ≤ callsTotal calls A) → intTable .debug bits calls = .panic := by
    induction calls using List.reverseRecOn with
    | nil =>
      rintro ⟨A, h⟩
      have := Nat.two_pow_pos bits
      simp [callsTotal] at h
    | append_singleton calls c ih =>
      rintro ⟨A, hA⟩
      rw [intTable_append]
      by_cases hc : ∃ A, 2 ^ bits ≤ callsTotal calls A
      · rw [ih hc, Res.bind_panic]
      · obtain ⟨m, h1, h2, -⟩ := intTable_fits .debug bits calls fun A => by
          by_contra h
          exact hc ⟨A, by omega⟩
        rw [h1, Res.bind_ok]
        unfold WeightedRhsByLhs.addWeightInt
        have hl : ((m c.2.1).getD ⟨0, []⟩).totalWeight = callsTotal calls c.2.1 := by
          rw [← h2]
          cases m c.2.1 <;> rfl
        have e : c.2.1 = A := by
          by_contra hne
          rw [callsTotal_append, if_neg hne] at hA
          exact hc ⟨A, hA⟩
        rw [callsTotal_append, if_pos e, ← e] at hA
        unfold addInt
        simp only [hl]
        rw [if_neg (by omega)]
        rfl
  refine ⟨⟨fun ⟨m, hm⟩ A => ?_, fun h => ?_⟩, fun h => ?_, key⟩
  · by_contra hc
    rw [key ⟨A, by omega⟩] at hm
    cases hm
  · obtain ⟨m, h1, -⟩ := intTable_fits .debug bits calls h
    exact ⟨m, h1⟩
  · by_contra hc
    obtain ⟨m, h1, -⟩ := intTable_fits .debug bits calls fun A => by
      by_contra h'
      exact hc ⟨A, by omega⟩
    rw [h1] at h
    cases h

/-- **C133 is violated** in release builds: with the weights 200 and 100 of type `u8` the second
alternative is never chosen, by no random source. -/
theorem C133_violated_wrap :
    ∃ m, intTable .release 8 [(200, 0, [1]), (100, 0, [2])] = .ok m ∧
      ∀ {R : Type} (search : BinarySearch ℚ) {src : GenRange R ℚ}, RandSource src → ∀ rng,
        ∃ rng', m.toRat.pickRhs search src 0 rng = .ok ([1], rng') := by
  refine ⟨_, rfl, fun {R} search {src} hsrc rng => ?_⟩
  have hlist : WeightedRhsByLhs.toRat (fun s => if s = 0 then
      some (⟨44, [⟨0, [1]⟩, ⟨200, [2]⟩]⟩ : WeightedRhsList Nat) else none) 0 =
      some ⟨44, [⟨0, [1]⟩, ⟨200, [2]⟩]⟩ := by decide +kernel
  obtain ⟨v, r', hv, h0, h1⟩ := hsrc.inRange rng 44 (by decide +kernel)
  refine ⟨r', ?_⟩
  have hidx : search.idx [0, 200] v - 1 = 0 := by
    have hs : ([0, 200] : List ℚ).Pairwise (· ≤ ·) := by decide +kernel
    have h200 : v < 200 := lt_trans h1 (by decide +kernel)
    by_cases hm : v ∈ ([0, 200] : List ℚ)
    · have := search.found _ v hs hm
      generalize search.idx [0, 200] v = i at this
      rcases i with _ | _ | i
      · rfl
      · rfl
      · simp at this
    · obtain ⟨-, h2⟩ := search.insertion _ v hs hm
      have hle := search.le [0, 200] v
      obtain ⟨h3, -⟩ := search.insertion _ v hs hm
      generalize search.idx [0, 200] v = i at *
      rcases i with _ | _ | _ | i
      · rfl
      · rfl
      · have := h3 200 (by simp)
        exact absurd this (not_lt.2 (le_of_lt h200))
      · simp at hle
  unfold WeightedRhsByLhs.pickRhs
  have : WeightedRhsByLhs.toRat (fun s => if s = 0 then
      some (⟨44, [⟨0, [1]⟩, ⟨200, [2]⟩]⟩ : WeightedRhsList Nat) else
        if s = 0 then some ⟨200, [⟨0, [1]⟩]⟩ else none) 0 =
      some ⟨44, [⟨0, [1]⟩, ⟨200, [2]⟩]⟩ := by decide +kernel
  refine (congrArg (fun x : Option (WeightedRhsList ℚ) => match x with
    | some list => list.pick search src rng
    | none => .ok ([], rng)) this).trans ?_
  show WeightedRhsList.pick search src ⟨44, [⟨0, [1]⟩, ⟨200, [2]⟩]⟩ rng = _
  unfold WeightedRhsList.pick
  rw [if_neg (by decide), hv, Res.bind_ok]
  simp only [List.map_cons, List.map_nil]
  rw [hidx]
  rfl

example : ∀ A, callsTotal [(100, 0, [1]), (100, 0, [2]), (200, 3, [])] A < 2 ^ 8 := by
  intro A
  unfold callsTotal
  by_cases h : A = 0
  · subst h; decide +kernel
  · by_cases h' : A = 3
    · subst h'; decide +kernel
    · simp [Ne.symm h, Ne.symm h']

example : intTable .debug 8 [(200, 0, [1]), (100, 0, [2])] = .panic := rfl

end Verif
