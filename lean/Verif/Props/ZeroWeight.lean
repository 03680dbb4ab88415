import Verif.Props.Generate

/-! # Property C132: weights of zero -/

namespace Verif

open Cfg

section

variable {R W : Type} [Zero W] [Add W] [LinearOrder W]

/-- What `random_range(0.0..limit)` of the crate `rand` promises: a number in the range, or a panic
if the range is empty. Used at `/repo/cfg-generate/src/weighted/random.rs:96-99`. -/
structure RandSource (src : GenRange R W) : Prop where
  inRange : ∀ r l, 0 < l → ∃ v r', src.generate r l = .ok (v, r') ∧ 0 ≤ v ∧ v < l
  empty : ∀ r l, ¬ 0 < l → src.generate r l = .panic

/-- The sum of the weights of all alternatives of a symbol. -/
def Cfg.totalWeight (g : Cfg) (ofMillis : Nat → W) (A : Sym) : W :=
  cumulative ofMillis (g.alternatives A) (g.alternatives A).length

/-- **C132.** A choice panics exactly if there are several alternatives whose weights sum up to
nothing. -/
theorem C132_panic_exact (search : BinarySearch W) {src : GenRange R W} (hsrc : RandSource src)
    (ofMillis : Nat → W) (g : Cfg) (A : Sym) (rng : R) :
    (g.weighted ofMillis).pickRhs search src A rng = .panic ↔
      2 ≤ (g.alternatives A).length ∧ ¬ 0 < g.totalWeight ofMillis A := by
  by_cases hne : g.alternatives A = []
  · rcases weighted_spec ofMillis g A with ⟨-, e⟩ | ⟨h, -⟩
    · unfold WeightedRhsByLhs.pickRhs
      rw [e, hne]
      simp
    · exact absurd hne h
  obtain ⟨r, h1, h2⟩ | ⟨h1, h2⟩ := pickRhs_spec search src ofMillis g A rng hne
  · rw [h2, h1]
    simp
  · by_cases ht : 0 < g.totalWeight ofMillis A
    · obtain ⟨v, r', hv, -⟩ := hsrc.inRange rng _ ht
      rcases pickRhs_mem search src ofMillis g A rng hne with ⟨r, rng', -, h⟩ | ⟨h, -⟩ | ⟨h, -⟩
      · rw [h]; simp [ht]
      · exfalso
        unfold totalWeight at hv
        rw [h2, hv, Res.bind_ok] at h
        dsimp only at h
        have hle := search.le ((List.range (g.alternatives A).length).map
          (cumulative ofMillis (g.alternatives A))) v
        rw [List.length_map, List.length_range] at hle
        rw [Res.index_lt (by omega)] at h
        cases h
      · exfalso
        unfold totalWeight at hv
        rw [h2, hv, Res.bind_ok] at h
        dsimp only at h
        have hle := search.le ((List.range (g.alternatives A).length).map
          (cumulative ofMillis (g.alternatives A))) v
        rw [List.length_map, List.length_range] at hle
        rw [Res.index_lt (by omega)] at h
        cases h
    · have := hsrc.empty rng _ ht
      unfold totalWeight at this
      rw [h2, this]
      simp only [Res.bind_panic, true_iff]
      exact ⟨h1, ht⟩

omit [Zero W] [Add W] in
/-- The source is used for choices only. -/
theorem run_source (search : BinarySearch W) {src src' : GenRange R W} (limit : Option Limits)
    (toChar : Sym → R → Option Char × R) (T : BitSet) (m : WeightedRhsByLhs W)
    (hm : src'.mutateStart = src.mutateStart)
    (hp : ∀ A rng, m.pickRhs search src' A rng = m.pickRhs search src A rng)
    (neg : List NegativeRule) : ∀ fuel st,
      GenState.run search src' limit neg toChar T m fuel st =
        GenState.run search src limit neg toChar T m fuel st := by
  have hb : ∀ (bs : List (BacktrackState R)) (st : GenState R),
      GenState.backtrack src' bs st = GenState.backtrack src bs st := by
    intro bs
    induction bs with
    | nil => intro st; rfl
    | cons b bs ih =>
      intro st
      unfold GenState.backtrack
      rw [hm]
      split
      · simp only [ih]
      · exact ih st
  intro fuel
  induction fuel with
  | zero => intro st; rfl
  | succ fuel ih =>
    intro st
    unfold GenState.run
    split
    · rfl
    · have hs : ∀ sym (st : GenState R),
          GenState.step search src' limit neg toChar T m sym st =
          GenState.step search src limit neg toChar T m sym st := by
        intro sym st
        unfold GenState.step GenState.terminal
        simp only [hp, hb]
      rw [hs]
      congr 1
      funext x
      split
      · rfl
      · exact ih _

/-- **C132, the part that holds**: with a random source and positive sums of the weights of all
symbols with several rules, `random` without negative rules never panics. Missing: weights of zero
(`C132_violated_panic`). -/
theorem C132_no_panic_partial (search : BinarySearch W) {src : GenRange R W} (hsrc : RandSource src)
    (ofMillis : Nat → W) {g : Cfg} (hwf : g.WF) {start : Sym} (hstart : start < g.numSyms)
    (hpos : ∀ A, 2 ≤ (g.alternatives A).length → 0 < g.totalWeight ofMillis A)
    (limit : Option Limits) (rng : R) (toChar : Sym → R → Option Char × R) (fuel : Nat) :
    g.random search ofMillis src start limit rng [] toChar fuel ≠ .panic := by
  classical
  let src' : GenRange R W :=
    { generate := fun r l => if 0 < l then src.generate r l else .ok (0, r)
      mutateStart := src.mutateStart }
  have hp : ∀ A rng, (g.weighted ofMillis).pickRhs search src' A rng =
      (g.weighted ofMillis).pickRhs search src A rng := by
    intro A rng
    by_cases hne : g.alternatives A = []
    · rcases weighted_spec ofMillis g A with ⟨-, e⟩ | ⟨h, -⟩
      · unfold WeightedRhsByLhs.pickRhs
        rw [e]
      · exact absurd hne h
    obtain ⟨r, h1, h2⟩ | ⟨h1, h2⟩ := pickRhs_spec search src ofMillis g A rng hne
    · obtain ⟨r', k1, k2⟩ | ⟨k1, k2⟩ := pickRhs_spec search src' ofMillis g A rng hne
      · rw [h1] at k1
        rw [h2, k2, (List.cons.inj k1).1]
      · rw [h1] at k1
        simp at k1
    · obtain ⟨r', k1, k2⟩ | ⟨k1, k2⟩ := pickRhs_spec search src' ofMillis g A rng hne
      · rw [k1] at h1
        simp at h1
      · rw [h2, k2]
        have : src'.generate rng (cumulative ofMillis (g.alternatives A)
            (g.alternatives A).length) = src.generate rng (cumulative ofMillis (g.alternatives A)
            (g.alternatives A).length) := if_pos (hpos A h1)
        rw [this]
  have hr : g.random search ofMillis src start limit rng [] toChar fuel =
      g.random search ofMillis src' start limit rng [] toChar fuel := by
    unfold Cfg.random
    cases g.terminalSymbols with
    | panic => rfl
    | diverge => rfl
    | ok T =>
      rw [Res.bind_ok, Res.bind_ok]
      exact (run_source search limit toChar T _ (by rfl) hp [] _ _).symm
  rw [hr]
  rcases C59_no_panic search ofMillis src' hwf hstart limit rng toChar fuel (by
    intro r l
    show (if 0 < l then src.generate r l else .ok (0, r)) ≠ .panic
    split
    · rename_i hl
      obtain ⟨v, r', h, -⟩ := hsrc.inRange r l hl
      rw [h]; simp
    · simp) with h | ⟨h, -⟩ | ⟨w, s, h⟩
  · rw [h]; simp
  · rw [h]; simp
  · rw [h]; simp

/-- **C132, the part that holds**: an alternative of weight zero is chosen by a random source only
if the random number is exactly the sum of the weights before it. Missing: it may be chosen then
(`C132_violated_choice`). -/
theorem C132_zero_choice_partial (search : BinarySearch W) {src : GenRange R W}
    (hsrc : RandSource src) (ofMillis : Nat → W) (g : Cfg) (A : Sym) (rng rng' : R)
    {α : List Sym} (hn : 2 ≤ (g.alternatives A).length)
    (hmono : ∀ k < (g.alternatives A).length, cumulative ofMillis (g.alternatives A) k ≤
      cumulative ofMillis (g.alternatives A) (k + 1))
    (h : (g.weighted ofMillis).pickRhs search src A rng = .ok (α, rng')) :
    ∃ (k : Nat) (r : CfgRule) (v : W), (g.alternatives A)[k]? = some r ∧ r.rhs = α ∧
      src.generate rng (g.totalWeight ofMillis A) = .ok (v, rng') ∧
      (cumulative ofMillis (g.alternatives A) k < cumulative ofMillis (g.alternatives A) (k + 1) ∨
        (v = cumulative ofMillis (g.alternatives A) k ∧ k + 1 < (g.alternatives A).length)) := by
  have ht : 0 < g.totalWeight ofMillis A := by
    by_contra hc
    rw [(C132_panic_exact search hsrc ofMillis g A rng).2 ⟨hn, hc⟩] at h
    cases h
  obtain ⟨v, r', hv, hv0, hvl⟩ := hsrc.inRange rng _ ht
  obtain ⟨k, r, h1, h2, h3, h4, -⟩ := pick_slice search src ofMillis g A rng r' v hn hv hmono
  rw [h] at h2
  injection h2 with h2
  injection h2 with e1 e2
  have hk : k < (g.alternatives A).length := (List.getElem?_eq_some_iff.1 h1).1
  refine ⟨k, r, v, h1, e1.symm, by rw [e2]; exact hv, ?_⟩
  rcases lt_or_eq_of_le (hmono k hk) with hlt | heq
  · exact .inl hlt
  · right
    have hlow : cumulative ofMillis (g.alternatives A) k ≤ v := by
      rcases h3 with rfl | h3
      · exact hv0
      · exact h3
    rcases h4 with h4 | h4
    · exfalso
      unfold totalWeight at hvl
      rw [← h4, ← heq] at hvl
      exact absurd hlow (not_le.2 hvl)
    · by_cases hl : k + 1 = (g.alternatives A).length
      · exfalso
        unfold totalWeight at hvl
        rw [← hl, ← heq] at hvl
        exact absurd hlow (not_le.2 hvl)
      · exact ⟨le_antisymm (by rw [heq]; exact h4) hlow, by omega⟩

end

/-- `S ::= a | b`, both of weight zero. -/
def exNoWeight : Cfg :=
  { src := ⟨3, [none, none, none]⟩
    rules := [⟨0, [1], { weight := some 0 }⟩, ⟨0, [2], { weight := some 0 }⟩] }

/-- **C132 is violated**: with weights of zero only, `random` panics with every random source. -/
theorem C132_violated_panic {R : Type} (search : BinarySearch ℚ) {src : GenRange R ℚ}
    (hsrc : RandSource src) (limit : Option Limits) (rng : R)
    (toChar : Sym → R → Option Char × R) (fuel : Nat) :
    exNoWeight.WF ∧ exNoWeight.Lang 0 [1] ∧ exNoWeight.Lang 0 [2] ∧
    exNoWeight.random search (fun m => (m : ℚ) / 1000) src 0 limit rng [] toChar (fuel + 1)
      = .panic := by
  refine ⟨by decide +kernel, ⟨.prod ⟨_, by simp [exNoWeight]; exact .inl rfl, rfl, rfl⟩, ?_⟩,
    ⟨.prod ⟨_, by simp [exNoWeight]; exact .inr rfl, rfl, rfl⟩, ?_⟩, ?_⟩
  · intro a ha
    rw [List.mem_singleton.1 ha]
    exact ⟨by decide +kernel, by decide +kernel⟩
  · intro a ha
    rw [List.mem_singleton.1 ha]
    exact ⟨by decide +kernel, by decide +kernel⟩
  · unfold Cfg.random
    rw [show exNoWeight.terminalSymbols = .ok [false, true, true] by decide +kernel, Res.bind_ok]
    unfold GenState.run
    simp only
    unfold GenState.step
    rw [show BitSet.get [false, true, true] 0 = .ok false from rfl, Res.bind_ok, if_neg (by decide)]
    simp only [negativeMap, List.reverse_nil, List.find?_nil, Option.map_none]
    rw [(C132_panic_exact search hsrc _ exNoWeight 0 rng).2 ⟨by decide +kernel, by decide +kernel⟩]
    rfl

/-- `S ::= a | b`, the first of weight zero. -/
def exZeroFirst : Cfg :=
  { src := ⟨3, [none, none, none]⟩
    rules := [⟨0, [1], { weight := some 0 }⟩, ⟨0, [2], {}⟩] }

/-- **C132 is violated**: the alternative of weight zero is the one that a byte source chooses when
it has no bytes left. -/
theorem C132_violated_choice :
    (exZeroFirst.alternatives 0)[0]? = some ⟨0, [1], { weight := some 0 }⟩ ∧
    (exZeroFirst.weighted fun m => (m : ℚ) / 1000).pickRhs (firstSearch ℚ)
      (ByteSource.genRange fun b l => b * l / 255) 0 ⟨[], []⟩ = .ok ([1], ⟨[], []⟩) := by
  decide +kernel

/-- A source that always returns the middle of the range keeps what `rand` promises. -/
def middleSource : GenRange Unit ℚ where
  generate _ l := if 0 < l then .ok (l / 2, ()) else .panic
  mutateStart r _ := r

theorem middleSource_rand : RandSource middleSource where
  inRange r l hl := by
    refine ⟨l / 2, (), if_pos hl, le_of_lt (half_pos hl), half_lt_self hl⟩
  empty r l hl := if_neg hl

example : (∀ A, 2 ≤ (exWeights.alternatives A).length →
    0 < exWeights.totalWeight (fun m => (m : ℚ) / 1000) A) ∧
    (exWeights.weighted fun m => (m : ℚ) / 1000).pickRhs (firstSearch ℚ) middleSource 0 ()
      = .ok ([2], ()) := by
  refine ⟨fun A hA => ?_, by decide +kernel⟩
  by_cases h : A = 0
  · subst h; decide +kernel
  · exfalso
    have : exWeights.alternatives A = [] := by
      unfold Cfg.alternatives exWeights
      simp [Ne.symm h]
    rw [this] at hA
    simp at hA

end Verif
