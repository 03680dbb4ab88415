import Verif.Proofs.DistanceProfile
import Verif.Props.Distance
import Verif.Props.ValuesRelease

/-! # Property C138: distance calls in both build profiles -/

namespace Verif

/-- A sequence of calls of `minimal_distances` on one `MinimalDistance`, in a build profile. -/
def distanceCallsIn (p : Profile) (g : Cfg) (calls : List (List (Nat × Nat) × DistanceDirection)) :
    Res MinimalDistance :=
  calls.foldlM (fun m c => m.minimalDistancesIn p g c.1 c.2) (MinimalDistance.new g)

theorem distanceCallsIn_debug (g : Cfg) (calls : List (List (Nat × Nat) × DistanceDirection)) :
    distanceCallsIn .debug g calls = distanceCalls g calls := by
  unfold distanceCallsIn distanceCalls
  rw [minimalDistancesIn_debug]

theorem distanceCallsIn_out (p : Profile) {g : Cfg} (hwf : g.WF)
    (calls : List (List (Nat × Nat) × DistanceDirection)) (hv : ValidDots g calls) :
    Res.Out (p = .debug ∨ ∃ r ∈ g.rules, ∃ s ∈ r.rhs, ∀ w, ¬ g.Lang s w) (distanceCallsIn p g calls)
      fun m => MSmall g m ∧ LensSome g m.minLength := by
  unfold distanceCallsIn
  refine Res.Out.foldlM (Inv := fun m => MSmall g m ∧ LensSome g m.minLength) _ ?_ _ (small_new g)
  intro c hc m hm
  exact minimalDistancesIn_out p hwf hm.1 hm.2 c.1 c.2 fun x hx r hr => hv c hc x hx r hr

/-- **C138.** Sequences of distance calls with dots inside of their rules stop in both profiles, for
every grammar: each call returns or panics. -/
theorem C138_stops (p : Profile) {g : Cfg} (hwf : g.WF)
    (calls : List (List (Nat × Nat) × DistanceDirection)) (hv : ValidDots g calls) :
    distanceCallsIn p g calls ≠ .diverge := by
  rcases distanceCallsIn_out p hwf calls hv with ⟨-, h⟩ | ⟨m, h, -⟩ <;>
  · rw [h]; simp

/-- **C138**, release builds: the calls return if every symbol of a right side derives some string,
however long these are. The result has one row for each rule, with an entry for each position, and
every entry is a 32-bit number. -/
theorem C138_release_returns {g : Cfg} (hwf : g.WF) (hp : ∀ r ∈ g.rules, ∀ s ∈ r.rhs, ∃ w, g.Lang s w)
    (calls : List (List (Nat × Nat) × DistanceDirection)) (hv : ValidDots g calls) :
    ∃ m, distanceCallsIn .release g calls = .ok m ∧ m.distances.length = g.rules.length ∧
      ∀ (i : Nat) r row, g.rules[i]? = some r → m.distances[i]? = some row →
        row.length = r.rhs.length + 1 ∧ ∀ (k : Nat) v, row[k]? = some (some v) → v < 2 ^ 32 := by
  rcases distanceCallsIn_out .release hwf calls hv with ⟨h | ⟨r, hr, s, hs, h⟩, -⟩ | ⟨m, h, hm, -⟩
  · cases h
  · obtain ⟨w, hw⟩ := hp r hr s hs
    exact absurd hw (h w)
  · exact ⟨m, h, hm.rowsLen, fun i r row hr hrow => ⟨hm.rows i r row hr hrow, fun k v hk =>
      small_at (hm.smallR row (List.mem_of_getElem? hrow)) hk⟩⟩

/-- **C138**, agreement: what the calls return in a debug build, they return in a release build; so
C87 holds for release builds too. -/
theorem C138_agrees {g : Cfg} (calls : List (List (Nat × Nat) × DistanceDirection)) {m : MinimalDistance}
    (h : distanceCalls g calls = .ok m) : distanceCallsIn .release g calls = .ok m := by
  rw [← distanceCallsIn_debug] at h
  exact Res.Below.foldlM (fun m c => minimalDistancesIn_below _ _ _ _) _ _ m h

/-- **C138**, the walks of C87 in release builds. -/
theorem C138_release_walks {g : Cfg} (hwf : g.WF) (K M : Nat) (hK1 : 1 ≤ K) (hM1 : 1 ≤ M)
    (hK : ∀ r ∈ g.rules, r.rhs.length ≤ K) (hM : ∀ s m, g.MinLen s m → m ≤ M)
    (hp : ∀ r ∈ g.rules, ∀ s ∈ r.rhs, ∃ w, g.Lang s w)
    (hb1 : (g.numSyms + 1) * (K * M) < 2 ^ 32) (hb2 : M * K ^ (g.numSyms + 1) < 2 ^ 32)
    (calls : List (List (Nat × Nat) × DistanceDirection)) (hv : ValidDots g calls)
    (hf : ∀ c ∈ calls, c.2 = .forward) :
    ∃ m, distanceCallsIn .release g calls = .ok m ∧
      ∀ (i : Nat) row (q : Nat) v, m.distances[i]? = some row → row[q]?.join = some v →
        g.Dist (calls.flatMap Prod.fst) i q v := by
  obtain ⟨m, h1, h2, -⟩ := C87_forward_walks hwf K M hK1 hM1 hK hM hp hb1 hb2 calls hv hf
  exact ⟨m, C138_agrees calls h1, h2⟩

/-- A grammar whose shortest strings are too long for a debug build: it panics, and a release build
returns, with lengths modulo `2 ^ 32`. -/
example : exDoubling.WF ∧ ValidDots exDoubling [([(0, 1)], .forward)] ∧
    distanceCalls exDoubling [([(0, 1)], .forward)] = .panic ∧
    (do let m ← distanceCallsIn .release exDoubling [([(0, 1)], .forward)]
        .ok (m.distances.take 2)) = .ok [[some (2 ^ 31), some 0, none], [some (2 ^ 31), some (2 ^ 30), some 0]] := by
  refine ⟨by decide +kernel, by decide +kernel, by decide +kernel, by decide +kernel⟩

/-- Every symbol of `exDoubling` derives a string. -/
example : ∀ r ∈ exDoubling.rules, ∀ s ∈ r.rhs, ∃ w, exDoubling.Lang s w := by
  have key : ∀ k ≤ 32, ∃ w, Der exDoubling.prod [32 - k] w ∧ ∀ a ∈ w, a = 32 := by
    intro k
    induction k with
    | zero => intro _; exact ⟨[32], .refl _, by simp⟩
    | succ k ih =>
      intro hk
      obtain ⟨w, h1, h2⟩ := ih (by omega)
      refine ⟨w ++ w, Der.trans (.prod (α := [32 - k, 32 - k]) ?_) (Der.append (u₁ := [32 - k]) h1 h1), ?_⟩
      · refine ⟨⟨32 - (k + 1), [32 - k, 32 - k], {}⟩, List.mem_map.2 ⟨32 - (k + 1), ?_, ?_⟩, rfl, rfl⟩
        · simp only [List.mem_range]; omega
        · rw [show 32 - (k + 1) + 1 = 32 - k by omega]
      · intro a ha
        rcases List.mem_append.1 ha with h | h <;> exact h2 a h
  intro r hr s hs
  obtain ⟨i, hi, rfl⟩ := List.mem_map.1 hr
  rw [List.mem_range] at hi
  have hs' : s = i + 1 := by simpa using hs
  subst hs'
  obtain ⟨w, h1, h2⟩ := key (32 - (i + 1)) (by omega)
  rw [show 32 - (32 - (i + 1)) = i + 1 by omega] at h1
  refine ⟨w, inLang_iff.2 ⟨h1, fun a ha => ?_⟩⟩
  rw [h2 a ha]
  decide +kernel

/-- The hypothesis is needed: an unproductive symbol makes release builds panic too. -/
example : (∃ g : Cfg, g.WF ∧ distanceCallsIn .release g [([(0, 2)], .forward)] = .panic) :=
  ⟨{ src := ⟨2, [none, none]⟩, rules := [⟨0, [0, 1], {}⟩] }, by decide, by decide +kernel⟩

end Verif
