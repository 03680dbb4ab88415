import Verif.Props.Generate
import Verif.Proofs.Tactics
import Mathlib.Data.Rat.Floor

/-! # Property C114: retries with a byte source

At a negative rule, `random` goes back and tries again with `mutate_start(attempt)`. The property
asks that what a byte source can choose can also be chosen in a retry. -/

namespace Verif

open Cfg

/-- The bytes that `mix` gives, as numbers. -/
def mixImage : List Nat := (List.range 256).map fun a => (ByteSource.mix (UInt8.ofNat a)).toNat

theorem mix_mem (b : UInt8) : (ByteSource.mix b).toNat ∈ mixImage :=
  List.mem_map.2 ⟨b.toNat, List.mem_range.2 b.toNat_lt, by rw [UInt8.ofNat_toNat]⟩

theorem mixImage_dense : ∀ n < 254, n ∈ mixImage ∨ n + 1 ∈ mixImage ∨ n + 2 ∈ mixImage := by
  decide +kernel

/-- The first number after `mutate_start`, whatever the bytes to come are. -/
theorem retry_generate {W : Type} (scale : Nat → W → W) (s : ByteSource) (n : Nat) (l : W) :
    ∃ s', (ByteSource.genRange scale).generate ((ByteSource.genRange scale).mutateStart s n) l =
      .ok (scale (ByteSource.mix (s.next.1 ^^^ UInt8.ofNat n)).toNat l, s') := by
  simp only [ByteSource.genRange, ByteSource.mixed, List.cons_append]
  exact ⟨_, rfl⟩

/-- Every byte that `mix` gives comes first in one of 256 retries. -/
theorem retry_reaches {W : Type} (scale : Nat → W → W) (s : ByteSource) {b : Nat} (hb : b ∈ mixImage) :
    ∃ n < 256, ∀ l, ∃ s', (ByteSource.genRange scale).generate
      ((ByteSource.genRange scale).mutateStart s n) l = .ok (scale b l, s') := by
  obtain ⟨a, -, rfl⟩ := List.mem_map.1 hb
  refine ⟨(s.next.1 ^^^ UInt8.ofNat a).toNat, UInt8.toNat_lt _, fun l => ?_⟩
  obtain ⟨s', h⟩ := retry_generate scale s (s.next.1 ^^^ UInt8.ofNat a).toNat l
  refine ⟨s', ?_⟩
  rw [h, UInt8.ofNat_toNat, ← UInt8.xor_assoc, UInt8.xor_self, UInt8.zero_xor]

/-- `byte as f64 * limit / 255.0`, without rounding. -/
def byteScale (b : Nat) (l : ℚ) : ℚ := b * l / 255

/-- A weight as a number. -/
def millisWeight (m : Nat) : ℚ := m / 1000

theorem millisWeight_nonneg (m : Nat) : 0 ≤ millisWeight m :=
  div_nonneg (by exact_mod_cast Nat.zero_le m) (by decide +kernel)

theorem cumulative_le (alts : List CfgRule) (k : Nat) :
    cumulative millisWeight alts k ≤ cumulative millisWeight alts (k + 1) := by
  rcases h : alts[k]? with _ | r
  · unfold cumulative
    rw [List.take_add_one, h]
    simp
  · rw [cumulative_succ _ _ _ _ h]
    exact le_add_of_nonneg_right (millisWeight_nonneg _)

theorem cumulative_mono (alts : List CfgRule) {i j : Nat} (h : i ≤ j) :
    cumulative millisWeight alts i ≤ cumulative millisWeight alts j := by
  induction h with
  | refl => exact le_refl _
  | step _ ih => exact le_trans ih (cumulative_le alts _)

/-- **C114**, in part: an alternative with more than three in 255 parts of the weight of its symbol
is chosen in one of the first 256 retries, whatever the state of the byte source is. -/
theorem C114_retries_partial (search : BinarySearch ℚ) (g : Cfg) (A : Sym) (s : ByteSource) (k : Nat)
    (r : CfgRule) (hr : (g.alternatives A)[k]? = some r)
    (hshare : 3 * cumulative millisWeight (g.alternatives A) (g.alternatives A).length <
      255 * millisWeight r.millis) :
    ∃ n < 256, ∃ s', (g.weighted millisWeight).pickRhs search (ByteSource.genRange byteScale) A
      ((ByteSource.genRange byteScale).mutateStart s n) = .ok (r.rhs, s') := by
  have hk : k < (g.alternatives A).length := (List.getElem?_eq_some_iff.1 hr).1
  by_cases hn : 2 ≤ (g.alternatives A).length
  · set alts := g.alternatives A with halts
    set T := cumulative millisWeight alts alts.length with hT
    set lo := cumulative millisWeight alts k with hlo
    have hhi : cumulative millisWeight alts (k + 1) = lo + millisWeight r.millis := cumulative_succ _ _ _ _ hr
    have hle : lo + millisWeight r.millis ≤ T := hhi ▸ cumulative_mono alts hk
    have hlo0 : 0 ≤ lo := cumulative_mono alts (Nat.zero_le k)
    have hw0 := millisWeight_nonneg r.millis
    have hTpos : 0 < T := by
      rcases lt_or_eq_of_le (le_trans (add_nonneg hlo0 hw0) hle) with h | h
      · exact h
      · exfalso
        have h1 : millisWeight r.millis ≤ T := le_trans (le_add_of_nonneg_left hlo0) hle
        rw [← h] at h1 hshare
        have : millisWeight r.millis = 0 := le_antisymm h1 hw0
        rw [this] at hshare
        simp at hshare
    -- the first of three bytes strictly inside
    obtain ⟨m, hm1, hm2⟩ : ∃ m : Nat, 255 * lo / T < (m + 1 : ℚ) ∧ (m : ℚ) ≤ 255 * lo / T :=
      ⟨⌊255 * lo / T⌋₊, Nat.lt_floor_add_one _,
        Nat.floor_le (div_nonneg (mul_nonneg (by decide +kernel) hlo0) (le_of_lt hTpos))⟩
    rw [div_lt_iff₀ hTpos] at hm1
    rw [le_div_iff₀ hTpos] at hm2
    have hin : ∀ b : Nat, m + 1 ≤ b → b ≤ m + 3 → lo < byteScale b T ∧
        byteScale b T < lo + millisWeight r.millis := by
      intro b h1 h2
      have h1' : (m + 1 : ℚ) ≤ b := by exact_mod_cast h1
      have h2' : (b : ℚ) ≤ m + 3 := by exact_mod_cast h2
      have h1'' := mul_le_mul_of_nonneg_right h1' (le_of_lt hTpos)
      have h2'' := mul_le_mul_of_nonneg_right h2' (le_of_lt hTpos)
      have h255 : (0 : ℚ) < 255 := by decide +kernel
      unfold byteScale
      rw [lt_div_iff₀ h255, div_lt_iff₀ h255]
      constructor
      · grind
      · grind
    have hbound : m + 3 < 255 + 1 := by
      have h := (hin (m + 3) (by omega) (Nat.le_refl _)).2
      by_contra hc
      have h1 : (255 : ℚ) ≤ ((m + 3 : Nat) : ℚ) := by exact_mod_cast (by omega : 255 ≤ m + 3)
      have h2 := mul_le_mul_of_nonneg_right h1 (le_of_lt hTpos)
      have h255 : (0 : ℚ) < 255 := by decide +kernel
      unfold byteScale at h
      rw [div_lt_iff₀ h255] at h
      grind
    obtain ⟨b, hb, hb1, hb2⟩ : ∃ b ∈ mixImage, m + 1 ≤ b ∧ b ≤ m + 3 := by
      rcases mixImage_dense (m + 1) (by omega) with h | h | h
      · exact ⟨_, h, by omega, by omega⟩
      · exact ⟨_, h, by omega, by omega⟩
      · exact ⟨_, h, by omega, by omega⟩
    obtain ⟨n, hn256, hgen⟩ := retry_reaches byteScale s hb
    obtain ⟨s', hgen⟩ := hgen T
    obtain ⟨k', r', h1, h2, -, -, h3⟩ := C61_slices search (ByteSource.genRange byteScale) millisWeight
      g A _ s' _ hn hgen fun k _ => cumulative_le _ k
    have := h3 k hk (hin b hb1 hb2).1 (by rw [← halts, hhi]; exact (hin b hb1 hb2).2)
    subst this
    rw [← halts, hr] at h1
    cases h1
    exact ⟨n, hn256, s', h2⟩
  · refine ⟨0, by decide, _, C61_single search _ millisWeight g A _ r ?_⟩
    match h : g.alternatives A, hr, hk, hn with
    | [x], hr, hk, _ =>
      obtain rfl : k = 0 := by simpa using hk
      simpa using hr
    | [], _, hk, _ => simp at hk
    | _ :: _ :: _, _, _, hn => simp at hn

/-- Three alternatives of weights 0.5, 1 and 253.5. -/
def exThin : Cfg :=
  { src := ⟨4, List.replicate 4 none⟩
    rules := [⟨0, [1], { weight := some 500 }⟩, ⟨0, [2], {}⟩, ⟨0, [3], { weight := some 253500 }⟩] }

/-- **C114** does not hold: with the weights 0.5, 1 and 253.5, the byte 1 chooses the second
alternative, but no retry, of whatever number and with whatever bytes to come, does. -/
theorem C114_violated_thin (search : BinarySearch ℚ) :
    (∃ s s', (exThin.weighted millisWeight).pickRhs search (ByteSource.genRange byteScale) 0 s =
      .ok ([2], s')) ∧
    ∀ s n s', (exThin.weighted millisWeight).pickRhs search (ByteSource.genRange byteScale) 0
      ((ByteSource.genRange byteScale).mutateStart s n) ≠ .ok ([2], s') := by
  have hlen : 2 ≤ (exThin.alternatives 0).length := by decide +kernel
  have hT : cumulative millisWeight (exThin.alternatives 0) (exThin.alternatives 0).length = 255 := by
    decide +kernel
  have hsc : ∀ b, byteScale b 255 = b := fun b => by
    unfold byteScale
    exact mul_div_cancel_right₀ _ (by decide +kernel)
  constructor
  · refine ⟨⟨[1], []⟩, ?_⟩
    obtain ⟨k, r, h1, h2, -, -, h3⟩ := C61_slices search (ByteSource.genRange byteScale) millisWeight
      exThin 0 ⟨[1], []⟩ ⟨[], []⟩ 1 hlen (by rw [hT]; decide +kernel) fun k _ => cumulative_le _ k
    have := h3 1 (by decide +kernel) (by decide +kernel) (by decide +kernel)
    subst this
    have h4 : (exThin.alternatives 0)[1]? = some ⟨0, [2], {}⟩ := by decide +kernel
    rw [h4] at h1
    cases h1
    exact ⟨_, h2⟩
  · intro s n s' h
    obtain ⟨s'', hgen⟩ := retry_generate byteScale s n 255
    have hmem := mix_mem (s.next.1 ^^^ UInt8.ofNat n)
    set b := (ByteSource.mix (s.next.1 ^^^ UInt8.ofNat n)).toNat
    rw [hsc] at hgen
    obtain ⟨k, r, h1, h2, h3, h4, -⟩ := C61_slices search (ByteSource.genRange byteScale) millisWeight
      exThin 0 _ s'' _ hlen (by rw [hT]; exact hgen) fun k _ => cumulative_le _ k
    obtain ⟨e, -⟩ := Prod.mk.inj (Res.ok.inj (h.symm.trans h2))
    have hk : k = 1 := by
      have hk3 : k < 3 := (List.getElem?_eq_some_iff.1 h1).1
      have e0 : (exThin.alternatives 0)[0]? = some ⟨0, [1], { weight := some 500 }⟩ := by
        decide +kernel
      have e2 : (exThin.alternatives 0)[2]? = some ⟨0, [3], { weight := some 253500 }⟩ := by
        decide +kernel
      rcases (by omega : k = 0 ∨ k = 1 ∨ k = 2) with rfl | rfl | rfl
      · rw [e0] at h1; cases h1; cases e
      · rfl
      · rw [e2] at h1; cases h1; cases e
    subst hk
    have c1 : cumulative millisWeight (exThin.alternatives 0) 1 = 1 / 2 := by decide +kernel
    have c2 : cumulative millisWeight (exThin.alternatives 0) (1 + 1) = 3 / 2 := by decide +kernel
    rw [c1] at h3
    rw [c2] at h4
    have h3' : (1 / 2 : ℚ) ≤ b := by simpa using h3
    have h4' : (b : ℚ) ≤ 3 / 2 := by
      rcases h4 with h4 | h4
      · exact absurd h4 (by decide +kernel)
      · exact h4
    have hb : b = 1 := by
      rcases Nat.lt_trichotomy b 1 with h | h | h
      · exfalso
        obtain rfl' : b = 0 := by omega
        rw [rfl'] at h3'
        revert h3'
        decide +kernel
      · exact h
      · exfalso
        have : (2 : ℚ) ≤ b := by exact_mod_cast h
        exact absurd (le_trans this h4') (by decide +kernel)
    rw [hb] at hmem
    revert hmem
    decide +kernel

theorem mem_mixImage : ∀ b < 256, b ∈ mixImage ↔ b % 2 = b / 32 % 2 := by decide +kernel

/-- **C114**, in part: a byte can come first in a retry exactly if its lowest bit is that of 32, and
then it does so in one of 256 retries, whatever the state of the byte source is. -/
theorem C114_bytes_partial {W : Type} (scale : Nat → W → W) (s : ByteSource) (l : W) :
    (∀ n, ∃ b < 256, b % 2 = b / 32 % 2 ∧ ∃ s', (ByteSource.genRange scale).generate
      ((ByteSource.genRange scale).mutateStart s n) l = .ok (scale b l, s')) ∧
    ∀ b < 256, b % 2 = b / 32 % 2 → ∃ n < 256, ∃ s', (ByteSource.genRange scale).generate
      ((ByteSource.genRange scale).mutateStart s n) l = .ok (scale b l, s') := by
  refine ⟨fun n => ⟨_, UInt8.toNat_lt _, ?_, retry_generate scale s n l⟩, fun b hb h => ?_⟩
  · exact (mem_mixImage _ (UInt8.toNat_lt _)).1 (mix_mem _)
  · obtain ⟨n, hn, h⟩ := retry_reaches scale s ((mem_mixImage b hb).2 h)
    exact ⟨n, hn, h l⟩

/-- The hypotheses of `C114_retries_partial`: the second of three alternatives, with 2.5 of 4.5. -/
example : (exWeights.alternatives 0)[1]? = some ⟨0, [2], { weight := some 2500 }⟩ ∧
    3 * cumulative millisWeight (exWeights.alternatives 0) (exWeights.alternatives 0).length <
      255 * millisWeight 2500 := by decide +kernel

end Verif
