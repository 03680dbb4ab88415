import Verif.Props.Generate
import Verif.Proofs.Useful
import Mathlib.Data.Fintype.Card
import Mathlib.Data.Fintype.EquivFin

/-! # Property C131: generation with a limit -/

namespace Verif

open Cfg

/-- `A` derives, in at least one step, a string that starts with `A` itself after negative symbols
only. -/
def Cfg.LeftRecursive (g : Cfg) (neg : List NegativeRule) (A : Sym) : Prop :=
  ∃ α ν γ, g.plain neg A α ∧ Derives (g.plain neg) α (ν ++ A :: γ) ∧ ∀ x ∈ ν, g.Negative neg x

/-- The symbol can be worked off without any output. -/
def Cfg.Vanishes (g : Cfg) (neg : List NegativeRule) (s : Sym) : Prop :=
  ∃ ν, Derives (g.plain neg) [s] ν ∧ ∀ x ∈ ν, g.Negative neg x

/-- `B` can come to the front when `A` is worked off. -/
def Cfg.LeftStep (g : Cfg) (neg : List NegativeRule) (A B : Sym) : Prop :=
  ∃ α β, g.plain neg A (α ++ B :: β) ∧ ∀ a ∈ α, g.Vanishes neg a

theorem vanishes_list {g : Cfg} {neg : List NegativeRule} {α : List Sym}
    (h : ∀ a ∈ α, g.Vanishes neg a) :
    ∃ ν, Derives (g.plain neg) α ν ∧ ∀ x ∈ ν, g.Negative neg x := by
  induction α with
  | nil => exact ⟨[], .refl, by simp⟩
  | cons a α ih =>
    obtain ⟨ν, h1, h2⟩ := h a (by simp)
    obtain ⟨μ, h3, h4⟩ := ih fun b hb => h b (by simp [hb])
    refine ⟨ν ++ μ, ?_, ?_⟩
    · rw [derives_iff_der] at h1 h3 ⊢
      exact h1.append h3
    · intro x hx
      rcases List.mem_append.1 hx with hx | hx
      · exact h2 x hx
      · exact h4 x hx

theorem leftStep_trans {g : Cfg} {neg : List NegativeRule} {A B : Sym}
    (h : Relation.TransGen (g.LeftStep neg) A B) :
    ∃ α ν γ, g.plain neg A α ∧ Derives (g.plain neg) α (ν ++ B :: γ) ∧
      ∀ x ∈ ν, g.Negative neg x := by
  have one : ∀ {A B}, g.LeftStep neg A B → ∃ α ν γ, g.plain neg A α ∧
      Derives (g.plain neg) α (ν ++ B :: γ) ∧ ∀ x ∈ ν, g.Negative neg x := by
    rintro A B ⟨α, β, h1, h2⟩
    obtain ⟨ν, h3, h4⟩ := vanishes_list h2
    refine ⟨_, ν, β, h1, ?_, h4⟩
    rw [derives_iff_der] at h3 ⊢
    exact h3.append (Der.refl _)
  induction h with
  | single h => exact one h
  | tail _ h ih =>
    obtain ⟨α, ν, γ, h1, h2, h3⟩ := ih
    obtain ⟨β, μ, δ, k1, k2, k3⟩ := one h
    refine ⟨α, ν ++ μ, δ ++ γ, h1, ?_, ?_⟩
    · rw [derives_iff_der] at h2 k2 ⊢
      have := (Der.refl (P := g.plain neg) ν).append ((Der.expand k1 k2 (Der.refl γ)))
      have := h2.trans this
      simpa using this
    · intro x hx
      rcases List.mem_append.1 hx with hx | hx
      · exact h3 x hx
      · exact k3 x hx

section

variable {R W : Type} [Zero W] [Add W] [LinearOrder W]

/-- What holds of the state of a generator whose symbols are in `U`. -/
structure LimInv (U : Sym → Prop) (l B : Nat) (st : GenState R) : Prop where
  syms : ∀ a ∈ st.work, U a
  short : st.string.length ≤ st.result.length
  lim : st.result.length ≤ l
  states : ∀ q, ∀ b ∈ st.backtracking q, (∀ a ∈ b.prevWork, U a) ∧ b.prevWork.length ≤ B ∧
    q ≤ b.resultLen + b.forbidden.length
  tries : ∀ p, (st.attempts p).getD 0 ≤ 256 * 64

theorem LimInv.mono {U : Sym → Prop} {l B B' : Nat} {st : GenState R} (h : LimInv U l B st)
    (hB : B ≤ B') : LimInv U l B' st :=
  ⟨h.syms, h.short, h.lim, fun q b hb => by
    obtain ⟨h1, h2, h3⟩ := h.states q b hb; exact ⟨h1, by omega, h3⟩, h.tries⟩

/-- The same output, and as many retries. -/
structure SameOut (st st' : GenState R) : Prop where
  result : st'.result = st.result
  string : st'.string = st.string
  tries : ∀ p, (st'.attempts p).getD 0 = (st.attempts p).getD 0

theorem SameOut.refl (st : GenState R) : SameOut st st := ⟨rfl, rfl, fun _ => rfl⟩

theorem SameOut.trans {a b c : GenState R} (h : SameOut a b) (k : SameOut b c) : SameOut a c :=
  ⟨k.result.trans h.result, k.string.trans h.string, fun p => (k.tries p).trans (h.tries p)⟩

variable (search : BinarySearch W) (src : GenRange R W) (ofMillis : Nat → W) (g : Cfg)
  (lim : Limits) (neg : List NegativeRule) (toChar : Sym → R → Option Char × R) (T : BitSet)

/-- The loop is finished after `N` turns. -/
def Fin' (N : Nat) (st : GenState R) : Prop :=
  GenState.run search src (some lim) neg toChar T (g.weighted ofMillis) N st ≠ .diverge

theorem Fin'.mono {N M : Nat} {st : GenState R} (h : Fin' search src ofMillis g lim neg toChar T N st)
    (hM : N ≤ M) : Fin' search src ofMillis g lim neg toChar T M st := by
  obtain ⟨k, rfl⟩ := Nat.le.dest hM
  unfold Fin' at h ⊢
  rw [run_mono _ _ _ _ _ _ _ _ _ h]
  exact h

/-- The symbol `A` in front is gone, or a terminal is in front, after at most `c` turns. -/
def Worked (U : Sym → Prop) (A : Sym) (c : Nat) : Prop :=
  ∀ (B M : Nat) (st : GenState R) (w : List Sym), st.work = A :: w → w.length + c ≤ B →
    LimInv U lim.terminals B st →
    (g.Vanishes neg A → ∀ st' : GenState R, LimInv U lim.terminals B st' → SameOut st st' →
      st'.work = w → Fin' search src ofMillis g lim neg toChar T M st') →
    (∀ (st' : GenState R) sym w', LimInv U lim.terminals B st' → SameOut st st' →
      st'.work = sym :: w' → g.Term sym → w'.length ≤ w.length + c →
      Fin' search src ofMillis g lim neg toChar T M st') →
    Fin' search src ofMillis g lim neg toChar T (c + M) st

variable {search src ofMillis g lim neg toChar T}

theorem Worked.mono {U : Sym → Prop} {A : Sym} {c c' : Nat}
    (h : Worked search src ofMillis g lim neg toChar T U A c) (hc : c ≤ c') :
    Worked search src ofMillis g lim neg toChar T U A c' := by
  intro B M st w hw hB hi k1 k2
  refine (h B M st w hw (by omega) hi k1 fun st' sym w' a1 a2 a3 a4 a5 =>
    k2 st' sym w' a1 a2 a3 a4 (by omega)).mono _ _ _ _ _ _ _ _ (by omega)

/-- A string in front is worked off. -/
theorem Worked.list {U : Sym → Prop} {C : Nat} (β : List Sym)
    (hβ : ∀ α b γ, β = α ++ b :: γ → (∀ a ∈ α, g.Vanishes neg a) →
      Worked search src ofMillis g lim neg toChar T U b C) :
    ∀ (B M : Nat) (st : GenState R) (w : List Sym), st.work = β ++ w →
      w.length + β.length + C ≤ B → LimInv U lim.terminals B st →
      ((∀ a ∈ β, g.Vanishes neg a) → ∀ st' : GenState R, LimInv U lim.terminals B st' →
        SameOut st st' → st'.work = w → Fin' search src ofMillis g lim neg toChar T M st') →
      (∀ (st' : GenState R) sym w', LimInv U lim.terminals B st' → SameOut st st' →
        st'.work = sym :: w' → g.Term sym → w'.length ≤ w.length + β.length + C →
        Fin' search src ofMillis g lim neg toChar T M st') →
      Fin' search src ofMillis g lim neg toChar T (β.length * C + M) st := by
  induction β with
  | nil =>
    intro B M st w hw _ hi k1 _
    rw [List.length_nil, Nat.zero_mul, Nat.zero_add]
    exact k1 (by simp) st hi (SameOut.refl _) hw
  | cons b β ih =>
    intro B M st w hw hB hi k1 k2
    rw [List.length_cons] at hB
    have := hβ [] b β rfl (by simp) B (β.length * C + M) st (β ++ w) hw
      (by rw [List.length_append]; omega) hi
      (fun hv st' hi' hs hw' => ?_) fun st' sym w' a1 a2 a3 a4 a5 => ?_
    · refine this.mono _ _ _ _ _ _ _ _ ?_
      rw [List.length_cons, Nat.succ_mul]
      omega
    · refine ih (fun α c γ e hα => hβ (b :: α) c γ (by rw [e]; rfl) ?_) B M st' w hw' (by omega) hi'
        (fun h st'' hi'' hs' hw'' => k1 ?_ st'' hi'' (hs.trans hs') hw'')
        fun st'' sym w' a1 a2 a3 a4 a5 => k2 st'' sym w' a1 (hs.trans a2) a3 a4
          (by rw [List.length_cons]; omega)
      · intro a ha
        rcases List.mem_cons.1 ha with rfl | ha
        · exact hv
        · exact hα a ha
      · intro a ha
        rcases List.mem_cons.1 ha with rfl | ha
        · exact hv
        · exact h a ha
    · rw [List.length_append] at a5
      exact (k2 st' sym w' a1 a2 a3 a4 (by rw [List.length_cons]; omega)).mono _ _ _ _ _ _ _ _
        (by omega)

variable (hT : ∀ s, s < g.numSyms → BitSet.get T s = .ok (decide (g.Term s)))
  (hsrc : ∀ r v, src.generate r v ≠ .diverge)

theorem Worked.term {U : Sym → Prop} {A : Sym} (hA : g.Term A) :
    Worked search src ofMillis g lim neg toChar T U A 0 := by
  intro B M st w hw hB hi k1 k2
  rw [Nat.zero_add]
  exact k2 st A w hi (SameOut.refl _) hw hA (by omega)

include hT in
theorem Worked.negative {U : Sym → Prop} (hU : ∀ a, U a → a < g.numSyms) {A : Sym}
    (hA : g.Negative neg A) : Worked search src ofMillis g lim neg toChar T U A 1 := by
  intro B M st w hw hB hi k1 k2
  have hAn := hU A (hi.syms A (by rw [hw]; simp))
  obtain ⟨hnt, f, hf⟩ := id hA
  rw [Nat.add_comm]
  unfold Fin' GenState.run
  rw [hw]
  simp only
  unfold GenState.step
  rw [hT A hAn, Res.bind_ok, if_neg (by simpa using hnt), (forbids_iff neg A f).2 hf]
  simp only [Res.bind_ok]
  refine k1 ⟨[A], .refl, by simpa using hA⟩ _ ?_ ⟨rfl, rfl, fun p => ?_⟩ rfl
  · refine ⟨fun a ha => hi.syms a (by rw [hw]; exact List.mem_cons_of_mem _ ha), hi.short, hi.lim,
      fun q b hb => ?_, fun p => ?_⟩
    · unfold GenState.negative at hb
      simp only at hb
      split at hb
      · rename_i hq
        rcases List.mem_append.1 hb with hb | hb
        · exact hi.states q b hb
        · rw [List.mem_singleton.1 hb]
          refine ⟨fun a ha => hi.syms a (by rw [hw]; exact List.mem_cons_of_mem _ ha),
            by simp only; omega, ?_⟩
          have := hi.short
          simp only
          omega
      · exact hi.states q b hb
    · unfold GenState.negative
      simp only
      split
      · exact hi.tries p
      · exact hi.tries p
  · unfold GenState.negative
    simp only
    split <;> rfl

include hT hsrc in
theorem Worked.rule {U : Sym → Prop} (hU : ∀ a, U a → a < g.numSyms)
    (hprod : ∀ A α, g.prod A α → U A → ∀ a ∈ α, U a) {A : Sym} (hnt : ¬ g.Term A)
    (hneg : ¬ g.Negative neg A) {C K : Nat} (hK : ∀ r ∈ g.rules, r.rhs.length ≤ K)
    (hC : ∀ B, g.LeftStep neg A B → Worked search src ofMillis g lim neg toChar T U B C) :
    Worked search src ofMillis g lim neg toChar T U A (1 + K + C + K * C) := by
  intro B M st w hw hB hi k1 k2
  have hUA := hi.syms A (by rw [hw]; simp)
  have hAn := hU A hUA
  have hnm : negativeMap neg A = none := by
    cases h : negativeMap neg A with
    | none => rfl
    | some f => exact absurd ⟨hnt, f, (forbids_iff neg A f).1 h⟩ hneg
  have hne : g.alternatives A ≠ [] := by
    intro e
    refine hnt ⟨hAn, fun r hr e' => ?_⟩
    have : r ∈ g.alternatives A := mem_alternatives.2 ⟨hr, e'⟩
    rw [e] at this
    simp at this
  suffices h : Fin' search src ofMillis g lim neg toChar T ((K * C + M) + 1) st from
    h.mono _ _ _ _ _ _ _ _ (by omega)
  unfold Fin' GenState.run
  rw [hw]
  simp only
  unfold GenState.step
  rw [hT A hAn, Res.bind_ok, if_neg (by simpa using hnt), hnm]
  simp only
  rcases pickRhs_mem search src ofMillis g A st.rng hne with
    ⟨r, rng', hr, hp⟩ | ⟨hp, l, hl⟩ | ⟨hp, l, hl⟩
  · rw [hp]
    simp only [Res.bind_ok]
    obtain ⟨hr1, hr2⟩ := mem_alternatives.1 hr
    have hpr : g.prod A r.rhs := ⟨r, hr1, hr2, rfl⟩
    have hlen := hK r hr1
    have hmul : r.rhs.length * C ≤ K * C := Nat.mul_le_mul_right _ hlen
    refine Fin'.mono _ _ _ _ _ _ _ _ (N := r.rhs.length * C + M) ?_ (by omega)
    refine Worked.list (U := U) r.rhs (fun α b γ e hα => hC b ⟨α, γ, ⟨e ▸ hpr, hneg⟩, hα⟩) B M _ w rfl
      (by omega) ⟨?_, hi.short, hi.lim, hi.states, hi.tries⟩ (fun hv st' hi' hs hw' => ?_)
      fun st' sym w' a1 a2 a3 a4 a5 => ?_
    · intro a ha
      rcases List.mem_append.1 ha with ha | ha
      · exact hprod A _ hpr hUA a ha
      · exact hi.syms a (by rw [hw]; exact List.mem_cons_of_mem _ ha)
    · refine k1 ?_ st' hi' ⟨hs.result, hs.string, hs.tries⟩ hw'
      obtain ⟨ν, h1, h2⟩ := vanishes_list hv
      exact ⟨ν, (Derives.prod ⟨hpr, hneg⟩).trans h1, h2⟩
    · exact k2 st' sym w' a1 ⟨a2.result, a2.string, a2.tries⟩ a3 a4 (by omega)
  · rw [hp]; simp
  · exact absurd hl (hsrc _ _)

/-- The retries left at the first `n` positions. -/
def retries (st : GenState R) : Nat → Nat
  | 0 => 0
  | n + 1 => retries st n + (256 * 64 - (st.attempts n).getD 0)

theorem retries_congr {st st' : GenState R}
    (h : ∀ p, (st'.attempts p).getD 0 = (st.attempts p).getD 0) (n : Nat) :
    retries st' n = retries st n := by
  induction n with
  | zero => rfl
  | succ n ih => unfold retries; rw [ih, h]

theorem retries_attempts {st st' : GenState R} (h : st'.attempts = st.attempts) (n : Nat) :
    retries st' n = retries st n := retries_congr (fun p => by rw [h]) n

theorem retries_le (st : GenState R) (n : Nat) : retries st n ≤ n * (256 * 64) := by
  induction n with
  | zero => exact Nat.zero_le _
  | succ n ih => unfold retries; omega

theorem retries_lt {st st' : GenState R} {p n : Nat} (hp : p < n)
    (h : ∀ q, q ≠ p → (st'.attempts q).getD 0 = (st.attempts q).getD 0)
    (h' : (st.attempts p).getD 0 < (st'.attempts p).getD 0)
    (h'' : (st'.attempts p).getD 0 ≤ 256 * 64) : retries st' n < retries st n := by
  have key : ∀ m, m ≤ p → retries st' m = retries st m := by
    intro m
    induction m with
    | zero => intro _; rfl
    | succ m ih =>
      intro hm
      unfold retries
      rw [ih (by omega), h m (by omega)]
  induction n with
  | zero => omega
  | succ n ih =>
    unfold retries
    by_cases e : p = n
    · subst e
      rw [key p (Nat.le_refl _)]
      omega
    · have := ih (by omega)
      rw [h n (fun e' => e e'.symm)]
      omega

omit [Zero W] [Add W] [LinearOrder W] in
/-- The loop over the states of a position keeps the invariant; either nothing changes, or there are
fewer retries left. -/
theorem backtrack_inv {U : Sym → Prop} {l B q : Nat} (src : GenRange R W) :
    ∀ (bs : List (BacktrackState R)) (st : GenState R), LimInv U l B st → st.work.length ≤ B →
      st.string.length ≤ q →
      (∀ b ∈ bs, (∀ a ∈ b.prevWork, U a) ∧ b.prevWork.length ≤ B ∧
        q ≤ b.resultLen + b.forbidden.length) →
      GenState.backtrack src bs st ≠ .diverge ∧
      ∀ st', GenState.backtrack src bs st = .ok (.ok st') →
        st' = st ∨ (LimInv U l B st' ∧ st'.work.length ≤ B ∧
          retries st' (l + 1) < retries st (l + 1)) := by
  intro bs
  induction bs with
  | nil =>
    intro st _ _ _ _
    unfold GenState.backtrack
    refine ⟨by simp, fun st' h => ?_⟩
    cases h
    exact .inl rfl
  | cons b bs ih =>
    intro st hi hw hq hbs
    obtain ⟨b1, b2, b3⟩ := hbs b (by simp)
    unfold GenState.backtrack
    split
    · rename_i hsuf
      simp only
      have hlen := hsuf.length_le
      generalize hs : List.take (st.string.length - b.forbidden.length) st.string = s
      have hsl : s.length = st.string.length - b.forbidden.length := by rw [← hs]; simp
      cases ha : st.attempts s.length with
      | none => exact ⟨by simp, fun st' h => by cases h⟩
      | some n =>
        simp only
        split
        · exact ⟨by simp, fun st' h => by cases h⟩
        · rename_i hn
          have h1 := hi.short
          have h2 := hi.lim
          have hi' : LimInv U l B ({ rng := src.mutateStart b.rng n, string := s
                                     result := st.result.take b.resultLen, work := b.prevWork
                                     backtracking := st.backtracking
                                     attempts := fun p => if p = s.length then some (n + 1) else
                                       st.attempts p } : GenState R) := by
            refine ⟨b1, ?_, ?_, hi.states, fun p => ?_⟩
            · simp only [List.length_take]; omega
            · simp only [List.length_take]; omega
            · simp only
              split
              · simp only [Option.getD_some]; omega
              · exact hi.tries p
          have hlt : retries ({ rng := src.mutateStart b.rng n, string := s
                                result := st.result.take b.resultLen, work := b.prevWork
                                backtracking := st.backtracking
                                attempts := fun p => if p = s.length then some (n + 1) else
                                  st.attempts p } : GenState R) (l + 1) < retries st (l + 1) := by
            refine retries_lt (p := s.length) (by omega) (fun p hp => ?_) ?_ ?_
            · simp only; rw [if_neg hp]
            · simp only [if_pos, ha, Option.getD_some]; omega
            · simp only [if_pos, Option.getD_some]; omega
          obtain ⟨k1, k2⟩ := ih _ hi' b2 (by simp only; omega) fun c hc => hbs c (by simp [hc])
          refine ⟨k1, fun st' h => ?_⟩
          rcases k2 st' h with rfl | ⟨k3, k4, k5⟩
          · exact .inr ⟨hi', b2, hlt⟩
          · exact .inr ⟨k3, k4, by omega⟩
    · exact ih st hi hw hq fun c hc => hbs c (by simp [hc])

include hT hsrc in
/-- Every symbol in `U` is worked off in bounded time. -/
theorem worked_all {U : Sym → Prop} (hU : ∀ a, U a → a < g.numSyms)
    (hprod : ∀ A α, g.prod A α → U A → ∀ a ∈ α, U a)
    (hno : ∀ A, U A → ¬ g.LeftRecursive neg A) :
    ∃ C, ∀ A, U A → Worked search src ofMillis g lim neg toChar T U A C := by
  classical
  obtain ⟨K, hK⟩ : ∃ K, ∀ r ∈ g.rules, r.rhs.length ≤ K := by
    clear hT hprod hno
    induction g.rules with
    | nil => exact ⟨0, by simp⟩
    | cons r l ih =>
      obtain ⟨K, hK⟩ := ih
      refine ⟨K + r.rhs.length, fun q hq => ?_⟩
      rcases List.mem_cons.1 hq with rfl | hq
      · omega
      · have := hK q hq; omega
  have unif : ∀ (p : Sym → Prop), (∀ A, p A → A < g.numSyms) →
      (∀ A, p A → ∃ C, Worked search src ofMillis g lim neg toChar T U A C) →
      ∃ C, ∀ A, p A → Worked search src ofMillis g lim neg toChar T U A C := by
    intro p hp h
    have : ∀ n, ∃ C, ∀ A, A < n → p A → Worked search src ofMillis g lim neg toChar T U A C := by
      intro n
      induction n with
      | zero => exact ⟨0, fun A hA => by omega⟩
      | succ n ih =>
        obtain ⟨C, hC⟩ := ih
        by_cases hpn : p n
        · obtain ⟨D, hD⟩ := h n hpn
          refine ⟨C + D, fun A hA hpA => ?_⟩
          by_cases e : A = n
          · subst e; exact hD.mono (by omega)
          · exact (hC A (by omega) hpA).mono (by omega)
        · refine ⟨C, fun A hA hpA => hC A ?_ hpA⟩
          have : A ≠ n := fun e => hpn (e ▸ hpA)
          omega
    obtain ⟨C, hC⟩ := this g.numSyms
    exact ⟨C, fun A hA => hC A (hp A hA) hA⟩
  have hUstep : ∀ {A B}, g.LeftStep neg A B → U A → U B := by
    rintro A B ⟨α, β, h, -⟩ hA
    exact hprod A _ h.1 hA B (by simp)
  -- the relation is well-founded on `U`
  have hwfnd : WellFounded fun (b a : {a // U a}) =>
      Relation.TransGen (g.LeftStep neg) a.1 b.1 := by
    have hf : Finite {a // U a} :=
      Finite.of_injective (fun a : {a // U a} => (⟨a.1, hU a.1 a.2⟩ : Fin g.numSyms)) fun a b e => by
        have := congrArg Fin.val e
        exact Subtype.ext this
    have i1 : IsTrans {a // U a} fun b a => Relation.TransGen (g.LeftStep neg) a.1 b.1 :=
      ⟨fun a b c h k => k.trans h⟩
    have i2 : Std.Irrefl fun (b a : {a // U a}) => Relation.TransGen (g.LeftStep neg) a.1 b.1 :=
      ⟨fun a h => by
        obtain ⟨α, ν, γ, k⟩ := leftStep_trans h
        exact hno a.1 a.2 ⟨α, ν, γ, k⟩⟩
    exact Finite.wellFounded_of_trans_of_irrefl _
  have all : ∀ a : {a // U a}, ∃ C, Worked search src ofMillis g lim neg toChar T U a.1 C := by
    intro a
    induction a using hwfnd.induction with
    | _ a ih =>
      by_cases ht : g.Term a.1
      · exact ⟨0, Worked.term ht⟩
      by_cases hn : g.Negative neg a.1
      · exact ⟨1, Worked.negative hT hU hn⟩
      obtain ⟨C, hC⟩ := unif (fun B => g.LeftStep neg a.1 B)
        (fun B h => hU B (hUstep h a.2))
        (fun B h => ih ⟨B, hUstep h a.2⟩ (.single h))
      exact ⟨_, Worked.rule hT hsrc hU hprod ht hn hK hC⟩
  exact unif U hU fun A hA => all ⟨A, hA⟩

include hT hsrc in
/-- The loop returns within a number of turns that depends on sizes only. -/
theorem loop_returns {U : Sym → Prop} (hU : ∀ a, U a → a < g.numSyms)
    (hprod : ∀ A α, g.prod A α → U A → ∀ a ∈ α, U a)
    (hno : ∀ A, U A → ¬ g.LeftRecursive neg A) :
    ∀ (m o B : Nat), ∃ N, ∀ st : GenState R, LimInv U lim.terminals B st → st.work.length ≤ B →
      retries st (lim.terminals + 1) ≤ m → lim.terminals - st.result.length ≤ o →
      Fin' search src ofMillis g lim neg toChar T N st := by
  obtain ⟨C, hC⟩ := worked_all (search := search) (ofMillis := ofMillis) (lim := lim)
    (toChar := toChar) hT hsrc hU hprod hno
  intro m
  induction m using Nat.strongRecOn with
  | _ m ihm =>
    intro o
    induction o using Nat.strongRecOn with
    | _ o iho =>
      intro B
      obtain ⟨N1, hN1⟩ : ∃ N1, 0 < m → ∀ st : GenState R, LimInv U lim.terminals (B + C) st →
          st.work.length ≤ B + C → retries st (lim.terminals + 1) ≤ m - 1 →
          Fin' search src ofMillis g lim neg toChar T N1 st := by
        by_cases hm : 0 < m
        · obtain ⟨N, hN⟩ := ihm (m - 1) (by omega) lim.terminals (B + C)
          exact ⟨N, fun _ st h1 h2 h3 => hN st h1 h2 h3 (by omega)⟩
        · exact ⟨0, fun h => absurd h hm⟩
      obtain ⟨N2, hN2⟩ : ∃ N2, 0 < o → ∀ st : GenState R, LimInv U lim.terminals (B + C) st →
          st.work.length ≤ B + C → retries st (lim.terminals + 1) ≤ m →
          lim.terminals - st.result.length ≤ o - 1 →
          Fin' search src ofMillis g lim neg toChar T N2 st := by
        by_cases ho : 0 < o
        · obtain ⟨N, hN⟩ := iho (o - 1) (by omega) (B + C)
          exact ⟨N, fun _ => hN⟩
        · exact ⟨0, fun h => absurd h ho⟩
      refine ⟨B * C + (N1 + N2 + 1), fun st hi hw hm ho => ?_⟩
      have hmul : st.work.length * C ≤ B * C := Nat.mul_le_mul_right _ hw
      refine Fin'.mono _ _ _ _ _ _ _ _ (N := st.work.length * C + (N1 + N2 + 1)) ?_ (by omega)
      refine Worked.list (U := U) st.work (fun α b γ e _ => hC b (hi.syms b (by rw [e]; simp)))
        (B + C) (N1 + N2 + 1) st [] (by simp) (by simp; omega) (hi.mono (by omega))
        (fun _ st' _ _ hw' => ?_) fun st' sym w' hi' hs hw' ht hl => ?_
      · unfold Fin' GenState.run
        rw [hw']
        simp
      · have hsym := hU sym (hi'.syms sym (by rw [hw']; simp))
        unfold Fin' GenState.run
        rw [hw']
        simp only
        unfold GenState.step
        rw [hT sym hsym, Res.bind_ok, if_pos (by simpa using ht)]
        unfold GenState.terminal
        simp only
        split
        · simp
        rename_i hlim
        simp only [Option.any_some, decide_eq_true_eq, List.length_append, List.length_cons,
          List.length_nil] at hlim hl
        generalize (toChar sym st'.rng).1 = c
        generalize (toChar sym st'.rng).2 = rng'
        have hc : c.toList.length ≤ 1 := by cases c <;> simp
        have hsh := hi'.short
        have hi2 : LimInv U lim.terminals (B + C)
            ({ work := w', result := st'.result ++ [sym], string := st'.string ++ c.toList
               rng := rng', backtracking := st'.backtracking, attempts := st'.attempts } :
              GenState R) := by
          refine ⟨fun a ha => hi'.syms a (by rw [hw']; exact List.mem_cons_of_mem _ ha), ?_, ?_,
            hi'.states, hi'.tries⟩
          · simp only [List.length_append, List.length_cons, List.length_nil]; omega
          · simp only [List.length_append, List.length_cons, List.length_nil]; omega
        obtain ⟨k1, k2⟩ := backtrack_inv src (st'.backtracking (st'.string ++ c.toList).length) _ hi2
          (by simp only; omega) (Nat.le_refl _) fun b hb => hi'.states _ b hb
        cases hb : GenState.backtrack src (st'.backtracking (st'.string ++ c.toList).length)
            ({ work := w', result := st'.result ++ [sym], string := st'.string ++ c.toList
               rng := rng', backtracking := st'.backtracking, attempts := st'.attempts } :
              GenState R) with
        | diverge => exact absurd hb k1
        | panic => simp
        | ok x =>
          cases x with
          | error e => simp
          | ok st3 =>
            simp only [Res.bind_ok]
            have hr : retries st' (lim.terminals + 1) = retries st (lim.terminals + 1) :=
              retries_congr hs.tries _
            rcases k2 st3 hb with rfl | ⟨j1, j2, j3⟩
            · refine Fin'.mono _ _ _ _ _ _ _ _ (hN2 ?_ _ hi2 (by simp only; omega) ?_ ?_)
                (by omega : N2 ≤ N1 + N2)
              · rw [← hs.result] at ho
                omega
              · rw [← hr] at hm
                exact Nat.le_trans (Nat.le_of_eq (retries_attempts (st := st') (by rfl) _)) hm
              · rw [← hs.result] at ho
                simp only [List.length_append, List.length_cons, List.length_nil]
                omega
            · have j4 : retries ({ work := w', result := st'.result ++ [sym]
                                   string := st'.string ++ c.toList, rng := rng'
                                   backtracking := st'.backtracking, attempts := st'.attempts } :
                  GenState R) (lim.terminals + 1) = retries st (lim.terminals + 1) :=
                (retries_attempts (st := st') (by rfl) _).trans hr
              refine Fin'.mono _ _ _ _ _ _ _ _ (hN1 ?_ _ j1 j2 ?_) (by omega : N1 ≤ N1 + N2)
              · omega
              · omega

end

/-- **C131, the part that holds**: with a limit and a source that returns, `random` returns, within
a number of turns that does not depend on the random numbers, if no symbol that can be reached is
left recursive. Missing: left recursive grammars (`C131_violated`); `C131_left_recursion` shows that
the condition is needed. -/
theorem C131_returns_partial {R W : Type} [Zero W] [Add W] [LinearOrder W]
    (search : BinarySearch W) (ofMillis : Nat → W) (src : GenRange R W) {g : Cfg}
    (hwf : g.WF) {start : Sym} (hstart : start < g.numSyms) (lim : Limits)
    (neg : List NegativeRule) (toChar : Sym → R → Option Char × R)
    (hsrc : ∀ r v, src.generate r v ≠ .diverge)
    (hno : ∀ A, Reaches g.prod start A → ¬ g.LeftRecursive neg A) :
    ∃ N, ∀ rng, g.random search ofMillis src start (some lim) rng neg toChar N ≠ .diverge := by
  obtain ⟨T, hT1, hT2, hT3⟩ := BitSet.terminal_spec hwf
  have hT : ∀ s, s < g.numSyms → BitSet.get T s = .ok (decide (g.Term s)) := by
    intro s hs
    unfold BitSet.get
    rw [Res.index_lt (by rw [hT2]; exact hs)]
    congr 1
    have := hT3 s
    unfold Has at this
    rw [List.getElem?_eq_getElem (by rw [hT2]; exact hs), Option.some.injEq] at this
    rw [Bool.eq_iff_iff, this, decide_eq_true_eq]
  have hprod : ∀ A α, g.prod A α → Reaches g.prod start A → ∀ a ∈ α, Reaches g.prod start a :=
    fun A α hp hA a ha => hA.tail hp ha
  have hU : ∀ a, Reaches g.prod start a → a < g.numSyms := fun a ha => reaches_lt hwf hstart ha
  obtain ⟨N, hN⟩ := loop_returns (search := search) (src := src) (ofMillis := ofMillis) (lim := lim)
    (toChar := toChar) hT hsrc hU hprod hno ((lim.terminals + 1) * (256 * 64)) lim.terminals 1
  refine ⟨N, fun rng => ?_⟩
  unfold Cfg.random Cfg.terminalSymbols
  rw [hT1, Res.bind_ok]
  refine hN _ ⟨?_, Nat.le_refl _, Nat.zero_le _, ?_, ?_⟩ (Nat.le_refl _) (retries_le _ _) (by simp)
  · intro a ha
    rw [List.mem_singleton.1 ha]
    exact Reaches.refl _
  · intro q b hb; simp at hb
  · intro p; simp

/-! ## Left recursive grammars -/

section

variable {W : Type} [Zero W] [Add W] [LinearOrder W]

/-- A choice can be made. -/
theorem scripted_pick (search : BinarySearch W) (ofMillis : Nat → W) {g : Cfg}
    (hgap : ∀ A k, k < (g.alternatives A).length → ∃ v,
      cumulative ofMillis (g.alternatives A) k < v ∧
      v < cumulative ofMillis (g.alternatives A) (k + 1)) {A : Sym} {α : List Sym}
    (hp : g.prod A α) :
    ∃ s0, ∀ script', (g.weighted ofMillis).pickRhs search scripted A (s0 ++ script')
        = .ok (α, script') := by
  obtain ⟨r, hr, e1, e2⟩ := hp
  have hmem : r ∈ g.alternatives A := mem_alternatives.2 ⟨hr, e1⟩
  obtain ⟨k, hk⟩ := List.mem_iff_getElem?.1 hmem
  have hkl : k < (g.alternatives A).length := (List.getElem?_eq_some_iff.1 hk).1
  have hne : g.alternatives A ≠ [] := by intro e; rw [e] at hmem; simp at hmem
  by_cases hn : 2 ≤ (g.alternatives A).length
  · obtain ⟨v, hv1, hv2⟩ := hgap A k hkl
    have hmono : ∀ k < (g.alternatives A).length, cumulative ofMillis (g.alternatives A) k ≤
        cumulative ofMillis (g.alternatives A) (k + 1) := by
      intro k hk
      obtain ⟨v, h1, h2⟩ := hgap A k hk
      exact le_of_lt (lt_trans h1 h2)
    have mono := mono_of_steps _ _ hmono
    refine ⟨[v], fun script' => ?_⟩
    obtain ⟨k', r', h1, h2, -, -, h5⟩ := pick_slice search scripted ofMillis g A
      ([v] ++ script') script' v hn (by
        show (if _ then _ else _) = _
        have h0 : 0 ≤ v := le_of_lt
          (lt_of_le_of_lt (mono 0 k (Nat.zero_le _) (by omega)) hv1)
        rw [if_pos ⟨h0, lt_of_lt_of_le hv2 (mono _ _ hkl (le_refl _))⟩]
        rfl) hmono
    have := h5 k hkl hv1 hv2
    rw [← this, hk] at h1
    rw [h2, ← Option.some.inj h1, e2]
  · refine ⟨[], fun script' => ?_⟩
    obtain ⟨r', h1, h2⟩ | ⟨h1, -⟩ := pickRhs_spec search scripted ofMillis g A ([] ++ script') hne
    · rw [h1] at hmem
      rw [h2, ← List.mem_singleton.1 hmem, e2]
      rfl
    · exact absurd h1 hn

variable (search : BinarySearch W) (ofMillis : Nat → W) {g : Cfg} (hwf : g.WF)
  (limit : Option Limits) (char : Sym → Option Char)
  (hgap : ∀ A k, k < (g.alternatives A).length → ∃ v,
    cumulative ofMillis (g.alternatives A) k < v ∧
    v < cumulative ofMillis (g.alternatives A) (k + 1))
  (T : BitSet) (hT : ∀ s, s < g.numSyms → BitSet.get T s = .ok (decide (g.Term s)))

include hwf hgap hT

/-- The turn of a choice. -/
theorem run_choice {A : Sym} {α : List Sym} (hp : g.prod A α) :
    ∃ s0, ∀ rest result string script' (fuel : Nat),
      GenState.run search scripted limit [] (fun s r => (char s, r)) T (g.weighted ofMillis)
        (fuel + 1) { work := A :: rest, result := result, string := string
                     rng := s0 ++ script', backtracking := fun _ => []
                     attempts := fun _ => none } =
      GenState.run search scripted limit [] (fun s r => (char s, r)) T (g.weighted ofMillis) fuel
        { work := α ++ rest, result := result, string := string
          rng := script', backtracking := fun _ => [], attempts := fun _ => none } := by
  obtain ⟨s0, h0⟩ := scripted_pick search ofMillis hgap hp
  obtain ⟨r, hr, e1, e2⟩ := hp
  have hA : ¬ g.Term A := fun h => h.2 r hr e1
  have hAn : A < g.numSyms := e1 ▸ (hwf r hr).1
  refine ⟨s0, fun rest result string script' fuel => ?_⟩
  conv_lhs => unfold GenState.run
  simp only
  unfold GenState.step
  rw [hT A hAn, Res.bind_ok, if_neg (by simpa using hA)]
  simp only [negativeMap, List.reverse_nil, List.find?_nil, Option.map_none]
  rw [h0, Res.bind_ok]
  simp only [Res.bind_ok]

/-- A derivation with the terminals `w` before `A` is a run that brings `A` to the front. -/
theorem run_front {A : Sym} {u x : List Sym} (hd : Der g.prod u x) :
    ∀ w γ, x = w ++ A :: γ → (∀ a ∈ w, g.Term a) →
    ∃ script n γ', ∀ rest result string script' (fuel : Nat),
      (∀ l, limit = some l → result.length + w.length ≤ l.terminals) →
      GenState.run search scripted limit [] (fun s r => (char s, r)) T (g.weighted ofMillis)
        (n + fuel) { work := u ++ rest, result := result, string := string
                     rng := script ++ script', backtracking := fun _ => []
                     attempts := fun _ => none } =
      GenState.run search scripted limit [] (fun s r => (char s, r)) T (g.weighted ofMillis) fuel
        { work := A :: (γ' ++ rest), result := result ++ w, string := string ++ w.filterMap char
          rng := script', backtracking := fun _ => [], attempts := fun _ => none } := by
  induction hd with
  | nil => intro w γ e; simp at e
  | @keep a u x h ih =>
    intro w γ e hw
    rcases w with _ | ⟨b, w⟩
    · obtain ⟨rfl, rfl⟩ := List.cons.inj e
      exact ⟨[], 0, u, by intros; simp⟩
    · obtain ⟨rfl, rfl⟩ := List.cons.inj e
      obtain ⟨s1, n1, k1⟩ := run_der search ofMillis hwf limit char hgap T hT
        (Der.refl (P := g.prod) [a]) (by simpa using hw a (by simp))
      obtain ⟨s2, n2, γ', k2⟩ := ih w γ rfl fun b hb => hw b (by simp [hb])
      refine ⟨s1 ++ s2, n1 + n2, γ', fun rest result string script' fuel hl => ?_⟩
      have := k1 (u ++ rest) result string (s2 ++ script') (n2 + fuel) (by
        intro l e
        have := hl l e
        simp only [List.length_cons, List.length_nil] at this ⊢
        omega)
      rw [Nat.add_assoc, List.append_assoc]
      refine this.trans ?_
      rw [k2 rest (result ++ [a]) _ script' fuel (by
        intro l e
        have := hl l e
        simp only [List.length_append, List.length_cons, List.length_nil] at this ⊢
        omega)]
      congr 2
      · simp
      · rw [List.append_assoc]
        congr 1
        cases hc : char a <;> simp [hc]
  | @expand B α v₁ u v₂ hp h₁ h₂ ih₁ ih₂ =>
    intro w γ e hw
    obtain ⟨s0, k0⟩ := run_choice search ofMillis hwf limit char hgap T hT hp
    have later : ∀ w', w = v₁ ++ w' → v₂ = w' ++ A :: γ →
        ∃ script n γ', ∀ rest result string script' (fuel : Nat),
          (∀ l, limit = some l → result.length + w.length ≤ l.terminals) →
          GenState.run search scripted limit [] (fun s r => (char s, r)) T (g.weighted ofMillis)
            (n + fuel) { work := B :: u ++ rest, result := result, string := string
                         rng := script ++ script', backtracking := fun _ => []
                         attempts := fun _ => none } =
          GenState.run search scripted limit [] (fun s r => (char s, r)) T (g.weighted ofMillis)
            fuel { work := A :: (γ' ++ rest), result := result ++ w
                   string := string ++ w.filterMap char
                   rng := script', backtracking := fun _ => [], attempts := fun _ => none } := by
      rintro w' rfl rfl
      obtain ⟨s1, n1, k1⟩ := run_der search ofMillis hwf limit char hgap T hT h₁
        fun b hb => hw b (by simp [hb])
      obtain ⟨s2, n2, γ', k2⟩ := ih₂ w' γ rfl fun b hb => hw b (by simp [hb])
      refine ⟨s0 ++ (s1 ++ s2), n1 + n2 + 1, γ', fun rest result string script' fuel hl => ?_⟩
      rw [show n1 + n2 + 1 + fuel = (n1 + (n2 + fuel)) + 1 by omega, List.append_assoc,
        List.append_assoc, List.cons_append, k0,
        k1 (u ++ rest) result string _ _ (by
          intro l e
          have := hl l e
          rw [List.length_append] at this
          omega),
        k2 rest (result ++ v₁) _ script' fuel (by
          intro l e
          have := hl l e
          rw [List.length_append] at this ⊢
          omega)]
      simp
    rcases List.append_eq_append_iff.1 e with ⟨c, e1, e2⟩ | ⟨c, e1, e2⟩
    · exact later c e1 e2
    · rcases c with _ | ⟨b, c⟩
      · exact later [] (by simpa using e1.symm) (by simpa using e2.symm)
      · obtain ⟨rfl, rfl⟩ := List.cons.inj e2
        obtain ⟨s1, n1, γ', k1⟩ := ih₁ w c e1 hw
        refine ⟨s0 ++ s1, n1 + 1, γ' ++ u, fun rest result string script' fuel hl => ?_⟩
        rw [show n1 + 1 + fuel = (n1 + fuel) + 1 by omega, List.append_assoc, List.cons_append, k0,
          k1 (u ++ rest) result string _ _ hl]
        simp

/-- A left recursive symbol in front can stay there. -/
theorem run_loop {A : Sym} (hA : g.LeftRecursive [] A) (k : Nat) :
    ∃ script, ∀ rest result string script',
      (∀ l, limit = some l → result.length ≤ l.terminals) →
      GenState.run search scripted limit [] (fun s r => (char s, r)) T (g.weighted ofMillis) k
        { work := A :: rest, result := result, string := string
          rng := script ++ script', backtracking := fun _ => []
          attempts := fun _ => none } = .diverge := by
  obtain ⟨α, ν, γ, ⟨hp, -⟩, hd, hν⟩ := hA
  have : ν = [] := by
    rcases ν with _ | ⟨x, ν⟩
    · rfl
    · exact absurd (hν x (by simp)) (negative_nil g x)
  subst this
  have hd' : Der g.prod α ([] ++ A :: γ) := (derives_iff_der.1 hd).mono fun _ _ h => h.1
  obtain ⟨s0, k0⟩ := run_choice search ofMillis hwf limit char hgap T hT hp
  obtain ⟨s1, n, γ', k1⟩ := run_front search ofMillis hwf limit char hgap T hT hd' [] γ rfl
    (by simp)
  have key : ∀ k, ∃ script, ∀ rest result string script',
      (∀ l, limit = some l → result.length ≤ l.terminals) →
      GenState.run search scripted limit [] (fun s r => (char s, r)) T (g.weighted ofMillis)
        (k * (n + 1))
        { work := A :: rest, result := result, string := string
          rng := script ++ script', backtracking := fun _ => []
          attempts := fun _ => none } = .diverge := by
    intro k
    induction k with
    | zero => exact ⟨[], fun rest result string script' hl => by rw [Nat.zero_mul]; rfl⟩
    | succ k ih =>
      obtain ⟨s2, k2⟩ := ih
      refine ⟨s0 ++ (s1 ++ s2), fun rest result string script' hl => ?_⟩
      rw [show (k + 1) * (n + 1) = (n + k * (n + 1)) + 1 by rw [Nat.succ_mul]; omega,
        List.append_assoc, List.append_assoc, k0, k1 rest result string _ _ (by simpa using hl),
        k2 _ _ _ _ (by simpa using hl)]
  obtain ⟨script, h⟩ := key k
  refine ⟨script, fun rest result string script' hl => ?_⟩
  by_contra hc
  have := run_mono _ _ _ _ _ _ _ _ _ hc (k * n)
  rw [show k + k * n = k * (n + 1) by rw [Nat.mul_succ]; omega, h _ _ _ _ hl] at this
  exact hc this.symm

end

/-- **C131**, the condition is needed: if a left recursive symbol can come to the front after at
most as many terminals as the limit allows, random numbers make `random` run for any number of
turns. -/
theorem C131_left_recursion {W : Type} [Zero W] [Add W] [LinearOrder W] (search : BinarySearch W)
    (ofMillis : Nat → W) {g : Cfg} (hwf : g.WF)
    (hgap : ∀ A k, k < (g.alternatives A).length → ∃ v,
      cumulative ofMillis (g.alternatives A) k < v ∧
      v < cumulative ofMillis (g.alternatives A) (k + 1))
    (char : Sym → Option Char) (limit : Option Limits) {start A : Sym} {w γ : List Sym}
    (hd : Derives g.prod [start] (w ++ A :: γ)) (hw : ∀ a ∈ w, g.Term a)
    (hl : ∀ l, limit = some l → w.length ≤ l.terminals) (hA : g.LeftRecursive [] A) (N : Nat) :
    ∃ script, g.random search ofMillis scripted start limit script [] (fun s r => (char s, r)) N
      = .diverge := by
  obtain ⟨T, hT1, hT2, hT3⟩ := BitSet.terminal_spec hwf
  have hT : ∀ s, s < g.numSyms → BitSet.get T s = .ok (decide (g.Term s)) := by
    intro s hs
    unfold BitSet.get
    rw [Res.index_lt (by rw [hT2]; exact hs)]
    congr 1
    have := hT3 s
    unfold Has at this
    rw [List.getElem?_eq_getElem (by rw [hT2]; exact hs), Option.some.injEq] at this
    rw [Bool.eq_iff_iff, this, decide_eq_true_eq]
  obtain ⟨s1, n, γ', k1⟩ := run_front search ofMillis hwf limit char hgap T hT
    (derives_iff_der.1 hd) w γ rfl hw
  obtain ⟨s2, k2⟩ := run_loop search ofMillis hwf limit char hgap T hT hA N
  refine ⟨s1 ++ s2, ?_⟩
  unfold Cfg.random Cfg.terminalSymbols
  rw [hT1, Res.bind_ok]
  have h1 := k1 [] [] [] (s2 ++ []) N (by simpa using hl)
  rw [k2 _ _ _ _ (by simpa using hl)] at h1
  simp only [List.append_nil] at h1
  by_contra hc
  have := run_mono _ _ _ _ _ _ _ _ _ hc n
  rw [Nat.add_comm] at this
  exact hc (this.symm.trans h1)

/-- `S ::= S a | a`. -/
def exLeftAdd : Cfg :=
  { src := ⟨2, [none, none]⟩, rules := [⟨0, [0, 1], {}⟩, ⟨0, [1], {}⟩] }

/-- **C131 is violated**: a byte source without bytes always makes the first choice, and `random`
never returns, whatever the limits are. -/
theorem C131_violated (search : BinarySearch ℚ) (lim : Limits)
    (toChar : Sym → ByteSource → Option Char × ByteSource) (N : Nat) :
    exLeftAdd.WF ∧ exLeftAdd.random search (fun m => (m : ℚ) / 1000)
      (ByteSource.genRange fun b l => b * l / 255) 0 (some lim) ⟨[], []⟩ [] toChar N
      = .diverge := by
  refine ⟨by decide +kernel, ?_⟩
  have hT : exLeftAdd.terminalSymbols = .ok [false, true] := by decide +kernel
  have halt : exLeftAdd.alternatives 0 = [⟨0, [0, 1], {}⟩, ⟨0, [1], {}⟩] := by decide +kernel
  have hc1 : cumulative (fun m => (m : ℚ) / 1000) (exLeftAdd.alternatives 0) 1 = 1 := by decide +kernel
  have hpick : (exLeftAdd.weighted fun m => (m : ℚ) / 1000).pickRhs search
      (ByteSource.genRange fun b l => b * l / 255) 0 ⟨[], []⟩ = .ok ([0, 1], ⟨[], []⟩) := by
    obtain ⟨k, r, h1, h2, h3, -⟩ := pick_slice search (ByteSource.genRange fun b l => b * l / 255)
      (fun m => (m : ℚ) / 1000) exLeftAdd 0 ⟨[], []⟩ ⟨[], []⟩ 0 (by rw [halt]; decide) (by
        show Res.ok (_, _) = _
        congr 2
        show ((0 : Nat) : ℚ) * _ / 255 = 0
        simp) (by
        rw [halt]
        intro k hk
        have : k = 0 ∨ k = 1 := by simp at hk; omega
        rcases this with rfl | rfl <;> decide +kernel)
    rw [halt] at h1
    have : k = 0 := by
      rcases h3 with h3 | h3
      · exact h3
      · rcases k with _ | _ | k
        · rfl
        · rw [hc1] at h3
          exact absurd h3 (by decide +kernel)
        · simp at h1
    subst this
    rw [h2, ← Option.some.inj h1]
  unfold Cfg.random
  rw [hT, Res.bind_ok]
  have key : ∀ (N : Nat) (rest : List Sym), GenState.run search
      (ByteSource.genRange fun b l => b * l / 255) (some lim) [] toChar [false, true]
      (exLeftAdd.weighted fun m => (m : ℚ) / 1000) N
      { work := 0 :: rest, result := [], string := [], rng := ⟨[], []⟩
        backtracking := fun _ => [], attempts := fun _ => none } = .diverge := by
    intro N
    induction N with
    | zero => intro rest; rfl
    | succ N ih =>
      intro rest
      unfold GenState.run
      simp only
      unfold GenState.step
      rw [show BitSet.get [false, true] 0 = .ok false from rfl, Res.bind_ok, if_neg (by decide)]
      simp only [negativeMap, List.reverse_nil, List.find?_nil, Option.map_none]
      rw [hpick, Res.bind_ok]
      simp only [Res.bind_ok]
      exact ih (1 :: rest)
  exact key N []

/-- No symbol of the balanced parentheses is left recursive. -/
theorem exParens_no_left (A : Sym) : ¬ exParens.LeftRecursive [] A := by
  rintro ⟨α, ν, γ, ⟨hp, -⟩, hd, hν⟩
  have : ν = [] := by
    rcases ν with _ | ⟨x, ν⟩
    · rfl
    · exact absurd (hν x (by simp)) (negative_nil _ x)
  subst this
  have hp' : (A = 0 ∧ α = [1, 0, 2, 0]) ∨ (A = 0 ∧ α = []) := by
    obtain ⟨r, hr, rfl, rfl⟩ := hp
    simp only [exParens, List.mem_cons, List.not_mem_nil, or_false] at hr
    rcases hr with rfl | rfl <;> simp
  have h1 : ∀ w, Der (exParens.plain []) [1] w → w = [1] := by
    intro w hw
    rcases Der.single_iff.1 hw with rfl | ⟨β, ⟨⟨r, hr, e, -⟩, -⟩, -⟩
    · rfl
    · simp only [exParens, List.mem_cons, List.not_mem_nil, or_false] at hr
      rcases hr with rfl | rfl <;> simp at e
  rw [derives_iff_der, List.nil_append] at hd
  rcases hp' with ⟨rfl, rfl⟩ | ⟨rfl, rfl⟩
  · obtain ⟨u, v, e, k1, -⟩ := Der.cons_iff.1 hd
    rw [h1 u k1] at e
    simp at e
  · rw [Der.nil_iff] at hd
    simp at hd

/-- The hypotheses are met by balanced parentheses and bytes. -/
example (lim : Limits) (toChar : Sym → ByteSource → Option Char × ByteSource) :
    ∃ N, ∀ rng, exParens.random (firstSearch ℚ) (fun m => (m : ℚ) / 1000)
      (ByteSource.genRange fun b l => b * l / 255) 0 (some lim) rng [] toChar N ≠ .diverge :=
  C131_returns_partial _ _ _ (by decide +kernel) (by decide +kernel) lim [] toChar
    (by intro r v; unfold ByteSource.genRange; simp only; split <;> simp)
    fun A _ => exParens_no_left A

/-- The symbol of `exLeftAdd` is left recursive. -/
example : exLeftAdd.LeftRecursive [] 0 :=
  ⟨[0, 1], [], [1], ⟨⟨⟨0, [0, 1], {}⟩, by decide +kernel, rfl, rfl⟩, negative_nil _ _⟩, .refl,
    by simp⟩

/-- The hypotheses of `C131_left_recursion` are met by `exLeftAdd`. -/
example (char : Sym → Option Char) (lim : Limits) (N : Nat) :
    ∃ script, exLeftAdd.random (firstSearch ℚ) (fun m => (m : ℚ) / 1000) scripted 0 (some lim) script []
      (fun s r => (char s, r)) N = .diverge := by
  refine C131_left_recursion (A := 0) (w := []) (γ := []) _ _ (by decide +kernel) ?_ char _ .refl
    (by simp) (by simp) ?_ N
  · intro A k hk
    by_cases hA : A = 0
    · subst hA
      have : k = 0 ∨ k = 1 := by
        have : (exLeftAdd.alternatives 0).length = 2 := by decide +kernel
        omega
      rcases this with rfl | rfl
      · exact ⟨1 / 2, by decide +kernel, by decide +kernel⟩
      · exact ⟨3 / 2, by decide +kernel, by decide +kernel⟩
    · have : exLeftAdd.alternatives A = [] := by
        unfold Cfg.alternatives exLeftAdd
        simp [Ne.symm hA]
      rw [this] at hk
      simp at hk
  · exact ⟨[0, 1], [], [1], ⟨⟨⟨0, [0, 1], {}⟩, by decide +kernel, rfl, rfl⟩, negative_nil _ _⟩, .refl,
      by simp⟩

end Verif
