import Verif.Proofs.Generate
import Mathlib.Algebra.Order.Field.Rat
import Mathlib.Algebra.Order.Ring.Unbundled.Rat
import Mathlib.Algebra.Order.Field.Basic
import Mathlib.Data.List.Chain

/-! # Properties C59, C60, C61, C88: random generation

The theorems hold for every random source, every type of weights with an order, a zero and an
addition (rounding or not), and every binary search that does what the standard library promises. -/

namespace Verif

open Cfg

variable {R W : Type} [Zero W] [Add W] [LinearOrder W]

/-! ## C61 -/

omit [LinearOrder W] in
/-- **C61**, the table: the alternatives of a symbol are its rules in order; each has the sum of the
weights of those before as its lower bound. -/
theorem C61_table (ofMillis : Nat → W) (g : Cfg) (A : Sym) :
    (g.weighted ofMillis A = none ↔ ∀ r ∈ g.rules, r.lhs ≠ A) ∧
    ∀ list, g.weighted ofMillis A = some list →
      list.rhsList.length = (g.alternatives A).length ∧
      list.totalWeight = cumulative ofMillis (g.alternatives A) (g.alternatives A).length ∧
      ∀ (k : Nat) r, (g.alternatives A)[k]? = some r →
        list.rhsList[k]? = some ⟨cumulative ofMillis (g.alternatives A) k, r.rhs⟩ := by
  obtain ⟨e, h⟩ | ⟨hne, list, h1, h2⟩ := weighted_spec ofMillis g A
  · refine ⟨⟨fun _ r hr hA => ?_, fun _ => h⟩, fun list hl => by rw [h] at hl; cases hl⟩
    have := mem_alternatives.2 ⟨hr, hA⟩
    rw [e] at this
    simp at this
  · refine ⟨⟨(fun hn => by rw [h1] at hn; cases hn), fun hn => ?_⟩, fun list' hl => ?_⟩
    · exfalso
      obtain ⟨r, hr⟩ := List.exists_mem_of_ne_nil _ hne
      obtain ⟨hr1, hr2⟩ := mem_alternatives.1 hr
      exact hn r hr1 hr2
    · rw [h1] at hl
      rw [← Option.some.inj hl]
      exact h2

/-- **C61**, existing alternatives: for a symbol with rules, whatever the random number is, the
choice is the right side of one of its rules. -/
theorem C61_existing (search : BinarySearch W) (src : GenRange R W) (ofMillis : Nat → W) (g : Cfg)
    (A : Sym) (rng : R) (hA : ∃ r ∈ g.rules, r.lhs = A)
    (hsrc : ∀ l, ∃ v rng', src.generate rng l = .ok (v, rng')) :
    ∃ r rng', r ∈ g.rules ∧ r.lhs = A ∧
      (g.weighted ofMillis).pickRhs search src A rng = .ok (r.rhs, rng') := by
  obtain ⟨r, hr, e⟩ := hA
  have hne : g.alternatives A ≠ [] := by
    intro h
    have := mem_alternatives.2 ⟨hr, e⟩
    rw [h] at this
    simp at this
  rcases pickRhs_mem search src ofMillis g A rng hne with ⟨r, rng', h1, h2⟩ | ⟨-, l, h⟩ | ⟨-, l, h⟩
  · obtain ⟨k1, k2⟩ := mem_alternatives.1 h1
    exact ⟨r, rng', k1, k2, h2⟩
  · obtain ⟨v, rng', h'⟩ := hsrc l
    rw [h] at h'; cases h'
  · obtain ⟨v, rng', h'⟩ := hsrc l
    rw [h] at h'; cases h'

/-- **C61**, slices: with two or more alternatives and weights that are not negative, the random
number lies between the bounds of the alternative chosen (the first one has no lower, the last one
no upper bound), and a number strictly between the bounds of an alternative chooses that one. Only a
number that is exactly a bound may choose one or the other alternative beside it. -/
theorem C61_slices (search : BinarySearch W) (src : GenRange R W) (ofMillis : Nat → W) (g : Cfg)
    (A : Sym) (rng rng' : R) (v : W) (hn : 2 ≤ (g.alternatives A).length)
    (hgen : src.generate rng (cumulative ofMillis (g.alternatives A) (g.alternatives A).length)
      = .ok (v, rng'))
    (hmono : ∀ k < (g.alternatives A).length, cumulative ofMillis (g.alternatives A) k ≤
      cumulative ofMillis (g.alternatives A) (k + 1)) :
    ∃ k r, (g.alternatives A)[k]? = some r ∧
      (g.weighted ofMillis).pickRhs search src A rng = .ok (r.rhs, rng') ∧
      (k = 0 ∨ cumulative ofMillis (g.alternatives A) k ≤ v) ∧
      (k + 1 = (g.alternatives A).length ∨ v ≤ cumulative ofMillis (g.alternatives A) (k + 1)) ∧
      ∀ j < (g.alternatives A).length, cumulative ofMillis (g.alternatives A) j < v →
        v < cumulative ofMillis (g.alternatives A) (j + 1) → j = k :=
  pick_slice search src ofMillis g A rng rng' v hn hgen hmono

/-- **C61**, a single alternative is chosen without a random number. -/
theorem C61_single (search : BinarySearch W) (src : GenRange R W) (ofMillis : Nat → W) (g : Cfg)
    (A : Sym) (rng : R) (r : CfgRule) (hr : g.alternatives A = [r]) :
    (g.weighted ofMillis).pickRhs search src A rng = .ok (r.rhs, rng) := by
  obtain ⟨r', h1, h2⟩ | ⟨h1, -⟩ := pickRhs_spec search src ofMillis g A rng (by rw [hr]; simp)
  · rw [hr] at h1
    rw [h2, (List.cons.inj h1).1]
  · rw [hr] at h1
    simp at h1

/-! An instance to show that the hypotheses can be met. -/

/-- Linear search for the first element that is not smaller. -/
def firstNotLess (v : W) : List W → Nat
  | [] => 0
  | x :: l => if x < v then firstNotLess v l + 1 else 0

omit [Zero W] [Add W] in
theorem firstNotLess_le (v : W) (l : List W) : firstNotLess v l ≤ l.length := by
  induction l with
  | nil => exact Nat.le_refl _
  | cons x l ih =>
    unfold firstNotLess
    split
    · simpa using ih
    · exact Nat.zero_le _

/-- A binary search that returns the first match. -/
def firstSearch (W : Type) [LinearOrder W] : BinarySearch W where
  idx l v := firstNotLess v l
  le l v := firstNotLess_le v l
  found l v hs hv := by
    induction l with
    | nil => simp at hv
    | cons x l ih =>
      unfold firstNotLess
      rw [List.pairwise_cons] at hs
      split
      · rename_i hx
        rcases List.mem_cons.1 hv with e | hv
        · rw [e] at hx; exact absurd hx (lt_irrefl _)
        · rw [List.getElem?_cons_succ]; exact ih hs.2 hv
      · rename_i hx
        rw [List.getElem?_cons_zero]
        rcases List.mem_cons.1 hv with e | hv
        · rw [e]
        · rw [le_antisymm (hs.1 v hv) (not_lt.1 hx)]
  insertion l v hs hv := by
    induction l with
    | nil => simp
    | cons x l ih =>
      unfold firstNotLess
      rw [List.pairwise_cons] at hs
      obtain ⟨h1, h2⟩ := ih hs.2 fun h => hv (List.mem_cons_of_mem _ h)
      split
      · rename_i hx
        refine ⟨?_, by simpa using h2⟩
        intro y hy
        rw [List.take_succ_cons] at hy
        rcases List.mem_cons.1 hy with e | hy
        · rw [e]; exact hx
        · exact h1 y hy
      · rename_i hx
        refine ⟨by simp, ?_⟩
        rw [List.drop_zero]
        have hx' : v < x := lt_of_le_of_ne (not_lt.1 hx) fun e => hv (by rw [e]; simp)
        intro y hy
        rcases List.mem_cons.1 hy with e | hy
        · rw [e]; exact hx'
        · exact lt_of_lt_of_le hx' (hs.1 y hy)

/-- Three alternatives of weights 1, 2.5 and 1, for symbol 0. -/
def exWeights : Cfg :=
  { src := ⟨4, List.replicate 4 none⟩
    rules := [⟨0, [1], {}⟩, ⟨0, [2], { weight := some 2500 }⟩, ⟨0, [3, 3], {}⟩] }

example : 2 ≤ (exWeights.alternatives 0).length ∧
    (∀ k < (exWeights.alternatives 0).length,
      cumulative (fun m => (m : ℚ) / 1000) (exWeights.alternatives 0) k ≤
        cumulative (fun m => (m : ℚ) / 1000) (exWeights.alternatives 0) (k + 1)) ∧
    (List.range 4).map (cumulative (fun m => (m : ℚ) / 1000) (exWeights.alternatives 0)) =
      [0, 1, 7 / 2, 9 / 2] := by decide +kernel

/-- Bytes as random numbers: 50 gives the first, 100 the second, 255 the last alternative. -/
example : ([50, 100, 255].map fun b : UInt8 =>
      Prod.fst <$> (exWeights.weighted fun m => (m : ℚ) / 1000).pickRhs (firstSearch ℚ)
        (ByteSource.genRange fun b l => b * l / 255) 0 ⟨[b], []⟩) =
    [.ok [1], .ok [2], .ok [3, 3]] := by decide +kernel

/-- The numbers of a `ByteSource` are from 0 up to the limit. -/
theorem C61_byteSource_range (s : ByteSource) (limit : ℚ) (h : 0 ≤ limit) :
    ∃ v s', (ByteSource.genRange fun b (l : ℚ) => b * l / 255).generate s limit = .ok (v, s') ∧
      0 ≤ v ∧ v ≤ limit := by
  have key : ∀ b : UInt8, 0 ≤ (b.toNat : ℚ) * limit / 255 ∧ (b.toNat : ℚ) * limit / 255 ≤ limit := by
    intro b
    have h1 : (0 : ℚ) ≤ b.toNat := by exact_mod_cast Nat.zero_le b.toNat
    have h2 : (b.toNat : ℚ) ≤ 255 := by
      have : b.toNat ≤ 255 := by have := b.toNat_lt; omega
      exact_mod_cast this
    have h3 : (0 : ℚ) < 255 := by decide +kernel
    refine ⟨div_nonneg (mul_nonneg h1 h) (le_of_lt h3), ?_⟩
    rw [div_le_iff₀ h3, mul_comm limit]
    exact mul_le_mul_of_nonneg_right h2 h
  unfold ByteSource.genRange
  rcases ha : s.ahead with _ | ⟨b, rest⟩
  · simp only [ha]
    exact ⟨_, _, rfl, key _⟩
  · simp only [ha]
    exact ⟨_, _, rfl, key _⟩

/-- Several draws from a random source. -/
def drawAll (src : GenRange R W) : R → List W → Res (List W × R)
  | rng, [] => .ok ([], rng)
  | rng, limit :: limits => do
    let (v, rng) ← src.generate rng limit
    let (vs, rng) ← drawAll src rng limits
    .ok (v :: vs, rng)

omit [Zero W] [Add W] [LinearOrder W] in
/-- The numbers of a `ByteSource` come from its bytes in order: first those put back by retries,
then those of the iterator, then zeros. -/
theorem C61_byteSource_order (scale : Nat → W → W) : ∀ (s : ByteSource) (limits : List W),
    ∃ vs s', drawAll (ByteSource.genRange scale) s limits = .ok (vs, s') ∧
      vs.length = limits.length ∧ ∀ (k : Nat) l, limits[k]? = some l →
        vs[k]? = some (scale (((s.ahead ++ s.bytes)[k]?).getD 0).toNat l)
  | s, [] => ⟨[], s, rfl, rfl, by simp⟩
  | s, l :: limits => by
    obtain ⟨v, s1, e1, e2, e3⟩ : ∃ v s1, (ByteSource.genRange scale).generate s l = .ok (v, s1) ∧
        v = scale (((s.ahead ++ s.bytes)[0]?).getD 0).toNat l ∧
        s1.ahead ++ s1.bytes = (s.ahead ++ s.bytes).tail := by
      obtain ⟨bytes, ahead⟩ := s
      rcases ahead with _ | ⟨a, ahead⟩
      · rcases bytes with _ | ⟨b, bytes⟩
        · exact ⟨_, _, rfl, rfl, rfl⟩
        · exact ⟨_, _, rfl, rfl, rfl⟩
      · exact ⟨_, _, rfl, rfl, rfl⟩
    obtain ⟨vs, s2, e4, e5, e6⟩ := C61_byteSource_order scale s1 limits
    refine ⟨v :: vs, s2, ?_, by simp [e5], fun k l' hk => ?_⟩
    · unfold drawAll
      rw [e1, Res.bind_ok]
      simp only [e4, Res.bind_ok]
    · rcases k with _ | k
      · cases hk
        rw [e2]
        rfl
      · rw [List.getElem?_cons_succ] at hk ⊢
        rw [e6 k l' hk, e3, List.getElem?_tail]

example : drawAll (ByteSource.genRange fun b (l : ℚ) => b * l / 255) ⟨[51, 102], [204]⟩ [10, 10, 5, 5]
    = .ok ([8, 2, 2, 0], ⟨[], []⟩) := by decide +kernel

/-- **C61.** For a symbol without rules the choice is the empty right side, without a random
number. -/
theorem C61_no_rules (search : BinarySearch W) (src : GenRange R W) (ofMillis : Nat → W) (g : Cfg)
    (A : Sym) (rng : R) (hA : ∀ r ∈ g.rules, r.lhs ≠ A) :
    (g.weighted ofMillis).pickRhs search src A rng = .ok ([], rng) := by
  unfold WeightedRhsByLhs.pickRhs
  rw [((C61_table ofMillis g A).1).2 hA]

/-- **C61.** The weight of a rule whose history starts anew is one. Otherwise it is the one given last
to its history; splitting the rule, removing
nullable symbols from it and rewriting keep it, except for the rule with an empty right side that
nulling elimination takes out. -/
theorem C61_history_weight (A : Sym) (α : List Sym) (h : History) :
    (∀ root, (⟨A, α, History.ofRoot root⟩ : CfgRule).millis = 1000) ∧
    (∀ m, ∃ h', processLinked (.weight m) h = .ok h' ∧ (⟨A, α, h'⟩ : CfgRule).millis = m) ∧
    ∀ node h', (∀ m, node ≠ .weight m) → (∀ a b n, node ≠ .eliminateNulling a b (.all n)) →
      processLinked node h = .ok h' →
      (⟨A, α, h'⟩ : CfgRule).millis = (⟨A, α, h⟩ : CfgRule).millis := by
  refine ⟨fun root => by cases root <;> rfl, fun m => ⟨_, rfl, rfl⟩, fun node h' h1 h2 e => ?_⟩
  unfold CfgRule.millis
  cases node with
  | weight m => exact absurd rfl (h1 m)
  | assignPrecedence _ => cases e; rfl
  | rewriteSequence _ _ _ => cases e; rfl
  | sequenceRhs rhs =>
    simp only [processLinked] at e
    split at e <;> cases e <;> rfl
  | binarize _ _ _ =>
    simp only [processLinked, History.binarize] at e
    split at e
    · split at e
      · cases e; rfl
      · split at e <;> cases e <;> rfl
    · split at e <;> cases e
      rfl
  | eliminateNulling a b which =>
    simp only [processLinked, History.eliminateNulling] at e
    cases which with
    | all n => exact absurd rfl (h2 a b n)
    | right => cases b <;> cases e; rfl
    | left => cases a <;> cases e; rfl

example : (⟨0, [], { weight := some 3 }⟩ : CfgRule).millis = 3 := rfl

/-! ## C59 -/

theorem forbids_nil (s : Sym) (f : List Char) : ¬ Forbids [] s f := by
  rintro ⟨a, b, e, -⟩
  simp at e

theorem negative_nil (g : Cfg) (s : Sym) : ¬ g.Negative [] s := fun h => by
  obtain ⟨-, f, hf⟩ := h
  exact forbids_nil s f hf

theorem spaced_nil (g : Cfg) (toChar : Sym → R → Option Char × R) (start : Sym) :
    g.Spaced [] toChar start := by
  intro u s v s' β f _ hs
  exact absurd hs (negative_nil g s)

/-- **C59.** Whenever `random` without negative rules returns a result, after whatever number of
turns and with whatever random source, the symbols are a terminal string of the start symbol, at
most as many as the limit, and the characters are those made from the symbols, in order. -/
theorem C59_sentences (search : BinarySearch W) (ofMillis : Nat → W) (src : GenRange R W) {g : Cfg}
    (hwf : g.WF) {start : Sym} (hstart : start < g.numSyms) (limit : Option Limits) (rng : R)
    (toChar : Sym → R → Option Char × R) (fuel : Nat) (w : List Sym) (s : List Char)
    (h : g.random search ofMillis src start limit rng [] toChar fuel = .ok (.ok (w, s))) :
    g.Lang start w ∧ (∀ l, limit = some l → w.length ≤ l.terminals) ∧
      ∃ cs : List (Option Char), List.Forall₂ (fun a c => ∃ r, (toChar a r).1 = c) w cs ∧
        s = cs.filterMap id := by
  have := random_spec (limit := limit) (toChar := toChar) search ofMillis src hwf hstart
    (spaced_nil g toChar start) (fun s _ hs => absurd hs (negative_nil g s)) rng fuel
  rw [h] at this
  rcases this with ⟨h, -⟩ | h | ⟨e, h, -⟩ | ⟨out, h1, h2, h3, -, h5⟩
  · cases h
  · cases h
  · cases h
  injection h1 with h1
  injection h1 with h1
  injection h1 with hw hs
  have hterm : ∀ x ∈ out, g.Term x.1 ∧ ∃ r, (toChar x.1 r).1 = x.2 := fun x hx =>
    entry_term (h3 x hx) (negative_nil g _)
  have hw' : w = out.map Prod.fst := by
    rw [hw]
    unfold Marked.terminals
    rw [List.filter_eq_self.2 (fun x hx => by simpa using (hterm x hx).1)]
  refine ⟨⟨?_, ?_⟩, ?_, out.map Prod.snd, ?_, ?_⟩
  · rw [hw']
    exact Derives.mono (fun _ _ h => h.1) h2
  · intro a ha
    rw [hw'] at ha
    obtain ⟨x, hx, rfl⟩ := List.mem_map.1 ha
    exact (hterm x hx).1
  · rw [hw]; exact h5
  · rw [hw', List.forall₂_map_left_iff, List.forall₂_map_right_iff, List.forall₂_same]
    exact fun x hx => (hterm x hx).2
  · rw [hs, List.filterMap_map]; rfl

/-- **C59**, characters that do not depend on the random source: the string is the image of the
symbols. -/
theorem C59_characters (search : BinarySearch W) (ofMillis : Nat → W) (src : GenRange R W) {g : Cfg}
    (hwf : g.WF) {start : Sym} (hstart : start < g.numSyms) (limit : Option Limits) (rng : R)
    (char : Sym → Option Char) (fuel : Nat) (w : List Sym) (s : List Char)
    (h : g.random search ofMillis src start limit rng [] (fun s r => (char s, r)) fuel
      = .ok (.ok (w, s))) :
    s = w.filterMap char := by
  obtain ⟨-, -, cs, h1, h2⟩ := C59_sentences search ofMillis src hwf hstart limit rng _ fuel w s h
  rw [h2]
  clear h h2
  induction h1 with
  | nil => rfl
  | @cons a c w cs hac _ ih =>
    obtain ⟨r, hac⟩ := hac
    simp only at hac
    rw [← hac]
    cases hc : char a <;> (simp [hc]; exact ih)

/-- **C59**, no panic, and no error without a limit: if the random source never panics, `random`
without negative rules returns a result, or the error that the limit is exceeded, or has not
returned after `fuel` turns. -/
theorem C59_no_panic (search : BinarySearch W) (ofMillis : Nat → W) (src : GenRange R W) {g : Cfg}
    (hwf : g.WF) {start : Sym} (hstart : start < g.numSyms) (limit : Option Limits) (rng : R)
    (toChar : Sym → R → Option Char × R) (fuel : Nat) (hsrc : ∀ r l, src.generate r l ≠ .panic) :
    g.random search ofMillis src start limit rng [] toChar fuel = .diverge ∨
    (g.random search ofMillis src start limit rng [] toChar fuel = .ok (.error .limitExceeded) ∧
      limit ≠ none) ∨
    ∃ w s, g.random search ofMillis src start limit rng [] toChar fuel = .ok (.ok (w, s)) := by
  rcases random_spec (limit := limit) (toChar := toChar) search ofMillis src hwf hstart
    (spaced_nil g toChar start) (fun s _ hs => absurd hs (negative_nil g s)) rng fuel with
    ⟨-, r, l, h⟩ | h | ⟨e, h1, h2, h3⟩ | ⟨out, h1, -⟩
  · exact absurd h (hsrc r l)
  · exact .inl h
  · cases e with
    | limitExceeded => exact .inr (.inl ⟨h1, h2 rfl⟩)
    | negativeRuleAttemptsExceeded => exact absurd rfl (h3 rfl)
  · exact .inr (.inr ⟨_, _, h1⟩)

/-- **C59**: what is returned after some number of turns does not depend on that number. -/
theorem C59_turns (search : BinarySearch W) (ofMillis : Nat → W) (src : GenRange R W) (g : Cfg)
    (start : Sym) (limit : Option Limits) (rng : R) (neg : List NegativeRule)
    (toChar : Sym → R → Option Char × R) (fuel k : Nat)
    (h : g.random search ofMillis src start limit rng neg toChar fuel ≠ .diverge) :
    g.random search ofMillis src start limit rng neg toChar (fuel + k)
      = g.random search ofMillis src start limit rng neg toChar fuel := by
  unfold Cfg.random at h ⊢
  cases hT : g.terminalSymbols with
  | panic => rfl
  | diverge => rfl
  | ok T =>
    rw [hT, Res.bind_ok] at h
    exact run_mono _ _ _ _ _ _ _ _ _ h k

/-- Balanced parentheses `S ::= ( S ) S | ε` from bytes. -/
def exParens : Cfg :=
  { src := ⟨3, List.replicate 3 none⟩, rules := [⟨0, [1, 0, 2, 0], {}⟩, ⟨0, [], {}⟩] }

example : exParens.WF ∧ 0 < exParens.numSyms ∧
    (match exParens.random (firstSearch ℚ) (fun m => (m : ℚ) / 1000)
        (ByteSource.genRange fun b l => b * l / 255) 0 (some ⟨4, 0⟩) ⟨[1, 2, 200, 250, 251], []⟩ []
        (fun s r => (if s = 1 then some '(' else some ')', r)) 20 with
      | .ok (.ok x) => some x
      | _ => none) = some ([1, 1, 2, 2], ['(', '(', ')', ')']) := by decide +kernel

/-! ## C88 -/

/-- **C88.** Every terminal string of the start symbol is a possible result: if there is room for a
number between the bounds of each alternative, some random numbers, each in the range it is asked
for, make `random` return it, unless it is longer than the limit. -/
theorem C88_every_sentence (search : BinarySearch W) (ofMillis : Nat → W) {g : Cfg} (hwf : g.WF)
    (hgap : ∀ A k, k < (g.alternatives A).length → ∃ v,
      cumulative ofMillis (g.alternatives A) k < v ∧
      v < cumulative ofMillis (g.alternatives A) (k + 1))
    (char : Sym → Option Char) (limit : Option Limits) {start : Sym} {w : List Sym}
    (hw : g.Lang start w) (hl : ∀ l, limit = some l → w.length ≤ l.terminals) :
    ∃ script fuel, g.random search ofMillis scripted start limit script []
      (fun s r => (char s, r)) fuel = .ok (.ok (w, w.filterMap char)) := by
  obtain ⟨T, hT1, hT2, hT3⟩ := BitSet.terminal_spec hwf
  have hT : ∀ s, s < g.numSyms → BitSet.get T s = .ok (decide (g.Term s)) := by
    intro s hs
    unfold BitSet.get
    rw [Res.index_lt (by rw [hT2]; exact hs)]
    congr 1
    have := hT3 s
    unfold Has at this
    rw [List.getElem?_eq_getElem (by rw [hT2]; exact hs), Option.some.injEq] at this
    rw [Bool.eq_iff_iff, this, decide_eq_true_eq]
  obtain ⟨hd, ht⟩ := inLang_iff.1 hw
  obtain ⟨script, n, h⟩ := run_der search ofMillis hwf limit char hgap T hT hd ht
  refine ⟨script, n + 1, ?_⟩
  unfold Cfg.random Cfg.terminalSymbols
  rw [hT1, Res.bind_ok]
  have := h [] [] [] [] 1 (by simpa using hl)
  rw [List.append_nil, List.append_nil] at this
  rw [this]
  unfold GenState.run
  simp

example : exParens.WF ∧ ∀ A k, k < (exParens.alternatives A).length → ∃ v,
      cumulative (fun m => (m : ℚ) / 1000) (exParens.alternatives A) k < v ∧
      v < cumulative (fun m => (m : ℚ) / 1000) (exParens.alternatives A) (k + 1) := by
  refine ⟨by decide +kernel, ?_⟩
  intro A k hk
  by_cases hA : A = 0
  · subst hA
    have : k = 0 ∨ k = 1 := by
      have : (exParens.alternatives 0).length = 2 := by decide +kernel
      omega
    rcases this with rfl | rfl
    · exact ⟨1 / 2, by decide +kernel, by decide +kernel⟩
    · exact ⟨3 / 2, by decide +kernel, by decide +kernel⟩
  · have : exParens.alternatives A = [] := by
      unfold Cfg.alternatives exParens
      simp [Ne.symm hA]
    rw [this] at hk
    simp at hk

/-! ## C60 -/

/-- **C60, the part that holds**: if between two negative symbols there is always at least as much
text as the first one forbids, and no forbidden text is empty, a result comes from a derivation in
which negative symbols are just marks; no forbidden text starts at the mark of its symbol; and the
symbols are a terminal string of the start symbol, if the negative symbols may be empty. Missing:
negative symbols close to each other (`C60_violated_stale`). -/
theorem C60_spaced_partial (search : BinarySearch W) (ofMillis : Nat → W) (src : GenRange R W)
    {g : Cfg} (hwf : g.WF) {start : Sym} (hstart : start < g.numSyms) (limit : Option Limits)
    (rng : R) (neg : List NegativeRule) (toChar : Sym → R → Option Char × R) (fuel : Nat)
    (hsp : g.Spaced neg toChar start) (hnil : ∀ n ∈ neg, n.chars ≠ []) (w : List Sym) (s : List Char)
    (h : g.random search ofMillis src start limit rng neg toChar fuel = .ok (.ok (w, s))) :
    ∃ out : Marked, w = Marked.terminals g out ∧ s = Marked.text out ∧
      Derives (g.plain neg) [start] (out.map Prod.fst) ∧ (∀ x ∈ out, g.Entry neg toChar x) ∧
      g.Respects neg out ∧ (∀ l, limit = some l → w.length ≤ l.terminals) ∧
      ((∀ A, g.Negative neg A → g.prod A []) → g.Lang start w) := by
  have := random_spec (limit := limit) (toChar := toChar) search ofMillis src hwf hstart hsp
    (fun s f _ hf => by
      obtain ⟨a, b, e, -⟩ := hf
      exact hnil ⟨s, f⟩ (by rw [e]; simp)) rng fuel
  rw [h] at this
  rcases this with ⟨h, -⟩ | h | ⟨e, h, -⟩ | ⟨out, h1, h2, h3, h4, h5⟩
  · cases h
  · cases h
  · cases h
  injection h1 with h1
  injection h1 with h1
  injection h1 with hw hs
  refine ⟨out, hw, hs, h2, h3, h4, by rw [hw]; exact h5, fun hnull => inLang_iff.2 ⟨?_, ?_⟩⟩
  · refine Der.trans (derives_iff_der.1 (Derives.mono (fun _ _ h => h.1) h2)) ?_
    rw [hw]
    clear h h2 hw hs h4 h5
    induction out with
    | nil => exact .nil
    | cons x out ih =>
      have ih := ih fun y hy => h3 y (List.mem_cons_of_mem _ hy)
      rcases h3 x (by simp) with hx | hx
      · have : Marked.terminals g (x :: out) = x.1 :: Marked.terminals g out := by
          unfold Marked.terminals
          rw [List.filter_cons_of_pos (by simpa using hx.1)]
          rfl
        rw [this, List.map_cons]
        exact .keep _ ih
      · have : Marked.terminals g (x :: out) = [] ++ Marked.terminals g out := by
          unfold Marked.terminals
          rw [List.filter_cons_of_neg (by simpa using hx.1.1)]
          rfl
        rw [this, List.map_cons]
        exact .expand (hnull _ hx.1) .nil ih
  · intro a ha
    rw [hw] at ha
    obtain ⟨x, hx, rfl⟩ := List.mem_map.1 ha
    simpa using (List.mem_filter.1 hx).2

/-- **C60**, no panic, under the same conditions. -/
theorem C60_spaced_no_panic_partial (search : BinarySearch W) (ofMillis : Nat → W)
    (src : GenRange R W) {g : Cfg} (hwf : g.WF) {start : Sym} (hstart : start < g.numSyms)
    (limit : Option Limits) (rng : R) (neg : List NegativeRule)
    (toChar : Sym → R → Option Char × R) (fuel : Nat) (hsp : g.Spaced neg toChar start)
    (hnil : ∀ n ∈ neg, n.chars ≠ []) (hsrc : ∀ r l, src.generate r l ≠ .panic) :
    g.random search ofMillis src start limit rng neg toChar fuel ≠ .panic := by
  intro h
  rcases random_spec (limit := limit) (toChar := toChar) search ofMillis src hwf hstart hsp
    (fun s f _ hf => by
      obtain ⟨a, b, e, -⟩ := hf
      exact hnil ⟨s, f⟩ (by rw [e]; simp)) rng fuel with
    ⟨-, r, l, h'⟩ | h' | ⟨e, h', -⟩ | ⟨out, h', -⟩
  · exact hsrc r l h'
  · rw [h] at h'; cases h'
  · rw [h] at h'; cases h'
  · rw [h] at h'; cases h'

/-- `S ::= N L S | ε; N ::= ε; L ::= a | b`: a string of `a` and `b`, with no `a` at a place of `N`. -/
def exNegative : Cfg :=
  { src := ⟨5, List.replicate 5 none⟩
    rules := [⟨0, [1, 2, 0], {}⟩, ⟨0, [], {}⟩, ⟨1, [], {}⟩, ⟨2, [3], {}⟩, ⟨2, [4], {}⟩] }

/-- Characters for `exNegative`. -/
def exNegativeChar (s : Sym) (r : ByteSource) : Option Char × ByteSource :=
  (if s = 3 then some 'a' else some 'b', r)

/-- The grammar `exNegative` has spaced negative symbols: after an `N` there is an `L`, `a` or `b`. -/
theorem exNegative_spaced : exNegative.Spaced [⟨1, ['a']⟩] exNegativeChar 0 := by
  have hf : ∀ s f, Forbids [⟨1, ['a']⟩] s f → s = 1 ∧ f = ['a'] := by
    intro s f h
    have := (forbids_iff _ s f).2 h
    unfold negativeMap at this
    simp only [List.reverse_cons, List.reverse_nil, List.nil_append, List.find?_cons,
      List.find?_nil] at this
    by_cases hs : 1 = s
    · simp only [hs, decide_true, Option.map_some, Option.some.injEq] at this
      exact ⟨hs.symm, this.symm⟩
    · simp [hs] at this
  have hchain : ∀ α, Derives (exNegative.plain [⟨1, ['a']⟩]) [0] α →
      List.IsChain (fun x y => x = 1 → y = 2 ∨ y = 3 ∨ y = 4) (α ++ [0]) := by
    intro α hd
    induction hd with
    | refl => simp
    | tail _ hst ih =>
      obtain ⟨A, β, p, q, ⟨hP, hn⟩, rfl, rfl⟩ := hst
      obtain ⟨r, hr, e1, e2⟩ := hP
      have hA : A ≠ 1 := by
        rintro rfl
        exact hn ⟨by decide +kernel, ['a'], [], [], rfl, by simp⟩
      have hcases : (A = 0 ∧ β = [1, 2, 0]) ∨ (A = 0 ∧ β = []) ∨ (A = 2 ∧ β = [3]) ∨
          (A = 2 ∧ β = [4]) := by
        simp only [exNegative, List.mem_cons, List.not_mem_nil, or_false] at hr
        rcases hr with rfl | rfl | rfl | rfl | rfl
        · exact .inl ⟨e1.symm, e2.symm⟩
        · exact .inr (.inl ⟨e1.symm, e2.symm⟩)
        · exact absurd e1.symm hA
        · exact .inr (.inr (.inl ⟨e1.symm, e2.symm⟩))
        · exact .inr (.inr (.inr ⟨e1.symm, e2.symm⟩))
      rw [List.append_assoc, List.cons_append, List.isChain_append] at ih
      obtain ⟨ih1, ih2, ih3⟩ := ih
      rw [List.append_assoc, List.append_assoc, List.isChain_append]
      rcases hcases with ⟨rfl, rfl⟩ | ⟨rfl, rfl⟩ | ⟨rfl, rfl⟩ | ⟨rfl, rfl⟩
      · refine ⟨ih1, ?_, ?_⟩
        · simp only [List.cons_append, List.nil_append, List.isChain_cons_cons]
          exact ⟨by simp, by simp, ih2⟩
        · intro x hx y hy hx1
          have := ih3 x hx 0 (by simp) hx1
          simp at this
      · refine ⟨ih1, ih2.tail, ?_⟩
        intro x hx y hy hx1
        have := ih3 x hx 0 (by simp) hx1
        simp at this
      · refine ⟨ih1, ?_, ?_⟩
        · simp only [List.cons_append, List.nil_append]
          cases hq : q ++ [0] with
          | nil => simp
          | cons z q' =>
            rw [hq] at ih2
            rw [List.isChain_cons_cons] at ih2 ⊢
            exact ⟨by simp, ih2.2⟩
        · intro x hx y hy hx1
          simp only [List.cons_append, List.head?_cons, Option.mem_def, Option.some.injEq] at hy
          omega
      · refine ⟨ih1, ?_, ?_⟩
        · simp only [List.cons_append, List.nil_append]
          cases hq : q ++ [0] with
          | nil => simp
          | cons z q' =>
            rw [hq] at ih2
            rw [List.isChain_cons_cons] at ih2 ⊢
            exact ⟨by simp, ih2.2⟩
        · intro x hx y hy hx1
          simp only [List.cons_append, List.head?_cons, Option.mem_def, Option.some.injEq] at hy
          omega
  intro u s v s' β f hd hs hs' hfs hv
  obtain ⟨e1, e2⟩ := hf s f hfs
  obtain ⟨-, f', hf'⟩ := hs'
  obtain ⟨e3, -⟩ := hf s' f' hf'
  rw [e2]
  cases v with
  | nil =>
    have := hchain _ hd
    rw [e1, e3, List.append_assoc, List.isChain_append] at this
    simp at this
  | cons x v =>
    obtain ⟨-, r, hr⟩ := hv x (by simp)
    obtain ⟨c, hc⟩ : ∃ c, x.2 = some c := by
      rw [← hr]
      unfold exNegativeChar
      split <;> exact ⟨_, rfl⟩
    unfold Marked.text
    rw [List.filterMap_cons_some hc]
    simp

example : exNegative.WF ∧ (∀ n ∈ [(⟨1, ['a']⟩ : NegativeRule)], n.chars ≠ []) ∧
    (match exNegative.random (firstSearch ℚ) (fun m => (m : ℚ) / 1000)
        (ByteSource.genRange fun b l => b * l / 255) 0 none ⟨[0, 1, 0, 200, 255], []⟩ [⟨1, ['a']⟩]
        exNegativeChar 40 with
      | .ok (.ok x) => some x
      | _ => none) = some ([4, 4], ['b', 'b']) := by decide +kernel

/-- `S ::= N X; X ::= a M B c | e b d; B ::= b | x; N ::= ε; M ::= ε`, symbols
`S N X M B a b c d e x = 0 .. 10`. -/
def exStale : Cfg :=
  { src := ⟨11, List.replicate 11 none⟩
    rules := [⟨0, [1, 2], {}⟩, ⟨1, [], {}⟩, ⟨2, [5, 3, 4, 7], {}⟩, ⟨2, [9, 6, 8], {}⟩, ⟨3, [], {}⟩,
      ⟨4, [6], {}⟩, ⟨4, [10], {}⟩] }

/-- A run on `exStale`: `N` forbids `ab`, `M` forbids `b`. -/
def staleRun : Res (Except RandomGenError (List Sym × List Char)) :=
  exStale.random (firstSearch ℚ) (fun m => (m : ℚ) / 1000)
    (ByteSource.genRange fun b l => b * l / 255) 0 none ⟨[1, 1], []⟩ [⟨1, ['a', 'b']⟩, ⟨3, ['b']⟩]
    (fun s r => (['S', 'N', 'X', 'M', 'B', 'a', 'b', 'c', 'd', 'e', 'x'][s]?, r)) 20

/-- **C60 fails**: `N` forbids `ab`, `M` forbids `b`. The first try `ab` is given up at `N`, but the
state remembered at `M` stays. It is taken up again in the second try, after `eb`, and the result
`exc` is no string of the grammar. -/
theorem C60_violated_stale :
    exStale.WF ∧ ∃ w s, staleRun = .ok (.ok (w, s)) ∧ s = ['e', 'x', 'c'] ∧ ¬ exStale.Lang 0 w := by
  refine ⟨by decide +kernel, [9, 10, 7], ['e', 'x', 'c'], ?_, rfl, ?_⟩
  · have e : (match staleRun with
      | .ok (.ok x) => some x
      | _ => none) = some ([9, 10, 7], ['e', 'x', 'c']) := by decide +kernel
    generalize staleRun = x at e ⊢
    match x, e with
    | .ok (.ok y), e => rw [Option.some.inj e]
  · intro h
    -- a string with `e` in it has `d`
    have key : ∀ α, Derives exStale.prod [0] α → (9 ∈ α → 8 ∈ α) := by
      intro α hd
      induction hd with
      | refl => simp
      | tail _ hst ih =>
        obtain ⟨A, β, p, q, ⟨r, hr, e1, e2⟩, rfl, rfl⟩ := hst
        have hA : A ≠ 8 ∧ (9 ∈ β → 8 ∈ β) := by
          have := (show ∀ r ∈ exStale.rules, r.lhs ≠ 8 ∧ (9 ∈ r.rhs → 8 ∈ r.rhs) by
            decide +kernel) r hr
          rwa [e1, e2] at this
        intro h9
        simp only [List.mem_append, List.mem_cons] at ih h9 ⊢
        rcases h9 with (h9 | h9) | h9
        · rcases ih (.inl h9) with h | h | h
          · exact .inl (.inl h)
          · exact absurd h.symm hA.1
          · exact .inr h
        · exact .inl (.inr (hA.2 h9))
        · rcases ih (.inr (.inr h9)) with h | h | h
          · exact .inl (.inl h)
          · exact absurd h.symm hA.1
          · exact .inr h
    have := key _ h.1
    simp at this

end Verif
