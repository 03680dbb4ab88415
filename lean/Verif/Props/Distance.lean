import Verif.Proofs.Distance

/-! # Properties C57, C58, C86, C87: sentence lengths and distances

Tables are read with `t[s]?.join` (`none` for a missing entry). -/

namespace Verif

/-! ## C57, C86 -/

/-- **C57, the part that holds.** The sentence lengths of a fresh `MinimalDistance`: the call
terminates, and if it does not panic on overflow, a symbol has the length of its shortest terminal
string, and no length exactly when it derives none. Not covered: lengths beyond 32 bits
(`C57_violated_overflow`). -/
theorem C57_sentence_lengths_partial {g : Cfg} (hwf : g.WF) :
    g.minimalSentenceLengths (MinimalDistance.new g).minLength = .panic ∨
    ∃ t, g.minimalSentenceLengths (MinimalDistance.new g).minLength = .ok t ∧
      t.length = g.numSyms ∧ (∀ (s : Nat) v, t[s]?.join = some v ↔ g.MinLen s v) ∧
      ∀ (s : Nat), t[s]?.join = none ↔ ∀ w, ¬ g.Lang s w := by
  obtain ⟨K, hK1, hK⟩ : ∃ K, 1 ≤ K ∧ ∀ r ∈ g.rules, r.rhs.length ≤ K := by
    refine ⟨(g.rules.map fun r => r.rhs.length).sum + 1, by omega, fun r hr => ?_⟩
    generalize g.rules = l at hr
    induction l with
    | nil => simp at hr
    | cons a l ih =>
      rw [List.map_cons, List.sum_cons]
      rcases List.mem_cons.1 hr with rfl | hr
      · omega
      · have := ih hr; omega
  have hs : LensSound g (MinimalDistance.new g).minLength :=
    ⟨by simp [MinimalDistance.new], fun s v h => by
      simp only [MinimalDistance.new, tbl_replicate] at h; cases h⟩
  rcases minimalSentenceLengths_spec hwf _ hs 1 K (Nat.le_refl _) (fun s v h => by
    simp only [MinimalDistance.new, tbl_replicate] at h; cases h) hK1 hK with ⟨h, -⟩ | ⟨t, h1, h2, h3⟩
  · exact .inl h
  · refine .inr ⟨t, h1, h2, h3, fun s => ⟨fun hn w hw => ?_, fun hn => ?_⟩⟩
    · classical
      have hex : ∃ c, ∃ w, g.Lang s w ∧ w.length = c := ⟨_, w, hw, rfl⟩
      have := (h3 s (Nat.find hex)).2
        ⟨Nat.find_spec hex, fun w' hw' => Nat.find_min' hex ⟨w', hw', rfl⟩⟩
      rw [show t[s]?.join = tbl t s from rfl, this] at hn
      cases hn
    · cases e : t[s]?.join with
      | none => rfl
      | some v =>
        obtain ⟨⟨w, hw, -⟩, -⟩ := (h3 s v).1 e
        exact absurd hw (hn w)

/-- Symbol `i + 1` is the doubling of symbol `i`. -/
def doubling : Cfg :=
  { src := ⟨34, List.replicate 34 none⟩
    rules := (List.range 33).map fun i => ⟨i + 1, [i, i], {}⟩ }

/-- **C57 fails** for a grammar of 33 short rules: the shortest string of its last symbol has
length `2^33`, and the call panics (with overflow checks on). -/
theorem C57_violated_overflow :
    doubling.WF ∧ (∃ w, doubling.Lang 33 w) ∧
      doubling.minimalSentenceLengths (MinimalDistance.new doubling).minLength = .panic := by
  refine ⟨by decide +kernel, ?_, by decide +kernel⟩
  have key : ∀ i ≤ 33, ∃ w, Der doubling.prod [i] w ∧ ∀ a ∈ w, a = 0 := by
    intro i
    induction i with
    | zero => intro _; exact ⟨[0], .refl _, by simp⟩
    | succ i ih =>
      intro hi
      obtain ⟨w, h1, h2⟩ := ih (by omega)
      refine ⟨w ++ w, Der.trans (.prod (α := [i, i]) ?_) (Der.append (u₁ := [i]) h1 h1), ?_⟩
      · exact ⟨⟨i + 1, [i, i], {}⟩, List.mem_map.2 ⟨i, by simp; omega, rfl⟩, rfl, rfl⟩
      · intro a ha
        rcases List.mem_append.1 ha with h | h <;> exact h2 a h
  obtain ⟨w, h1, h2⟩ := key 33 (Nat.le_refl _)
  refine ⟨w, inLang_iff.2 ⟨h1, fun a ha => ?_⟩⟩
  rw [h2 a ha]
  decide +kernel

/-- **C86.** If `K ^ (n + 1) < 2 ^ 32` for `n` symbols and right sides of length at most `K`, the
sentence lengths are computed: a symbol has the length of its shortest terminal string, and no
length exactly when it derives none. -/
theorem C86_sentence_lengths {g : Cfg} (hwf : g.WF) (K : Nat) (hK1 : 1 ≤ K)
    (hK : ∀ r ∈ g.rules, r.rhs.length ≤ K) (hb : K ^ (g.numSyms + 1) < 2 ^ 32) :
    ∃ t, g.minimalSentenceLengths (MinimalDistance.new g).minLength = .ok t ∧
      t.length = g.numSyms ∧ (∀ (s : Nat) v, t[s]?.join = some v ↔ g.MinLen s v) ∧
      ∀ (s : Nat), t[s]?.join = none ↔ ∀ w, ¬ g.Lang s w := by
  rcases C57_sentence_lengths_partial hwf with h | h
  · exfalso
    have hs : LensSound g (MinimalDistance.new g).minLength :=
      ⟨by simp [MinimalDistance.new], fun s v h => by
        simp only [MinimalDistance.new, tbl_replicate] at h; cases h⟩
    rcases minimalSentenceLengths_spec hwf _ hs 1 K (Nat.le_refl _) (fun s v h => by
      simp only [MinimalDistance.new, tbl_replicate] at h; cases h) hK1 hK with
      ⟨-, h'⟩ | ⟨t, h1, -⟩
    · exact h' (by rw [Nat.one_mul]; exact hb)
    · rw [h] at h1; cases h1
  · exact h

/-- The grammar of the crate's test: `A ::= ε; S ::= A x B C y | C; B ::= A A | A C;
C ::= x | y`; symbols `S A B C x y = 0 .. 5`. -/
def exDistance : Cfg :=
  { src := ⟨6, List.replicate 6 none⟩
    rules := [⟨1, [], {}⟩, ⟨0, [1, 4, 2, 3, 5], {}⟩, ⟨0, [3], {}⟩, ⟨2, [1, 1], {}⟩,
      ⟨2, [1, 3], {}⟩, ⟨3, [4], {}⟩, ⟨3, [5], {}⟩] }

example : exDistance.WF ∧ (∀ r ∈ exDistance.rules, r.rhs.length ≤ 5) ∧
    5 ^ (exDistance.numSyms + 1) < 2 ^ 32 ∧
    exDistance.minimalSentenceLengths (MinimalDistance.new exDistance).minLength =
      .ok [some 1, some 0, some 0, some 1, some 1, some 1] := by decide +kernel

/-! ## C87, C58 -/

/-- A sequence of calls of `minimal_distances` on one `MinimalDistance`. -/
def distanceCalls (g : Cfg) (calls : List (List (Nat × Nat) × DistanceDirection)) :
    Res MinimalDistance :=
  calls.foldlM (fun m c => m.minimalDistances g c.1 c.2) (MinimalDistance.new g)

/-- Calls with dots inside of their rules. -/
def ValidDots (g : Cfg) (calls : List (List (Nat × Nat) × DistanceDirection)) : Prop :=
  ∀ c ∈ calls, ∀ x ∈ c.1, ∀ r, g.rules[x.1]? = some r → x.2 ≤ r.rhs.length

instance (g : Cfg) (calls : List (List (Nat × Nat) × DistanceDirection)) :
    Decidable (ValidDots g calls) :=
  decidable_of_iff (∀ c ∈ calls, ∀ x ∈ c.1, ∀ r ∈ g.rules[x.1]?, x.2 ≤ r.rhs.length) Iff.rfl

/-- One call. -/
theorem distanceCalls_one (g : Cfg) (c : List (Nat × Nat) × DistanceDirection) :
    distanceCalls g [c] = (MinimalDistance.new g).minimalDistances g c.1 c.2 := by
  unfold distanceCalls
  rw [List.foldlM_cons]
  cases (MinimalDistance.new g).minimalDistances g c.1 c.2 <;> rfl

theorem calls_spec {g : Cfg} {K M : Nat} (hg : DistCtx g K M)
    (calls : List (List (Nat × Nat) × DistanceDirection)) (hv : ValidDots g calls) :
    ∃ m, distanceCalls g calls = .ok m ∧ Between g K M m ∧
      (∀ c ∈ calls, c.2 ≠ .backward → ∀ x ∈ c.1, Covered g x m) ∧
      ((∀ c ∈ calls, c.2 = .forward) → FSound g (calls.flatMap Prod.fst) m) := by
  have hnew : ∀ ds, FSound g ds (MinimalDistance.new g) := by
    intro ds
    refine ⟨?_, ⟨?_, ?_⟩, ?_⟩
    · intro i row p v hrow hv
      simp only [MinimalDistance.new, List.getElem?_map, Option.map_eq_some_iff] at hrow
      obtain ⟨r, -, rfl⟩ := hrow
      rw [tbl_replicate] at hv; cases hv
    · intro s v h; simp only [MinimalDistance.new, Distances.new, tbl_replicate] at h; cases h
    · intro s v h; simp only [MinimalDistance.new, Distances.new, tbl_replicate] at h; cases h
    · intro s; simp only [MinimalDistance.new, Distances.new, tbl_replicate]
  obtain ⟨m, h1, ⟨h2, h3⟩, h4, h5⟩ := foldlM_keeps
    (fun (m : MinimalDistance) (c : List (Nat × Nat) × DistanceDirection) =>
      m.minimalDistances g c.1 c.2)
    (fun m => Between g K M m ∧
      ((∀ c ∈ calls, c.2 = .forward) → FSound g (calls.flatMap Prod.fst) m)) MLe
    (fun c m => c.2 ≠ .backward → ∀ x ∈ c.1, Covered g x m) MLe.refl (fun _ _ _ => MLe.trans)
    (fun c s s' h hle hd x hx => (h hd x hx).mono hle) calls
    (by
      intro c hc m ⟨hm, hs⟩
      obtain ⟨m', k1, k2, k3, k4, k5, -, k6⟩ := distanceCall_spec hg hm c.1 c.2 (hv c hc)
      exact ⟨m', k1, ⟨k2, fun hf => k6 (hf c hc) _ (fun x hx => List.mem_flatMap.2 ⟨c, hc, hx⟩)
        (hs hf)⟩, k3, k5⟩) (MinimalDistance.new g) ⟨between_new, fun _ => hnew _⟩
  exact ⟨m, h1, h2, h5, h3⟩

/-- **C87.** Any sequence of calls of `minimal_distances` in any directions, with dots inside of
their rules, terminates without panic, if the symbols on right sides derive strings and lengths are
in range. -/
theorem C87_calls_return {g : Cfg} (hwf : g.WF) (K M : Nat) (hK1 : 1 ≤ K) (hM1 : 1 ≤ M)
    (hK : ∀ r ∈ g.rules, r.rhs.length ≤ K) (hM : ∀ s m, g.MinLen s m → m ≤ M)
    (hp : ∀ r ∈ g.rules, ∀ s ∈ r.rhs, ∃ w, g.Lang s w)
    (hb1 : (g.numSyms + 1) * (K * M) < 2 ^ 32) (hb2 : M * K ^ (g.numSyms + 1) < 2 ^ 32)
    (calls : List (List (Nat × Nat) × DistanceDirection)) (hv : ValidDots g calls) :
    DistCtx g K M ∧ ∃ m, distanceCalls g calls = .ok m ∧ m.distances.length = g.rules.length ∧
      ∀ (i : Nat) r row, g.rules[i]? = some r → m.distances[i]? = some row →
        row.length = r.rhs.length + 1 := by
  have hg : DistCtx g K M := by
    refine ⟨hwf, hK, fun r hr s hs => ?_, hb1, hK1, hM1, hM, hb2⟩
    classical
    obtain ⟨w, hw⟩ := hp r hr s hs
    have hex : ∃ c, ∃ w, g.Lang s w ∧ w.length = c := ⟨_, w, hw, rfl⟩
    have : g.MinLen s (Nat.find hex) :=
      ⟨Nat.find_spec hex, fun w' hw' => Nat.find_min' hex ⟨w', hw', rfl⟩⟩
    exact ⟨_, this, hM _ _ this⟩
  obtain ⟨m, h1, h2, -⟩ := calls_spec hg calls hv
  exact ⟨hg, m, h1, h2.inv.rowsLen, h2.inv.rows⟩

/-- **C87.** After any sequence of forward calls, the distance reported at a dot position is the
cost of a forward walk from there to one of the given dots; in the rule of a dot, all positions up
to the dot have a distance, at most the sum of the shortest lengths of the symbols between. -/
theorem C87_forward_walks {g : Cfg} (hwf : g.WF) (K M : Nat) (hK1 : 1 ≤ K) (hM1 : 1 ≤ M)
    (hK : ∀ r ∈ g.rules, r.rhs.length ≤ K) (hM : ∀ s m, g.MinLen s m → m ≤ M)
    (hp : ∀ r ∈ g.rules, ∀ s ∈ r.rhs, ∃ w, g.Lang s w)
    (hb1 : (g.numSyms + 1) * (K * M) < 2 ^ 32) (hb2 : M * K ^ (g.numSyms + 1) < 2 ^ 32)
    (calls : List (List (Nat × Nat) × DistanceDirection)) (hv : ValidDots g calls)
    (hf : ∀ c ∈ calls, c.2 = .forward) :
    ∃ m, distanceCalls g calls = .ok m ∧
      (∀ (i : Nat) row (p : Nat) v, m.distances[i]? = some row → row[p]?.join = some v →
        g.Dist (calls.flatMap Prod.fst) i p v) ∧
      ∀ i d, (i, d) ∈ calls.flatMap Prod.fst → ∀ r, g.rules[i]? = some r → ∀ p ≤ d, ∀ c,
        g.MinLens ((r.rhs.take d).drop p) c →
          ∃ row v, m.distances[i]? = some row ∧ row[p]?.join = some v ∧ v ≤ c := by
  obtain ⟨hg, -⟩ := C87_calls_return hwf K M hK1 hM1 hK hM hp hb1 hb2 calls hv
  obtain ⟨m, h1, h2, h3, h4⟩ := calls_spec hg calls hv
  refine ⟨m, h1, fun i row p v hrow hv => (h4 hf).rows i row p v hrow hv, ?_⟩
  intro i d hd r hr p hp c hc
  obtain ⟨x, hx1, hx2⟩ := List.mem_flatMap.1 hd
  exact h3 x hx1 (by rw [hf x hx1]; exact fun h => nomatch h) (i, d) hx2 r hr p hp c hc

/-- The dot of a rule itself has the distance 0 after a forward call. -/
theorem C87_dot_zero {g : Cfg} (hwf : g.WF) (K M : Nat) (hK1 : 1 ≤ K) (hM1 : 1 ≤ M)
    (hK : ∀ r ∈ g.rules, r.rhs.length ≤ K) (hM : ∀ s m, g.MinLen s m → m ≤ M)
    (hp : ∀ r ∈ g.rules, ∀ s ∈ r.rhs, ∃ w, g.Lang s w)
    (hb1 : (g.numSyms + 1) * (K * M) < 2 ^ 32) (hb2 : M * K ^ (g.numSyms + 1) < 2 ^ 32)
    (dots : List (Nat × Nat)) (hv : ValidDots g [(dots, .forward)]) (i d : Nat) (hd : (i, d) ∈ dots)
    (r : CfgRule) (hr : g.rules[i]? = some r) :
    ∃ m row, (MinimalDistance.new g).minimalDistances g dots .forward = .ok m ∧
      m.distances[i]? = some row ∧ row[d]? = some (some 0) := by
  obtain ⟨m, h1, -, h3⟩ := C87_forward_walks hwf K M hK1 hM1 hK hM hp hb1 hb2 [(dots, .forward)] hv
    (by simp)
  have e : ((r.rhs.take d).drop d) = [] := by
    rw [List.drop_eq_nil_iff, List.length_take]; omega
  obtain ⟨row, v, h4, h5, h6⟩ := h3 i d (by simpa using hd) r hr d (Nat.le_refl _) 0
    (by rw [e]; exact .nil)
  refine ⟨m, row, by rw [distanceCalls_one] at h1; exact h1, h4, ?_⟩
  cases hrow : row[d]? with
  | none => rw [hrow] at h5; cases h5
  | some o =>
    rw [hrow] at h5
    simp only [Option.join_some] at h5
    rw [h5]
    congr 2
    omega

/-- The hypotheses are met by the grammar of the crate's test with its dot, and the distances are
those of the test. -/
theorem exDistance_lens : ∀ s m, exDistance.MinLen s m → m ≤ 1 := by
  obtain ⟨t, h1, -, h3, -⟩ := C86_sentence_lengths (g := exDistance) (by decide +kernel) 5 (by decide)
    (by decide +kernel) (by decide +kernel)
  have e : exDistance.minimalSentenceLengths (MinimalDistance.new exDistance).minLength =
      .ok [some 1, some 0, some 0, some 1, some 1, some 1] := by decide +kernel
  rw [e] at h1
  injection h1 with h1
  intro s m hm
  have := (h3 s m).2 hm
  rw [← h1] at this
  rcases s with _ | _ | _ | _ | _ | _ | s <;> simp at this <;> omega

example : exDistance.WF ∧ (∀ r ∈ exDistance.rules, r.rhs.length ≤ 5) ∧
    (exDistance.numSyms + 1) * (5 * 1) < 2 ^ 32 ∧ 1 * 5 ^ (exDistance.numSyms + 1) < 2 ^ 32 ∧
    ValidDots exDistance [([(1, 3)], .forward)] := by decide +kernel

example : ∀ r ∈ exDistance.rules, ∀ s ∈ r.rhs, ∃ w, exDistance.Lang s w := by
  intro r hr s hs
  obtain ⟨t, h1, h2, h3, h4⟩ := C86_sentence_lengths (g := exDistance) (by decide +kernel) 5
    (by decide) (by decide +kernel) (by decide +kernel)
  have e : exDistance.minimalSentenceLengths (MinimalDistance.new exDistance).minLength =
      .ok [some 1, some 0, some 0, some 1, some 1, some 1] := by decide +kernel
  rw [e] at h1
  injection h1 with h1
  have hs6 : s < 6 := (show exDistance.WF by decide +kernel) r hr |>.2 s hs
  by_contra hc
  have := (h4 s).2 fun w hw => hc ⟨w, hw⟩
  rw [← h1] at this
  rcases s with _ | _ | _ | _ | _ | _ | s <;> simp at this hs6
  omega

example : MinimalDistance.distances <$> distanceCalls exDistance [([(1, 3)], .forward)] =
    .ok [[some 0], [some 1, some 1, some 0, some 0, none, none], [none, none],
      [some 0, some 0, some 0], [some 1, some 1, some 0], [some 1, some 0], [some 1, some 0]] := by
  decide +kernel

/-- **C58, the part that holds**: forward distances are reported at positions they belong to, as
costs of walks from there to a dot (a shortest walk or a longer one). Missing: they depend on the
order of rules (`C58_violated_order`), and backward distances are reported at wrong positions
(`C58_violated_backward`). -/
theorem C58_forward_partial {g : Cfg} (hwf : g.WF) (K M : Nat) (hK1 : 1 ≤ K) (hM1 : 1 ≤ M)
    (hK : ∀ r ∈ g.rules, r.rhs.length ≤ K) (hM : ∀ s m, g.MinLen s m → m ≤ M)
    (hp : ∀ r ∈ g.rules, ∀ s ∈ r.rhs, ∃ w, g.Lang s w)
    (hb1 : (g.numSyms + 1) * (K * M) < 2 ^ 32) (hb2 : M * K ^ (g.numSyms + 1) < 2 ^ 32)
    (dots : List (Nat × Nat)) (hv : ValidDots g [(dots, .forward)]) :
    ∃ m, (MinimalDistance.new g).minimalDistances g dots .forward = .ok m ∧
      ∀ (i : Nat) row (p : Nat) v, m.distances[i]? = some row → row[p]?.join = some v →
        g.Dist dots i p v := by
  obtain ⟨m, h1, h2, -⟩ := C87_forward_walks hwf K M hK1 hM1 hK hM hp hb1 hb2 [(dots, .forward)] hv
    (by simp)
  exact ⟨m, by rw [distanceCalls_one] at h1; exact h1, by simpa using h2⟩

/-- **C58 fails**, order of rules: `D ::= t; B ::= D; X ::= B u` with dots at the start of `B ::= D`
and after `B` in `X ::= B u`. In the reverse order of rules, the rule `D ::= t` gets distances, and
the start of `X ::= B u` gets another one. -/
theorem C58_violated_order :
    ∃ g g' : Cfg, g'.rules = g.rules.reverse ∧ g'.src = g.src ∧ g.WF ∧
      MinimalDistance.distances <$> (MinimalDistance.new g).minimalDistances g [(1, 0), (2, 1)] .forward
        = .ok [[none, none], [some 0, some 0], [some 0, some 0, none]] ∧
      MinimalDistance.distances <$>
          (MinimalDistance.new g').minimalDistances g' [(1, 0), (0, 1)] .forward
        = .ok [[some 1, some 0, none], [some 0, some 0], [some 1, some 0]] := by
  refine ⟨{ src := ⟨5, List.replicate 5 none⟩, rules := [⟨1, [4], {}⟩, ⟨2, [1], {}⟩, ⟨3, [2, 0], {}⟩] },
    { src := ⟨5, List.replicate 5 none⟩, rules := [⟨3, [2, 0], {}⟩, ⟨2, [1], {}⟩, ⟨1, [4], {}⟩] },
    rfl, rfl, by decide +kernel, by decide +kernel, by decide +kernel⟩

/-- **C58 fails**, backward: with the dot after `a` in `S ::= a b c`, going backward from the end
passes `c` and `b`; the distances 0, 1, 2 belong to the positions 1, 2, 3 but are reported at the
positions 0, 1, 2. -/
theorem C58_violated_backward :
    ∃ g : Cfg, g.WF ∧ g.rules.map CfgRule.rhs = [[1, 2, 3]] ∧
      MinimalDistance.distances <$> (MinimalDistance.new g).minimalDistances g [(0, 1)] .backward
        = .ok [[some 0, some 1, some 2, none]] := by
  refine ⟨{ src := ⟨4, List.replicate 4 none⟩, rules := [⟨0, [1, 2, 3], {}⟩] },
    by decide +kernel, rfl, by decide +kernel⟩

/-- **C87**, hypothesis of productive right sides: `A ::= B t; B ::= B t` panics. -/
theorem C87_unproductive_panic :
    ∃ g : Cfg, g.WF ∧
      (MinimalDistance.new g).minimalDistances g [(0, 2)] .forward = .panic := by
  refine ⟨{ src := ⟨3, List.replicate 3 none⟩, rules := [⟨0, [1, 2], {}⟩, ⟨1, [1, 2], {}⟩] },
    by decide +kernel, by decide +kernel⟩

end Verif
