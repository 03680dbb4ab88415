import Verif.Proofs.RecursionDistance
import Verif.Props.Distance

/-! # Property C105: distances to recursion -/

namespace Verif

/-- **C105**, which rules are listed: `minimal_distances` returns and lists the rules and kinds that
`recursive_rules` lists, if the symbols on right sides derive strings and lengths are small. The
numbers are wrong (`C105_violated_first`): the first one is always 0. For rules that are recursive at
their first symbol, the second number is at most the length of the shortest text of the rule. -/
theorem C105_recursion_distances_partial {g : Cfg} (hwf : g.WF) (K M : Nat) (hK1 : 1 ≤ K)
    (hM1 : 1 ≤ M) (hK : ∀ r ∈ g.rules, r.rhs.length ≤ K) (hM : ∀ s m, g.MinLen s m → m ≤ M)
    (hp : ∀ r ∈ g.rules, ∀ s ∈ r.rhs, ∃ w, g.Lang s w)
    (hb1 : (g.numSyms + 1) * (K * M) < 2 ^ 32) (hb2 : M * K ^ (g.numSyms + 1) < 2 ^ 32) :
    ∃ l k, g.recursiveRules = .ok k ∧ g.recursionDistances = .ok l ∧
      l.map (fun x => (x.rule, x.recursion)) = k ∧
      ∀ x ∈ l, x.distances.1 = 0 ∧
        (x.recursion.left = true → ∀ c, g.MinLens x.rule.rhs c → x.distances.2 ≤ c) := by
  obtain ⟨hg, -⟩ := C87_calls_return hwf K M hK1 hM1 hK hM hp hb1 hb2 [] (by intro c hc; simp at hc)
  exact recursionDistances_spec hg

/-- `A ::= b b b A | c`; symbols `A b c = 0 .. 2`. -/
def exRecDist : Cfg :=
  { src := ⟨3, List.replicate 3 none⟩, rules := [⟨0, [1, 1, 1, 0], {}⟩, ⟨0, [2], {}⟩] }

theorem exRecDist_lens : ∀ s m, exRecDist.MinLen s m → m ≤ 1 := by
  obtain ⟨t, h1, -, h3, -⟩ := C86_sentence_lengths (g := exRecDist) (by decide +kernel) 4 (by decide)
    (by decide +kernel) (by decide +kernel)
  have e : exRecDist.minimalSentenceLengths (MinimalDistance.new exRecDist).minLength =
      .ok [some 1, some 1, some 1] := by decide +kernel
  rw [e] at h1
  injection h1 with h1
  intro s m hm
  have := (h3 s m).2 hm
  rw [← h1] at this
  rcases s with _ | _ | _ | s <;> simp at this <;> omega

/-- The hypotheses are met. -/
example : exRecDist.WF ∧ (∀ r ∈ exRecDist.rules, r.rhs.length ≤ 4) ∧
    (∀ s m, exRecDist.MinLen s m → m ≤ 1) ∧
    (∀ r ∈ exRecDist.rules, ∀ s ∈ r.rhs, ∃ w, exRecDist.Lang s w) ∧
    (exRecDist.numSyms + 1) * (4 * 1) < 2 ^ 32 ∧ 1 * 4 ^ (exRecDist.numSyms + 1) < 2 ^ 32 := by
  refine ⟨by decide +kernel, by decide +kernel, exRecDist_lens, fun r hr s hs => ?_,
    by decide +kernel, by decide +kernel⟩
  obtain ⟨t, h1, -, -, h4⟩ := C86_sentence_lengths (g := exRecDist) (by decide +kernel) 4 (by decide)
    (by decide +kernel) (by decide +kernel)
  have e : exRecDist.minimalSentenceLengths (MinimalDistance.new exRecDist).minLength =
      .ok [some 1, some 1, some 1] := by decide +kernel
  rw [e] at h1
  injection h1 with h1
  by_contra h
  have := (h4 s).2 fun w hw => h ⟨w, hw⟩
  rw [← h1] at this
  have hlt : s < 3 := ((show exRecDist.WF by decide +kernel) r hr).2 s hs
  rcases s with _ | _ | _ | s <;> simp at this hlt <;> omega

/-- **C105 is false**: in `A ::= b b b A | c` the only recursive symbol of the first rule has three
terminals before it and none behind it, and the distances reported are 0 and 1. -/
theorem C105_violated_first : ∃ (g : Cfg) (r : CfgRule) (A b : Sym) (k : RecursionKind),
    g.WF ∧ r ∈ g.rules ∧ r.lhs = A ∧ r.rhs = [b, b, b, A] ∧ g.Term b ∧
    (∃ w, g.Lang A w) ∧ g.recursionDistances = .ok [⟨r, k, (0, 1)⟩] := by
  refine ⟨exRecDist, ⟨0, [1, 1, 1, 0], {}⟩, 0, 1, ⟨false, false, true⟩, by decide +kernel,
    by decide +kernel, rfl, rfl, by unfold Cfg.Term; decide +kernel, ⟨[2], ?_⟩, by decide +kernel⟩
  refine ⟨derives_iff_der.2 (.prod ⟨⟨0, [2], {}⟩, by decide +kernel, rfl, rfl⟩), ?_⟩
  simp only [List.mem_singleton, forall_eq]
  unfold Cfg.Term
  decide +kernel

/-- **C105 is false**: with a recursion that does not end, `A ::= A b`, the call panics. -/
theorem C105_violated_panic : ∃ g : Cfg, g.WF ∧
    g.rules.map (fun r => (r.lhs, r.rhs)) = [(0, [0, 1])] ∧ g.recursionDistances = .panic :=
  ⟨{ src := ⟨2, List.replicate 2 none⟩, rules := [⟨0, [0, 1], {}⟩] }, by decide +kernel, rfl,
    by decide +kernel⟩

end Verif
