import Verif.Proofs.Cycles
import Verif.Proofs.Remap

/-! # Property C149: the rules and histories left by rewriting cycles -/

namespace Verif

open Cycles

/-- A rule with every symbol replaced according to `τ`; the history stays. -/
def substRule (τ : Sym → Sym) (r : CfgRule) : CfgRule := ⟨τ r.lhs, r.rhs.map τ, r.history⟩

theorem changes_iff {g : Cfg} {tr : Translation} (h : ∀ s, tr.apply s = rep g s ∧
    ((tr s).join.isSome = true ↔ rep g s ≠ s)) (r : CfgRule) :
    tr.changes r = true ↔ substRule (rep g) r ≠ r := by
  unfold Translation.changes
  rw [List.any_eq_true, ← not_iff_not, not_not]
  constructor
  · intro hn
    have hs : ∀ s ∈ r.lhs :: r.rhs, rep g s = s := by
      intro s hs
      by_contra hne
      exact hn ⟨s, hs, (h s).2.2 hne⟩
    unfold substRule
    rw [hs r.lhs (by simp)]
    have : r.rhs.map (rep g) = r.rhs := by
      rw [List.map_congr_left (g := id) fun s hs' => hs s (by simp [hs'])]; simp
    rw [this]
  · rintro e ⟨s, hs, hc⟩
    apply (h s).2.1 hc
    rcases List.mem_cons.1 hs with rfl | hs
    · exact congrArg CfgRule.lhs e
    · have e' : r.rhs.map (rep g) = r.rhs.map id := by
        rw [List.map_id]; exact congrArg CfgRule.rhs e
      exact List.map_inj_left.1 e' s hs

open Classical in
/-- **C149.** `rewrite_cycles`, on a grammar whose rules respect its limit of lengths (if any),
changes nothing but the list of rules. Let `τ s` be the left side of the first rule on a cycle
through `s`, or `s` when there is none. The rules on cycles are gone. Every other rule is still
there, once, with its symbols replaced by `τ` and with its own history: first the rules in which
`τ` changes no symbol, then the others, both in the old order. -/
theorem C149_rules {g : Cfg} (hwf : g.WF) (hlen : ∀ n, g.rhsLenInvariant = some n →
      2 ≤ n ∧ ∀ r ∈ g.rules, r.rhs.length ≤ n) :
    ∃ c c', Cycles.new g = .ok c ∧ c.rewriteCycles = .ok c' ∧
      ∃ τ : Sym → Sym,
        (∀ s, ¬ UnitChain g.prod s s → τ s = s) ∧
        (∀ s, UnitChain g.prod s s → ∃ r pre post, g.rules = pre ++ r :: post ∧
          CycleRule g.prod r.lhs r.rhs ∧ SameCycle g.prod r.lhs s ∧ τ s = r.lhs ∧
          ∀ r' ∈ pre, ¬ (CycleRule g.prod r'.lhs r'.rhs ∧ SameCycle g.prod r'.lhs s)) ∧
        c'.grammar = { g with
          rules :=
            (g.rules.filter fun r => ¬ CycleRule g.prod r.lhs r.rhs ∧ substRule τ r = r) ++
            (g.rules.filter fun r => ¬ CycleRule g.prod r.lhs r.rhs ∧ substRule τ r ≠ r).map
              fun r => ⟨τ r.lhs, r.rhs.map τ, r.history⟩ } := by
  obtain ⟨c, h, hf⟩ := new_spec hwf
  have hlim : g.LimitOk := fun n hn => (hlen n hn).1
  obtain ⟨c', h1, -⟩ := hf.rewrite hwf hlim
  refine ⟨c, c', h, h1, rep g, fun s hs => ?_, fun s hs => ?_, ?_⟩
  · rcases rep_cases g s with ⟨h, -⟩ | ⟨-, h⟩
    · exact (hs h).elim
    · exact h
  · cases e : firstOn g.prod g.rules s with
    | none =>
      obtain ⟨α, ⟨r, hr, h1, rfl⟩, hc⟩ := hs.rule
      rw [firstOn, List.find?_eq_none] at e
      have := e r hr
      simp only [decide_eq_true_iff, not_and] at this
      rw [h1] at this
      exact (this hc ⟨hs, hs⟩).elim
    | some r =>
      have hrep : rep g s = r.lhs := by rw [rep, e]; rfl
      rw [firstOn, List.find?_eq_some_iff_append] at e
      obtain ⟨h1, pre, post, h2, h3⟩ := e
      rw [decide_eq_true_iff] at h1
      exact ⟨r, pre, post, h2, h1.1, h1.2, hrep, fun r' hr' hh => by
        have := h3 r' hr'
        rw [decide_eq_true (p := _ ∧ _) hh] at this
        simp at this⟩
  · obtain ⟨b, h2, h3⟩ := hf.isCycleFree
    unfold Cycles.rewriteCycles at h1
    rw [h2] at h1
    have hg := hf.grammar
    cases b
    · obtain ⟨tr, h4, h5⟩ := hf.collect hwf g.rules (fun _ h => h) (fun _ => none) (by simp)
      have h5 : ∀ s, tr s = (firstOn g.prod g.rules s).map fun r =>
          if s = r.lhs then none else some r.lhs := fun s => by rw [h5]; simp
      have hap := Fresh.apply h5
      have hrule : tr.rule = fun r => ⟨rep g r.lhs, r.rhs.map (rep g), r.history⟩ := by
        funext r
        unfold Translation.rule
        rw [(hap r.lhs).1]
        congr 1
        exact List.map_congr_left fun s _ => (hap s).1
      simp only [Res.bind_ok, Bool.false_eq_true, if_false, hg, h4] at h1
      rw [addRules_same] at h1
      · simp only [Res.bind_ok] at h1
        rw [← Res.ok.inj h1, hrule]
        simp only [List.filter_filter]
        congr 2
        · apply List.filter_congr
          intro r _
          have := changes_iff hap r
          cases e : tr.changes r <;> simp_all
        · congr 1
          apply List.filter_congr
          intro r _
          have := changes_iff hap r
          cases e : tr.changes r <;> simp_all
      · intro n hn
        refine ⟨(hlen n hn).1, fun r hr => ?_, fun r hr => ?_⟩
        · exact (hlen n hn).2 r (List.mem_of_mem_filter (List.mem_of_mem_filter hr))
        · obtain ⟨r₀, hr₀, rfl⟩ := List.mem_map.1 hr
          have := (hlen n hn).2 r₀ (List.mem_of_mem_filter (List.mem_of_mem_filter hr₀))
          simpa [Translation.rule] using this
    · have hfree := h3.1 rfl
      simp only [Res.bind_ok, if_true] at h1
      rw [← Res.ok.inj h1]
      show c.grammar = _
      rw [hg]
      have hrep : ∀ s, rep g s = s := by
        intro s
        rcases rep_cases g s with ⟨h, -⟩ | ⟨-, h⟩
        · exact (hfree s h).elim
        · exact h
      have hsub : ∀ r, substRule (rep g) r = r := by
        intro r
        have : r.rhs.map (rep g) = r.rhs := by
          rw [List.map_congr_left (g := id) fun s _ => hrep s]; simp
        unfold substRule
        rw [hrep, this]
      have ha : (g.rules.filter fun r =>
          ¬ CycleRule g.prod r.lhs r.rhs ∧ substRule (rep g) r = r) = g.rules := by
        rw [List.filter_eq_self]
        intro r hr
        have : ¬ CycleRule g.prod r.lhs r.rhs :=
          fun hc => hfree r.lhs (hc.self ⟨r, hr, rfl, rfl⟩)
        simp [this, hsub]
      have hb : (g.rules.filter fun r =>
          ¬ CycleRule g.prod r.lhs r.rhs ∧ substRule (rep g) r ≠ r) = [] := by
        rw [List.filter_eq_nil_iff]
        intro r hr
        simp [hsub]
      rw [ha, hb]
      simp

/-- `A ::= B`, `B ::= A b`, `B ::= A`, `C ::= c`, `C ::= b B` with the origins 1 to 5; symbols
`A B C b c = 0 .. 4`. -/
def exCycleHist : Cfg :=
  { src := ⟨5, [none, none, none, none, none]⟩
    rhsLenInvariant := some 2
    rules := [⟨0, [1], { origin := 1 }⟩, ⟨1, [0, 3], { origin := 2 }⟩, ⟨1, [0], { origin := 3 }⟩,
      ⟨2, [4], { origin := 4 }⟩, ⟨2, [3, 1], { origin := 5 }⟩]
    roots := [2] }

example : exCycleHist.WF := by decide +kernel
example : ∀ n, exCycleHist.rhsLenInvariant = some n →
    2 ≤ n ∧ ∀ r ∈ exCycleHist.rules, r.rhs.length ≤ n := by
  intro n hn
  obtain rfl : 2 = n := by simpa [exCycleHist] using hn
  decide +kernel
example : (do .ok (← (← Cycles.new exCycleHist).rewriteCycles).grammar.rules) =
    .ok [⟨2, [4], { origin := 4 }⟩, ⟨0, [0, 3], { origin := 2 }⟩,
      ⟨2, [3, 0], { origin := 5 }⟩] := by decide +kernel

end Verif
