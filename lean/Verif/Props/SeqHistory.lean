import Verif.Model.Sequence
import Verif.Proofs.Binarize

/-! # Property C148: histories of rewritten sequences -/

namespace Verif

open Cfg

/-- The grammar has no limit of right sides, or one of at least three symbols. -/
def Cfg.Holds3 (g : Cfg) : Prop := ∀ n, g.rhsLenInvariant = some n → 3 ≤ n

theorem addRule_holds3 {g : Cfg} (h : g.Holds3) {r : CfgRule} (hr : r.rhs.length ≤ 3) :
    ∃ g' k, g.addRule r = .ok (g', k) ∧ g'.rules = g.rules ++ [r] ∧ g'.numSyms = g.numSyms ∧
      g'.Holds3 := by
  cases e : g.rhsLenInvariant with
  | none =>
    refine ⟨g.pushRule r, 1, by simp [Cfg.addRule, Cfg.rhsLenAllowed, e], rfl, rfl, h⟩
  | some n =>
    have hn := h n e
    obtain ⟨rs, h1, -, h3, -⟩ := addRule_spec g r n (by omega) e
    have := h3 (by omega)
    subst this
    refine ⟨_, _, h1, rfl, ?_, h⟩
    simp [Cfg.appended, Cfg.numSyms, SymbolSource.anon_zero]

/-- From `st` to `st'` rules for the current left side were added, with the current history, and
sequences for new symbols put on the stack. -/
structure SeqStep (N : Nat) (st st' : SeqState) : Prop where
  holds : st'.g.Holds3
  top : st'.top = st.top
  lhs : st'.lhs = st.lhs
  num : N ≤ st'.g.numSyms
  stack : ∀ s ∈ st'.stack, s ∈ st.stack ∨ N ≤ s.lhs
  rules : ∃ rs, st'.g.rules = st.g.rules ++ rs ∧ ∀ r ∈ rs, r.lhs = st.lhs ∧ r.history = st.top

theorem SeqStep.refl {N : Nat} {st : SeqState} (h : st.g.Holds3) (hn : N ≤ st.g.numSyms) :
    SeqStep N st st :=
  ⟨h, rfl, rfl, hn, fun _ => .inl, [], by simp, by simp⟩

theorem SeqStep.trans {N : Nat} {a b c : SeqState} (h : SeqStep N a b) (h' : SeqStep N b c) :
    SeqStep N a c := by
  obtain ⟨rs, h1, h2⟩ := h.rules
  obtain ⟨rs', h3, h4⟩ := h'.rules
  refine ⟨h'.holds, h'.top.trans h.top, h'.lhs.trans h.lhs, h'.num, fun s hs => ?_,
    rs ++ rs', by rw [h3, h1, List.append_assoc], fun r hr => ?_⟩
  · rcases h'.stack s hs with hs | hs
    · exact h.stack s hs
    · exact .inr hs
  · rcases List.mem_append.1 hr with hr | hr
    · exact h2 r hr
    · obtain ⟨h5, h6⟩ := h4 r hr
      exact ⟨h5.trans h.lhs, h6.trans h.top⟩

theorem SeqStep.recurse {N : Nat} {a b : SeqState} (h : SeqStep N a b) (seq : Sequence) :
    SeqStep N a (b.recurse seq).2 := by
  refine h.trans ?_
  unfold SeqState.recurse
  split
  · exact .refl h.holds h.num
  · refine ⟨h.holds, rfl, rfl, ?_, ?_, [], ?_, by simp⟩
    · have : (b.g.nextSym none).2.numSyms = b.g.numSyms + 1 := by
        simp [Cfg.nextSym, Cfg.numSyms, SymbolSource.nextSym]
      have := h.num
      show N ≤ (b.g.nextSym none).2.numSyms
      omega
    · intro s hs
      rcases List.mem_cons.1 hs with rfl | hs
      · exact .inr h.num
      · exact .inl hs
    · show (b.g.nextSym none).2.rules = _
      simp [Cfg.nextSym]

theorem sequenceRhs_keep (l : List (Option Sym)) (h : History) :
    processLinked (.sequenceRhs l) h = .ok h := by
  unfold processLinked
  dsimp only
  split <;> rfl

theorem SeqStep.rhs {N : Nat} {a b c : SeqState} (h : SeqStep N a b) {l : List Sym}
    (e : b.rhs l = .ok c) : SeqStep N a c := by
  refine h.trans ?_
  unfold SeqState.rhs at e
  split at e
  · cases e
  · rename_i hl
    rw [sequenceRhs_keep, Res.bind_ok] at e
    obtain ⟨g', k, h1, h2, h3, h4⟩ := addRule_holds3 h.holds (r := ⟨b.lhs, l, b.top⟩)
      (by simpa using hl)
    simp only [h1, Res.bind_ok] at e
    rw [← Res.ok.inj e]
    exact ⟨h4, rfl, rfl, h3 ▸ h.num, fun _ => .inl, [⟨b.lhs, l, b.top⟩], h2, by simp⟩

theorem SeqStep.rhs2 {N : Nat} {a b c : SeqState} (h : SeqStep N a b) {l l' : List Sym}
    (e : (do let st ← b.rhs l; st.rhs l') = .ok c) : SeqStep N a c := by
  obtain ⟨d, e1, e2⟩ := Res.bind_eq_ok.1 e
  exact (h.rhs e1).rhs e2

theorem SeqStep.reducePositive {N : Nat} {p : Profile} {st st' : SeqState} {seq : Sequence}
    (h : SeqStep N st st) (e : st.reducePositive p seq = .ok st') : SeqStep N st st' := by
  unfold SeqState.reducePositive at e
  obtain ⟨lhs, rhs, start, stop, sep, hist⟩ := seq
  dsimp only at e
  split at e
  · split at e
    · obtain ⟨d, e1, e2⟩ := Res.bind_eq_ok.1 e
      have := h.rhs e1
      split at e2 <;> exact this.rhs e2
    · split at e
      · exact h.rhs e
      · split at e
        · exact ((h.recurse _).recurse _).rhs2 e
        · obtain ⟨x, -, e⟩ := Res.bind_eq_ok.1 e
          obtain ⟨y, -, e⟩ := Res.bind_eq_ok.1 e
          exact (((h.recurse _).recurse _).recurse _).rhs2 e
  · split at e
    · split at e <;> exact h.rhs e
    · split at e
      · obtain ⟨x, -, e⟩ := Res.bind_eq_ok.1 e
        obtain ⟨y, -, e⟩ := Res.bind_eq_ok.1 e
        simp only [Res.bind_ok] at e
        exact ((h.recurse _).recurse _).rhs e
      · obtain ⟨x, -, e⟩ := Res.bind_eq_ok.1 e
        cases stop with
        | none =>
          simp only [Res.bind_ok] at e
          exact ((h.recurse _).recurse _).rhs e
        | some y =>
          obtain ⟨d, -, e⟩ := Res.bind_eq_ok.1 e
          obtain ⟨d', -, e⟩ := Res.bind_eq_ok.1 e
          simp only [Res.bind_ok] at e
          exact ((h.recurse _).recurse _).rhs e

theorem SeqStep.reduce {N : Nat} {p : Profile} {st st' : SeqState} {seq : Sequence}
    (h : st.g.Holds3) (hn : N ≤ st.g.numSyms) (e : st.reduce p seq = .ok st') :
    SeqStep N { st with lhs := seq.lhs } st' := by
  have h0 : SeqStep N { st with lhs := seq.lhs } { st with lhs := seq.lhs } := .refl h hn
  unfold SeqState.reduce at e
  dsimp only at e
  split at e
  · exact ((h0.recurse _).recurse _).rhs2 e
  · split at e
    · split at e
      · exact h0.rhs e
      · obtain ⟨d, e1, e2⟩ := Res.bind_eq_ok.1 e
        exact ((h0.rhs e1).recurse _).rhs e2
    · split at e
      · exact (h0.recurse _).rhs e
      · exact h0.reducePositive e

theorem seqLoop_rules {N : Nat} {p : Profile} (fuel : Nat) {st st' : SeqState} (h : st.g.Holds3)
    (hn : N ≤ st.g.numSyms) (hs : ∀ s ∈ st.stack, N ≤ s.lhs) (e : st.loop p fuel = .ok st') :
    ∃ rs, st'.g.rules = st.g.rules ++ rs ∧ ∀ r ∈ rs, N ≤ r.lhs ∧ r.history = st.top := by
  induction fuel generalizing st with
  | zero =>
    unfold SeqState.loop at e
    split at e
    · rw [← Res.ok.inj e]; exact ⟨[], by simp, by simp⟩
    · cases e
  | succ fuel ih =>
    unfold SeqState.loop at e
    split at e
    · rw [← Res.ok.inj e]; exact ⟨[], by simp, by simp⟩
    · rename_i seq stack hst
      dsimp only at e
      split at e
      · obtain ⟨d, e1, e2⟩ := Res.bind_eq_ok.1 e
        have hstep := SeqStep.reduce (N := N) (st := { st with stack := stack }) h hn e1
        have hall : ∀ s ∈ d.stack, N ≤ s.lhs := by
          intro s hm
          rcases hstep.stack s hm with hm | hm
          · exact hs s (by rw [hst]; exact List.mem_cons_of_mem _ hm)
          · exact hm
        obtain ⟨rs, h1, h2⟩ := hstep.rules
        obtain ⟨rs', h3, h4⟩ := ih hstep.holds hstep.num hall e2
        refine ⟨rs ++ rs', by rw [h3, h1, List.append_assoc], fun r hr => ?_⟩
        rcases List.mem_append.1 hr with hr | hr
        · obtain ⟨h5, h6⟩ := h2 r hr
          exact ⟨by rw [h5]; exact hs seq (by rw [hst]; simp), h6⟩
        · obtain ⟨h5, h6⟩ := h4 r hr
          exact ⟨h5, h6.trans hstep.top⟩
      · cases e

/-- **C148**, partial. Whenever rewriting a sequence returns (the grammar has no limit, or one of
at least three symbols), the rules there were stay in front; each rule added for the left side of
the sequence has the history of the sequence (or of a rule of the left side, if none was given) with
the item, the separator and the mark that it is the top; every other rule added has a new symbol
on the left and the same history (or that of no operation) without the mark. What is missing: when
a history was given, the rules of new symbols also have its origin (`C148_violated`). -/
theorem C148_histories_partial {p : Profile} {g g' : Cfg} (h3 : g.Holds3) {top : Sequence}
    (e : g.rewriteSequence p top = .ok g') :
    ∃ ts bs, g'.rules = g.rules ++ ts ++ bs ∧
      (∀ r ∈ ts, r.lhs = top.lhs ∧ r.history = { top.history.getD (History.new 0) with
        sequence := some ⟨true, top.rhs, top.separator.toOption⟩ }) ∧
      ∀ r ∈ bs, g.numSyms ≤ r.lhs ∧
        r.history = { top.history.getD (History.new (2 ^ 32 - 1)) with
          sequence := some ⟨false, top.rhs, top.separator.toOption⟩ } := by
  unfold Cfg.rewriteSequence processLinked at e
  simp only [Res.bind_ok] at e
  obtain ⟨st, e1, e⟩ := Res.bind_eq_ok.1 e
  obtain ⟨st', e2, e⟩ := Res.bind_eq_ok.1 e
  have hstep := SeqStep.reduce (N := g.numSyms) (by exact h3) (Nat.le_refl _) e1
  obtain ⟨rs, h4, h5⟩ := hstep.rules
  have hall : ∀ s ∈ st.stack, g.numSyms ≤ s.lhs := fun s hs => by
    rcases hstep.stack s hs with hs | hs
    · simp at hs
    · exact hs
  have hloop := fun t => seqLoop_rules (N := g.numSyms) (p := p) seqFuel
    (st := { st with top := t }) (st' := st') hstep.holds hstep.num hall
  obtain ⟨rs', h6, h7⟩ := hloop _ e2
  refine ⟨rs, rs', ?_, h5, h7⟩
  rw [← Res.ok.inj e, h6, h4]

/-- The grammar with three symbols and no rules. -/
def seqHistCfg : Cfg := { src := ⟨3, []⟩ }

/-- **C148** is false when a history was given: for a list of one or more `x`, possibly with a
comma at the end, all the rules have the origin 9, also those of the new symbols 3 and 4. -/
theorem C148_violated : seqHistCfg.Holds3 ∧
    (seqHistCfg.rewriteSequence .debug
        ⟨0, 1, 1, none, .liberal 2, some (History.new 9)⟩).bind
      (fun g => .ok (g.rules.map fun r => (r.lhs, r.rhs, r.history.origin))) =
      .ok [(0, [3], 9), (0, [4], 9), (4, [3, 2], 9), (3, [1], 9), (3, [3, 2, 1], 9)] :=
  ⟨fun n h => by simp [seqHistCfg] at h, by decide +kernel⟩

/-- Without a history the rules of the new symbols have no origin. -/
example : (seqHistCfg.rewriteSequence .debug ⟨0, 1, 1, none, .liberal 2, none⟩).bind
      (fun g => .ok (g.rules.map fun r => (r.lhs, r.history.origin,
        r.history.sequence.map SequenceDetails.top))) =
      .ok [(0, 0, some true), (0, 0, some true), (4, 2 ^ 32 - 1, some false),
        (3, 2 ^ 32 - 1, some false), (3, 2 ^ 32 - 1, some false)] := by
  decide +kernel

end Verif
