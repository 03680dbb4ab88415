import Verif.Proofs.Steps

/-! # Proofs about the loop that builds a grammar from rules -/

namespace Verif

/-- The symbol of a name. -/
def LoadState.Named (st : LoadState) (n : Text) (s : Sym) : Prop :=
  ∃ i : Nat, st.intern[i]? = some n ∧ st.symMap.lookup i = some s

/-- The state of the loop: the grammar, its named symbols, the symbols for repetitions, and other
symbols. -/
structure LoadInv (st : LoadState) (reps : List RepSym) (extra : List Sym)
    (done : List (Sym × List Piece)) : Prop where
  g : PieceInv st.cfg reps done
  nodup : st.intern.Nodup
  len : st.cfg.src.names.length = st.cfg.numSyms
  known : ∀ i s, st.symMap.lookup i = some s → ∃ n, st.intern[i]? = some n ∧
    s < st.cfg.numSyms ∧ ¬ IsRep reps s ∧ s ∉ extra ∧
    st.cfg.src.names[s]? = some (some (String.ofList n))
  total : ∀ (i : Nat) n, st.intern[i]? = some n → ∃ s, st.symMap.lookup i = some s
  cover : ∀ s, s < st.cfg.numSyms → IsRep reps s ∨ s ∈ extra ∨ ∃ n, st.Named n s
  apart : ∀ s ∈ extra, s < st.cfg.numSyms ∧ ¬ IsRep reps s

namespace LoadInv

variable {st : LoadState} {reps : List RepSym} {extra : List Sym} {done : List (Sym × List Piece)}

theorem new : LoadInv {} [] [] [] := by
  refine ⟨PieceInv.new, List.nodup_nil, rfl, ?_, ?_, ?_, ?_⟩
  · intro i s h; cases h
  · intro i n h; cases h
  · intro s hs; exact absurd hs (Nat.not_lt_zero s)
  · intro s hs; cases hs

theorem named_lt (h : LoadInv st reps extra done) {n : Text} {s : Sym} (hn : st.Named n s) :
    s < st.cfg.numSyms ∧ ¬ IsRep reps s ∧ s ∉ extra ∧
      st.cfg.src.names[s]? = some (some (String.ofList n)) := by
  obtain ⟨i, h1, h2⟩ := hn
  obtain ⟨n', h3, h4⟩ := h.known i s h2
  rw [h1] at h3
  cases h3
  exact h4

theorem named_inj (h : LoadInv st reps extra done) {n n' : Text} {s : Sym} (hn : st.Named n s)
    (hn' : st.Named n' s) : n = n' := by
  have h1 := (h.named_lt hn).2.2.2
  rw [(h.named_lt hn').2.2.2] at h1
  have h1 := Option.some.inj (Option.some.inj h1)
  rw [← String.toList_ofList (l := n), ← String.toList_ofList (l := n'), h1]

theorem named_fun (h : LoadInv st reps extra done) {n : Text} {s s' : Sym} (hn : st.Named n s)
    (hn' : st.Named n s') : s = s' := by
  obtain ⟨i, h1, h2⟩ := hn
  obtain ⟨j, h3, h4⟩ := hn'
  have : i = j := by
    obtain ⟨hi, ei⟩ := List.getElem?_eq_some_iff.1 h1
    obtain ⟨hj, ej⟩ := List.getElem?_eq_some_iff.1 h3
    exact (List.Nodup.getElem_inj_iff h.nodup).1 (ei.trans ej.symm)
  subst this
  rw [h2] at h4
  exact Option.some.inj h4

theorem named_of_mem (h : LoadInv st reps extra done) {n : Text} (hn : n ∈ st.intern) :
    ∃ s, st.Named n s := by
  obtain ⟨i, hi⟩ := List.mem_iff_getElem?.1 hn
  obtain ⟨s, hs⟩ := h.total i n hi
  exact ⟨s, i, hi, hs⟩

theorem mem_of_named {n : Text} {s : Sym} (h : st.Named n s) : n ∈ st.intern := by
  obtain ⟨i, hi, -⟩ := h
  exact List.mem_iff_getElem?.2 ⟨i, hi⟩

/-- Changing the grammar except for its symbols. -/
theorem change (h : LoadInv st reps extra done) {g : Cfg} {done' : List (Sym × List Piece)} {b : Bool}
    (hg : PieceInv g reps done') (hs : g.src = st.cfg.src) :
    LoadInv { st with cfg := g, internEmpty := b } reps extra done' := by
  have hn : g.numSyms = st.cfg.numSyms := by unfold Cfg.numSyms; rw [hs]
  refine ⟨hg, h.nodup, ?_, ?_, h.total, ?_, ?_⟩
  · show g.src.names.length = g.numSyms
    rw [hn, hs]
    exact h.len
  · show ∀ i s, st.symMap.lookup i = some s → ∃ n, st.intern[i]? = some n ∧
      s < g.numSyms ∧ ¬ IsRep reps s ∧ s ∉ extra ∧ g.src.names[s]? = some (some (String.ofList n))
    rw [hn, hs]
    exact h.known
  · show ∀ s, s < g.numSyms → _
    rw [hn]
    exact h.cover
  · show ∀ s ∈ extra, s < g.numSyms ∧ _
    rw [hn]
    exact h.apart

/-- What a step adds to the names. -/
structure Grows (st st' : LoadState) (names : List Text) : Prop where
  named : ∀ n s, st.Named n s → st'.Named n s
  intern : ∀ n, n ∈ st'.intern ↔ n ∈ st.intern ∨ n ∈ names
  roots : st'.cfg.roots = st.cfg.roots
  empty : st'.internEmpty = st.internEmpty
  syms : st.cfg.numSyms ≤ st'.cfg.numSyms
  pre : ∃ more, st'.intern = st.intern ++ more
  steps : Cfg.Steps NoOrigin st.cfg st'.cfg
  keys : (st.symMap.map Prod.fst).Nodup → (st'.symMap.map Prod.fst).Nodup

theorem Grows.refl (st : LoadState) : Grows st st [] :=
  ⟨fun _ _ h => h, by simp, rfl, rfl, Nat.le_refl _, ⟨[], by simp⟩, .refl, id⟩

theorem Grows.trans {st₁ st₂ st₃ : LoadState} {n₁ n₂ : List Text} (h₁ : Grows st₁ st₂ n₁)
    (h₂ : Grows st₂ st₃ n₂) : Grows st₁ st₃ (n₁ ++ n₂) :=
  ⟨fun n s h => h₂.named n s (h₁.named n s h), fun n => by
    rw [h₂.intern, h₁.intern, List.mem_append, or_assoc], h₂.roots.trans h₁.roots,
    h₂.empty.trans h₁.empty, Nat.le_trans h₁.syms h₂.syms, by
    obtain ⟨m₁, e₁⟩ := h₁.pre
    obtain ⟨m₂, e₂⟩ := h₂.pre
    exact ⟨m₁ ++ m₂, by rw [e₂, e₁, List.append_assoc]⟩, h₁.steps.trans h₂.steps, fun h => h₂.keys (h₁.keys h)⟩

theorem symFor (h : LoadInv st reps extra done) (name : Text) :
    ∃ s st', st.symFor name = (s, st') ∧ LoadInv st' reps extra done ∧ st'.Named name s ∧
      Grows st st' [name] := by
  unfold LoadState.symFor StringInterner.getOrIntern
  by_cases hm : name ∈ st.intern
  · rw [if_pos hm]
    dsimp only
    have hi : st.intern[st.intern.idxOf name]? = some name := List.getElem?_idxOf hm
    obtain ⟨s, hs⟩ := h.total _ _ hi
    rw [hs]
    exact ⟨s, st, rfl, h, ⟨_, hi, hs⟩, fun _ _ h => h, by
      intro n; simp only [List.mem_singleton]
      exact ⟨.inl, fun h => h.elim id (fun e => e ▸ hm)⟩, rfl, rfl, Nat.le_refl _,
      ⟨[], by simp⟩, .refl, id⟩
  · rw [if_neg hm]
    dsimp only
    have hnone : st.symMap.lookup st.intern.length = none := by
      cases e : st.symMap.lookup st.intern.length with
      | none => rfl
      | some s =>
        obtain ⟨n, hn, -⟩ := h.known _ _ e
        rw [List.getElem?_eq_none (Nat.le_refl _)] at hn
        cases hn
    rw [hnone]
    dsimp only
    have hmono : ∀ (i : Nat) n, st.intern[i]? = some n → (st.intern ++ [name])[i]? = some n := by
      intro i n hi
      rw [List.getElem?_append_left (List.getElem?_eq_some_iff.1 hi).1, hi]
    have hnew : (st.intern ++ [name])[st.intern.length]? = some name := by simp
    have hlook : ∀ i, ((st.intern.length, st.cfg.numSyms) :: st.symMap).lookup i =
        if i = st.intern.length then some st.cfg.numSyms else st.symMap.lookup i := by
      intro i
      by_cases e : i = st.intern.length
      · rw [if_pos e, e, List.lookup_cons_self]
      · rw [if_neg e, List.lookup_cons, beq_eq_false_iff_ne.2 e]
    have hold : ∀ n s, st.Named n s → LoadState.Named { st with
        cfg := (st.cfg.nextSym (some (String.ofList name))).2, intern := st.intern ++ [name],
        symMap := (st.intern.length, st.cfg.numSyms) :: st.symMap } n s := by
      rintro n s ⟨i, h1, h2⟩
      refine ⟨i, hmono i n h1, ?_⟩
      rw [hlook, if_neg, h2]
      have := (List.getElem?_eq_some_iff.1 h1).1
      omega
    have hself : LoadState.Named { st with
        cfg := (st.cfg.nextSym (some (String.ofList name))).2, intern := st.intern ++ [name],
        symMap := (st.intern.length, st.cfg.numSyms) :: st.symMap } name st.cfg.numSyms :=
      ⟨_, hnew, by rw [hlook, if_pos rfl]⟩
    refine ⟨st.cfg.numSyms, _, rfl, ⟨h.g.fresh _, ?_, ?_, ?_, ?_, ?_, ?_⟩, hself, hold, ?_, rfl, rfl,
      Nat.le_succ _, ⟨_, rfl⟩, .fresh _ .refl,
      fun hk => List.nodup_cons.2 ⟨lookup_none_not_mem hnone, hk⟩⟩
    · show (st.intern ++ [name]).Nodup
      rw [List.nodup_append]
      refine ⟨h.nodup, by simp, ?_⟩
      rintro a ha b hb rfl
      exact hm (List.mem_singleton.1 hb ▸ ha)
    · show (st.cfg.src.names ++ [_]).length = st.cfg.numSyms + 1
      rw [List.length_append, h.len]; rfl
    · intro i s hi
      have hi : ((st.intern.length, st.cfg.numSyms) :: st.symMap).lookup i = some s := hi
      rw [hlook] at hi
      show ∃ n, (st.intern ++ [name])[i]? = some n ∧ s < st.cfg.numSyms + 1 ∧ _ ∧ _ ∧
        (st.cfg.src.names ++ [some (String.ofList name)])[s]? = _
      by_cases e : i = st.intern.length
      · rw [if_pos e] at hi
        cases hi
        refine ⟨name, e ▸ hnew, Nat.lt_succ_self _, ?_, ?_, ?_⟩
        · rintro ⟨x, m, hm⟩; exact absurd (h.g.repLt _ _ _ hm).1 (Nat.lt_irrefl _)
        · intro hm; exact absurd (h.apart _ hm).1 (Nat.lt_irrefl _)
        · rw [← h.len]; simp
      · rw [if_neg e] at hi
        obtain ⟨n, h1, h2, h3, h4, h5⟩ := h.known i s hi
        refine ⟨n, hmono i n h1, by omega, h3, h4, ?_⟩
        rw [List.getElem?_append_left (by rw [h.len]; exact h2), h5]
    · intro i n hi
      show ∃ s, List.lookup i ((st.intern.length, st.cfg.numSyms) :: st.symMap) = some s
      have hi : (st.intern ++ [name])[i]? = some n := hi
      rw [hlook]
      split
      · exact ⟨_, rfl⟩
      · rename_i e
        refine h.total i n ?_
        rw [List.getElem?_append_left] at hi
        · exact hi
        · have := (List.getElem?_eq_some_iff.1 hi).1
          simp at this
          omega
    · intro s hs
      have hs : s < st.cfg.numSyms + 1 := hs
      by_cases e : s = st.cfg.numSyms
      · exact .inr (.inr ⟨name, e ▸ hself⟩)
      · rcases h.cover s (by omega) with h1 | h1 | ⟨n, h1⟩
        · exact .inl h1
        · exact .inr (.inl h1)
        · exact .inr (.inr ⟨n, hold n s h1⟩)
    · intro s hs
      have := h.apart s hs
      exact ⟨Nat.lt_succ_of_lt this.1, this.2⟩
    · intro n
      show n ∈ st.intern ++ [name] ↔ _
      exact List.mem_append

/-- Adding symbols for repetitions. -/
theorem addReps (h : LoadInv st reps extra done) {g : Cfg} {new : List RepSym} {k : Nat}
    (hg : PieceInv g (reps ++ new) done)
    (hn : g.src = ⟨st.cfg.numSyms + k, st.cfg.src.names ++ List.replicate k none⟩)
    (hnew : ∀ s, IsRep new s ↔ st.cfg.numSyms ≤ s ∧ s < st.cfg.numSyms + k) :
    LoadInv { st with cfg := g } (reps ++ new) extra done := by
  have hnum : g.numSyms = st.cfg.numSyms + k := by unfold Cfg.numSyms; rw [hn]; rfl
  have hrep : ∀ s, IsRep (reps ++ new) s ↔ IsRep reps s ∨ IsRep new s := by
    intro s
    unfold IsRep
    simp only [List.mem_append, exists_or]
  have hno : ∀ s, s < st.cfg.numSyms → ¬ IsRep reps s → ¬ IsRep (reps ++ new) s := by
    intro s hs h1 h2
    rcases (hrep s).1 h2 with h2 | h2
    · exact h1 h2
    · have := ((hnew s).1 h2).1; omega
  refine ⟨hg, h.nodup, ?_, ?_, h.total, ?_, ?_⟩
  · show g.src.names.length = g.numSyms
    rw [hnum, hn]
    simp [h.len]
  · intro i s hi
    obtain ⟨n, h1, h2, h3, h4, h5⟩ := h.known i s hi
    refine ⟨n, h1, ?_, hno s h2 h3, h4, ?_⟩
    · show s < g.numSyms; omega
    · show g.src.names[s]? = _
      rw [hn]
      dsimp only
      rw [List.getElem?_append_left (by rw [h.len]; exact h2), h5]
  · intro s hs
    have hs : s < g.numSyms := hs
    by_cases e : s < st.cfg.numSyms
    · rcases h.cover s e with h1 | h1 | h1
      · exact .inl ((hrep s).2 (.inl h1))
      · exact .inr (.inl h1)
      · exact .inr (.inr h1)
    · exact .inl ((hrep s).2 (.inr ((hnew s).2 (by omega))))
  · intro s hs
    obtain ⟨h1, h2⟩ := h.apart s hs
    exact ⟨by show s < g.numSyms; omega, hno s h1 h2⟩

theorem rewritePlus (p : Profile) (h : LoadInv st reps extra done) {x : Sym}
    (hx : x < st.cfg.numSyms) (hrep : ¬ IsRep reps x) :
    ∃ s st' new, st.repeated p 1 none x = .ok (s, st') ∧ LoadInv st' (reps ++ new) extra done ∧
      (s, x, 1) ∈ reps ++ new ∧ Grows st st' [] := by
  unfold LoadState.repeated
  obtain ⟨h₁, h₂, e⟩ := sequence_plus p (g := (st.cfg.nextSym none).2) (by exact h.g.limit)
    st.cfg.numSyms x
  have e' : (st.cfg.nextSym none) = (st.cfg.numSyms, (st.cfg.nextSym none).2) := rfl
  rw [e']
  dsimp only
  rw [e, Res.bind_ok]
  have hnew : ∀ s, IsRep [((st.cfg.numSyms, x, 1) : RepSym)] s ↔
      st.cfg.numSyms ≤ s ∧ s < st.cfg.numSyms + 1 := by
    intro s
    unfold IsRep
    simp only [List.mem_singleton, Prod.mk.injEq]
    constructor
    · rintro ⟨_, _, rfl, -⟩; omega
    · intro hs; exact ⟨x, 1, by omega, rfl, rfl⟩
  refine ⟨_, _, [(st.cfg.numSyms, x, 1)], rfl, h.addReps (k := 1) ?_ rfl hnew, by simp,
    fun _ _ h => h, by simp, rfl, rfl, Nat.le_succ _, ⟨[], by simp⟩,
    (Cfg.Steps.fresh none .refl).trans (steps_sequence p (by exact h.g.limit) rfl e), id⟩
  refine h.g.addReps rfl (Nat.le_succ _) h.g.limit ?_ ?_ ?_ ?_ ?_ ?_
  · intro r hr
    show r.lhs < st.cfg.numSyms + 1 ∧ ∀ s ∈ r.rhs, s < st.cfg.numSyms + 1
    simp only [List.mem_cons, List.not_mem_nil, or_false] at hr
    rcases hr with rfl | rfl
    · exact ⟨by simp, by simp; omega⟩
    · exact ⟨by simp, by simp; omega⟩
  · intro f y m hm
    simp only [List.mem_singleton, Prod.mk.injEq] at hm
    obtain ⟨rfl, rfl, rfl⟩ := hm
    exact ⟨Nat.le_refl _, Nat.lt_succ_self _, hx, hrep, Nat.le_refl _⟩
  · intro f y m y' m' hm hm'
    simp only [List.mem_singleton, Prod.mk.injEq] at hm hm'
    exact ⟨hm.2.1.trans hm'.2.1.symm, hm.2.2.trans hm'.2.2.symm⟩
  · intro r hr
    simp only [List.mem_cons, List.not_mem_nil, or_false] at hr
    rcases hr with rfl | rfl
    · exact .inl ⟨x, by simp, .inl rfl⟩
    · exact .inl ⟨x, by simp, .inr rfl⟩
  · intro f y hm
    simp only [List.mem_singleton, Prod.mk.injEq] at hm
    obtain ⟨rfl, rfl, -⟩ := hm
    exact ⟨⟨_, .head _, rfl, rfl⟩, ⟨_, .tail _ (.head _), rfl, rfl⟩⟩
  · intro f y hm
    simp at hm

theorem rewriteStar (p : Profile) (h : LoadInv st reps extra done) {x : Sym}
    (hx : x < st.cfg.numSyms) (hrep : ¬ IsRep reps x) :
    ∃ s st' new, st.repeated p 0 none x = .ok (s, st') ∧ LoadInv st' (reps ++ new) extra done ∧
      (s, x, 0) ∈ reps ++ new ∧ Grows st st' [] := by
  unfold LoadState.repeated
  obtain ⟨h₁, h₂, h₃, h₄, e⟩ := sequence_star p (g := (st.cfg.nextSym none).2) (by exact h.g.limit)
    st.cfg.numSyms x
  have e' : (st.cfg.nextSym none) = (st.cfg.numSyms, (st.cfg.nextSym none).2) := rfl
  rw [e']
  dsimp only
  rw [e, Res.bind_ok]
  have hnum : (st.cfg.nextSym none).2.numSyms = st.cfg.numSyms + 1 := rfl
  rw [hnum] at *
  have hnew : ∀ s, IsRep [((st.cfg.numSyms, x, 0) : RepSym), (st.cfg.numSyms + 1, x, 1)] s ↔
      st.cfg.numSyms ≤ s ∧ s < st.cfg.numSyms + 2 := by
    intro s
    unfold IsRep
    simp only [List.mem_cons, List.not_mem_nil, or_false, Prod.mk.injEq]
    constructor
    · rintro ⟨_, _, ⟨rfl, -⟩ | ⟨rfl, -⟩⟩ <;> omega
    · intro hs
      rcases (show s = st.cfg.numSyms ∨ s = st.cfg.numSyms + 1 by omega) with rfl | rfl
      · exact ⟨x, 0, .inl ⟨rfl, rfl, rfl⟩⟩
      · exact ⟨x, 1, .inr ⟨rfl, rfl, rfl⟩⟩
  refine ⟨_, _, [(st.cfg.numSyms, x, 0), (st.cfg.numSyms + 1, x, 1)], rfl,
    h.addReps (k := 2) ?_ ?_ hnew, by simp, fun _ _ h => h, by simp, rfl, rfl,
    Nat.le_add_right _ 2, ⟨[], by simp⟩,
    (Cfg.Steps.fresh none .refl).trans (steps_sequence p (by exact h.g.limit) rfl e), id⟩
  · refine h.g.addReps rfl (Nat.le_add_right _ 2) h.g.limit ?_ ?_ ?_ ?_ ?_ ?_
    · intro r hr
      show r.lhs < st.cfg.numSyms + 1 + 1 ∧ ∀ s ∈ r.rhs, s < st.cfg.numSyms + 1 + 1
      simp only [List.mem_cons, List.not_mem_nil, or_false] at hr
      rcases hr with rfl | rfl | rfl | rfl
      · exact ⟨by simp; omega, by simp⟩
      · exact ⟨by simp; omega, by simp⟩
      · exact ⟨by simp, by simp; omega⟩
      · exact ⟨by simp, by simp; omega⟩
    · intro f y m hm
      show _ ∧ f < st.cfg.numSyms + 1 + 1 ∧ _
      simp only [List.mem_cons, List.not_mem_nil, or_false, Prod.mk.injEq] at hm
      rcases hm with ⟨rfl, rfl, rfl⟩ | ⟨rfl, rfl, rfl⟩
      · exact ⟨Nat.le_refl _, by omega, hx, hrep, Nat.zero_le _⟩
      · exact ⟨Nat.le_succ _, by omega, hx, hrep, Nat.le_refl _⟩
    · intro f y m y' m' hm hm'
      simp only [List.mem_cons, List.not_mem_nil, or_false, Prod.mk.injEq] at hm hm'
      omega
    · intro r hr
      simp only [List.mem_cons, List.not_mem_nil, or_false] at hr
      rcases hr with rfl | rfl | rfl | rfl
      · exact .inr ⟨x, st.cfg.numSyms + 1, by simp, by simp, .inl rfl⟩
      · exact .inr ⟨x, st.cfg.numSyms + 1, by simp, by simp, .inr rfl⟩
      · exact .inl ⟨x, by simp, .inl rfl⟩
      · exact .inl ⟨x, by simp, .inr rfl⟩
    · intro f y hm
      simp only [List.mem_cons, List.not_mem_nil, or_false, Prod.mk.injEq] at hm
      rcases hm with ⟨_, _, h⟩ | ⟨rfl, rfl, -⟩
      · omega
      · exact ⟨⟨_, .tail _ (.tail _ (.head _)), rfl, rfl⟩,
          ⟨_, .tail _ (.tail _ (.tail _ (.head _))), rfl, rfl⟩⟩
    · intro f y hm
      simp only [List.mem_cons, List.not_mem_nil, or_false, Prod.mk.injEq] at hm
      rcases hm with ⟨rfl, rfl, -⟩ | ⟨_, _, h⟩
      · exact ⟨⟨_, .head _, rfl, rfl⟩, st.cfg.numSyms + 1, by simp, ⟨_, .tail _ (.head _), rfl, rfl⟩⟩
      · omega
  · show SymbolSource.mk _ _ = _
    simp [Cfg.nextSym, SymbolSource.nextSym]
    rfl

/-- The least number of a repetition. -/
def _root_.Verif.Rep.least : Rep → Option Nat
  | .none => none
  | .zeroOrMore => some 0
  | .oneOrMore => some 1

theorem named (p : Profile) (h : LoadInv st reps extra done) (name : Text) (rep : Rep) :
    ∃ s st' new x, st.named p name rep = .ok (s, st') ∧ LoadInv st' (reps ++ new) extra done ∧
      st'.Named name x ∧ Piece.Is (reps ++ new) ⟨x, rep.least⟩ s ∧ Grows st st' [name] := by
  obtain ⟨x, st₁, e, h₁, hn, hg⟩ := h.symFor name
  unfold LoadState.named
  rw [e]
  dsimp only
  have hlt := h₁.named_lt hn
  cases rep with
  | none => exact ⟨x, st₁, [], x, rfl, by simpa using h₁, hn, rfl, hg⟩
  | zeroOrMore =>
    obtain ⟨s, st₂, new, e2, h₂, hm, hg₂⟩ := h₁.rewriteStar p hlt.1 hlt.2.1
    exact ⟨s, st₂, new, x, e2, h₂, hg₂.named _ _ hn, hm, by simpa using hg.trans hg₂⟩
  | oneOrMore =>
    obtain ⟨s, st₂, new, e2, h₂, hm, hg₂⟩ := h₁.rewritePlus p hlt.1 hlt.2.1
    exact ⟨s, st₂, new, x, e2, h₂, hg₂.named _ _ hn, hm, by simpa using hg.trans hg₂⟩

theorem isRep_mono {new : List RepSym} {s : Sym} (h : IsRep reps s) : IsRep (reps ++ new) s := by
  obtain ⟨x, m, hm⟩ := h
  exact ⟨x, m, List.mem_append.2 (.inl hm)⟩

theorem piece_mono {new : List RepSym} {p : Piece} {s : Sym} (h : Piece.Is reps p s) :
    Piece.Is (reps ++ new) p s := by
  unfold Piece.Is at h ⊢
  split <;> rename_i e <;> rw [e] at h
  · exact h
  · exact List.mem_append.2 (.inl h)

end LoadInv

namespace Basic

/-- The piece stands for the fragment. -/
def Fragment.Is (st : LoadState) (f : Fragment) (p : Piece) : Prop :=
  st.Named f.ident p.sym ∧ p.rep = f.rep.least

theorem fragments_spec (p : Profile) {extra : List Sym} {done : List (Sym × List Piece)}
    (fs : List Fragment) :
    ∀ {st : LoadState} {reps : List RepSym}, LoadInv st reps extra done →
    ∃ syms st' new ps, fragments p st fs = .ok (syms, st') ∧ LoadInv st' (reps ++ new) extra done ∧
      List.Forall₂ (Piece.Is (reps ++ new)) ps syms ∧ List.Forall₂ (Fragment.Is st') fs ps ∧
      LoadInv.Grows st st' (fs.map Fragment.ident) := by
  induction fs with
  | nil =>
    intro st reps h
    exact ⟨[], st, [], [], rfl, by simpa using h, .nil, .nil, .refl _⟩
  | cons f fs ih =>
    intro st reps h
    obtain ⟨s, st₁, new₁, x, e1, h₁, hn, hp, hg₁⟩ := h.named p f.ident f.rep
    obtain ⟨syms, st₂, new₂, ps, e2, h₂, h3, h4, hg₂⟩ := ih h₁
    refine ⟨s :: syms, st₂, new₁ ++ new₂, ⟨x, f.rep.least⟩ :: ps, ?_,
      by rw [← List.append_assoc]; exact h₂, ?_, ?_, by simpa using hg₁.trans hg₂⟩
    · unfold fragments
      rw [e1, Res.bind_ok]
      dsimp only
      rw [e2, Res.bind_ok]
    · rw [← List.append_assoc]
      exact .cons (LoadInv.piece_mono hp) h3
    · exact .cons ⟨hg₂.named _ _ hn, rfl⟩ h4

/-- The rule of pieces stands for the rule. -/
def Rule.Is (st : LoadState) (r : Rule) (d : Sym × List Piece) : Prop :=
  st.Named r.lhs d.1 ∧ List.Forall₂ (Fragment.Is st) r.rhs d.2

/-- The names in a rule. -/
def Rule.names (r : Rule) : List Text := r.lhs :: r.rhs.map Fragment.ident

theorem Rule.Is.grows {st st' : LoadState} {ns : List Text} (h : LoadInv.Grows st st' ns) {r : Rule}
    {d : Sym × List Piece} (hr : r.Is st d) : r.Is st' d :=
  ⟨h.named _ _ hr.1, hr.2.imp fun _ _ hf => ⟨h.named _ _ hf.1, hf.2⟩⟩

theorem loadRule_spec (p : Profile) {st : LoadState} {reps : List RepSym} {extra : List Sym}
    {done : List (Sym × List Piece)} (h : LoadInv st reps extra done) (idx : Nat) (rule : Rule) :
    ∃ st' new d, loadRule p st idx rule = .ok st' ∧
      LoadInv st' (reps ++ new) extra (done ++ [d]) ∧ rule.Is st' d ∧
      (∀ n s, st.Named n s → st'.Named n s) ∧
      (∀ n, n ∈ st'.intern ↔ n ∈ st.intern ∨ n ∈ rule.names) ∧ st'.internEmpty = false ∧
      st'.cfg.roots = if st.internEmpty then [d.1] else st.cfg.roots := by
  obtain ⟨A, st₁, e1, h₁, hn₁, hg₁⟩ := h.symFor rule.lhs
  have h₂ : LoadInv (st₁.first A) reps extra done := by
    unfold LoadState.first
    split
    · exact h₁.change (h₁.g.congr rfl rfl rfl) rfl
    · exact h₁
  have hnm : ∀ n s, st₁.Named n s ↔ (st₁.first A).Named n s := by
    intro n s
    unfold LoadState.first
    split <;> exact Iff.rfl
  have hin : (st₁.first A).intern = st₁.intern := by unfold LoadState.first; split <;> rfl
  have hem : (st₁.first A).internEmpty = false := by
    unfold LoadState.first
    split
    · rfl
    · rename_i h; simpa using h
  have hrt : (st₁.first A).cfg.roots = if st.internEmpty then [A] else st.cfg.roots := by
    unfold LoadState.first
    rw [← hg₁.empty, ← hg₁.roots]
    split <;> rfl
  obtain ⟨syms, st₃, new, ps, e3, h₃, h4, h5, hg₃⟩ := fragments_spec p rule.rhs h₂
  have hA := hg₃.named _ _ ((hnm _ _).1 hn₁)
  have hAl := h₃.named_lt hA
  have e4 : st₃.add A idx syms = .ok { st₃ with
      cfg := st₃.cfg.pushRule ⟨A, syms, History.ofRoot (.origin (idx + 1))⟩ } := by
    unfold LoadState.add
    rw [addRule_push h₃.g.limit, Res.bind_ok]
  refine ⟨_, new, (A, ps), ?_, h₃.change (b := st₃.internEmpty) (h₃.g.rule
    (hist := History.ofRoot (.origin (idx + 1))) hAl.1 hAl.2.1 ?_ h4) rfl,
    ⟨hA, h5⟩, fun n s hn => hg₃.named _ _ ((hnm n s).1 (hg₁.named _ _ hn)), ?_, ?_, ?_⟩
  · unfold loadRule
    rw [e1]
    dsimp only
    rw [e3, Res.bind_ok]
    dsimp only
    rw [e4]
  · intro q hq
    obtain ⟨f, -, hf⟩ := forall₂_right h5 hq
    have := h₃.named_lt hf.1
    exact ⟨this.1, this.2.1⟩
  · intro n
    show n ∈ st₃.intern ↔ _
    rw [hg₃.intern, hin, hg₁.intern, Rule.names, or_assoc, List.mem_singleton, List.mem_cons]
  · exact hg₃.empty.trans hem
  · exact hg₃.roots.trans hrt

theorem loadRules_spec (p : Profile) {extra : List Sym} (rules : List Rule) :
    ∀ {st : LoadState} {reps : List RepSym} {done : List (Sym × List Piece)} (idx : Nat),
    LoadInv st reps extra done →
    ∃ st' new dn, loadRules p st idx rules = .ok st' ∧
      LoadInv st' (reps ++ new) extra (done ++ dn) ∧ List.Forall₂ (Rule.Is st') rules dn ∧
      (∀ n s, st.Named n s → st'.Named n s) ∧
      (∀ n, n ∈ st'.intern ↔ n ∈ st.intern ∨ ∃ r ∈ rules, n ∈ r.names) ∧
      st'.cfg.roots = if st.internEmpty then
        (match dn with | [] => st.cfg.roots | d :: _ => [d.1]) else st.cfg.roots := by
  induction rules with
  | nil =>
    intro st reps done idx h
    exact ⟨st, [], [], rfl, by simpa using h, .nil, fun _ _ h => h, by simp, by simp⟩
  | cons r rules ih =>
    intro st reps done idx h
    obtain ⟨st₁, new₁, d, e1, h₁, hr, hn₁, hi₁, hem₁, hrt₁⟩ := loadRule_spec p h idx r
    obtain ⟨st₂, new₂, dn, e2, h₂, hrs, hn₂, hi₂, hrt₂⟩ := ih (idx + 1) h₁
    refine ⟨st₂, new₁ ++ new₂, d :: dn, ?_, by simpa using h₂, .cons ?_ hrs,
      fun n s hn => hn₂ _ _ (hn₁ _ _ hn), ?_, ?_⟩
    · unfold loadRules
      rw [e1, Res.bind_ok, e2]
    · exact ⟨hn₂ _ _ hr.1, hr.2.imp fun _ _ hf => ⟨hn₂ _ _ hf.1, hf.2⟩⟩
    · intro n
      rw [hi₂, hi₁]
      simp only [List.mem_cons, exists_eq_or_imp, or_assoc]
    · rw [hrt₂, if_neg (by rw [hem₁]; decide), hrt₁]

end Basic

end Verif
