import Verif.Proofs.LoadParse
import Verif.Proofs.Regexp

/-! # Proofs about building the grammar in the loaders -/

namespace Verif

/-! ## The rules of a repetition -/

theorem addRule_push {g : Cfg} (hlim : g.rhsLenInvariant = none) (r : CfgRule) :
    g.addRule r = .ok (g.pushRule r, 1) := by
  unfold Cfg.addRule Cfg.rhsLenAllowed
  rw [hlim]
  rfl

theorem seq_rhs (st : SeqState) (α : List Sym) (hα : α.length ≤ 3)
    (hlim : st.g.rhsLenInvariant = none) :
    st.rhs α = .ok { st with g := st.g.pushRule ⟨st.lhs, α, st.top⟩ } := by
  unfold SeqState.rhs
  rw [if_neg (by omega)]
  have e : processLinked (.sequenceRhs [α[0]?, α[1]?, α[2]?]) st.top = .ok st.top := by
    unfold processLinked
    dsimp only
    split <;> rfl
  rw [e, Res.bind_ok, addRule_push hlim, Res.bind_ok]

theorem reduce_plus (p : Profile) {st : SeqState} (hlim : st.g.rhsLenInvariant = none) (f x : Sym) (h : Option History) :
    st.reduce p ⟨f, x, 1, none, .null, h⟩ = .ok { st with
      lhs := f, g := (st.g.pushRule ⟨f, [x], st.top⟩).pushRule ⟨f, [f, x], st.top⟩ } := by
  unfold SeqState.reduce
  dsimp only
  rw [if_neg (by omega)]
  unfold SeqState.reducePositive
  dsimp only
  rw [if_pos rfl, seq_rhs _ _ (by simp) (by exact hlim), Res.bind_ok,
    seq_rhs _ _ (by simp) (by exact hlim)]

theorem sequence_plus (p : Profile) {g : Cfg} (hlim : g.rhsLenInvariant = none) (f x : Sym) :
    ∃ h₁ h₂, g.rewriteSequence p ⟨f, x, 1, none, .null, none⟩ =
      .ok { g with rules := g.rules ++ [⟨f, [x], h₁⟩, ⟨f, [f, x], h₂⟩] } := by
  unfold Cfg.rewriteSequence
  simp only [processLinked, Res.bind_ok]
  generalize Option.getD none (History.ofRoot (RootHistoryNode.rule f)) = a
  generalize Option.getD none (History.ofRoot RootHistoryNode.noOp) = b
  generalize { a with sequence := some ⟨true, x, Separator.null.toOption⟩ } = a'
  generalize { b with sequence := some ⟨false, x, Separator.null.toOption⟩ } = b'
  rw [reduce_plus p (by exact hlim), Res.bind_ok]
  refine ⟨a', a', ?_⟩
  unfold SeqState.loop Cfg.pushRule
  simp

theorem sequence_star (p : Profile) {g : Cfg} (hlim : g.rhsLenInvariant = none) (f x : Sym) :
    ∃ h₁ h₂ h₃ h₄, g.rewriteSequence p ⟨f, x, 0, none, .null, none⟩ =
      .ok { (g.nextSym none).2 with rules := g.rules ++ [⟨f, [], h₁⟩, ⟨f, [g.numSyms], h₂⟩,
        ⟨g.numSyms, [x], h₃⟩, ⟨g.numSyms, [g.numSyms, x], h₄⟩] } := by
  unfold Cfg.rewriteSequence
  simp only [processLinked, Res.bind_ok]
  have e : ∀ top, SeqState.reduce p { g := g, top := top } ⟨f, x, 0, none, .null, none⟩ = .ok
      { g := (((g.pushRule ⟨f, [], top⟩).nextSym none).2).pushRule ⟨f, [g.numSyms], top⟩, lhs := f, top := top,
        map := [(⟨x, 1, none, .null⟩, g.numSyms)], stack := [⟨g.numSyms, x, 1, none, .null, none⟩] } := by
    intro top
    unfold SeqState.reduce
    dsimp only
    rw [if_pos rfl, if_neg (by simp), seq_rhs _ _ (by simp) hlim, Res.bind_ok]
    unfold SeqState.recurse
    simp only [List.lookup_nil, Sequence.inclusive, Sequence.key]
    rw [seq_rhs _ _ (by simp) (by exact hlim)]
    rfl
  generalize Option.getD none (History.ofRoot (RootHistoryNode.rule f)) = a
  generalize Option.getD none (History.ofRoot RootHistoryNode.noOp) = b
  generalize { a with sequence := some ⟨true, x, Separator.null.toOption⟩ } = a'
  generalize { b with sequence := some ⟨false, x, Separator.null.toOption⟩ } = b'
  rw [e, Res.bind_ok]
  refine ⟨a', a', b', b', ?_⟩
  rw [show seqFuel = 998 + 1 + 1 from rfl]
  unfold SeqState.loop
  dsimp only
  rw [if_pos (by decide), reduce_plus p (by exact hlim), Res.bind_ok]
  unfold SeqState.loop
  dsimp only
  rw [Res.bind_ok]
  simp [Cfg.pushRule, Cfg.nextSym]

/-! ## Grammars made of rules with repetitions -/

/-- A symbol, or at least so many of it. -/
structure Piece where
  sym : Sym
  rep : Option Nat

/-- The strings that a piece stands for. -/
def Piece.Means (p : Piece) (α : List Sym) : Prop :=
  match p.rep with
  | none => α = [p.sym]
  | some m => ∃ n, m ≤ n ∧ α = List.replicate n p.sym

/-- The productions of rules with repetitions. -/
def pieceProd (done : List (Sym × List Piece)) : Productions := fun A α =>
  ∃ ps, (A, ps) ∈ done ∧ ∃ parts, List.Forall₂ Piece.Means ps parts ∧ α = parts.flatten

/-- A repetition: the symbol made for it, the repeated symbol, and the least number. -/
abbrev RepSym := Sym × Sym × Nat

/-- The symbol stands for the piece. -/
def Piece.Is (reps : List RepSym) (p : Piece) (s : Sym) : Prop :=
  match p.rep with
  | none => s = p.sym
  | some m => (s, p.sym, m) ∈ reps

/-- The symbol was made for a repetition. -/
def IsRep (reps : List RepSym) (s : Sym) : Prop := ∃ x m, (s, x, m) ∈ reps

/-- The grammar consists of the rules `done`, with the symbols `reps` for the repetitions. -/
structure PieceInv (g : Cfg) (reps : List RepSym) (done : List (Sym × List Piece)) : Prop where
  wf : g.WF
  limit : g.rhsLenInvariant = none
  repLt : ∀ f x m, (f, x, m) ∈ reps → f < g.numSyms ∧ x < g.numSyms ∧ ¬ IsRep reps x ∧ m ≤ 1
  fwd : ∀ A α, g.prod A α → (∃ ps, (A, ps) ∈ done ∧ List.Forall₂ (Piece.Is reps) ps α) ∨
    (∃ x, (A, x, 1) ∈ reps ∧ (α = [x] ∨ α = [A, x])) ∨
    ∃ x y, (A, x, 0) ∈ reps ∧ (y, x, 1) ∈ reps ∧ (α = [] ∨ α = [y])
  rules : ∀ A ps, (A, ps) ∈ done → ∃ α, List.Forall₂ (Piece.Is reps) ps α ∧ g.prod A α
  plus : ∀ f x, (f, x, 1) ∈ reps → g.prod f [x] ∧ g.prod f [f, x]
  star : ∀ f x, (f, x, 0) ∈ reps → g.prod f [] ∧ ∃ y, (y, x, 1) ∈ reps ∧ g.prod f [y]
  uniq : ∀ f x m x' m', (f, x, m) ∈ reps → (f, x', m') ∈ reps → x = x' ∧ m = m'
  lhs : ∀ A ps, (A, ps) ∈ done → A < g.numSyms ∧ ¬ IsRep reps A ∧
    ∀ p ∈ ps, p.sym < g.numSyms ∧ ¬ IsRep reps p.sym

namespace PieceInv

variable {g : Cfg} {reps : List RepSym} {done : List (Sym × List Piece)}

theorem new : PieceInv Cfg.new [] [] := by
  refine ⟨by decide, rfl, ?_, ?_, ?_, ?_, ?_, ?_, ?_⟩
  all_goals first | (intro a b c h; cases h; done) | (intro a b h; cases h; done) | skip
  · rintro A α ⟨r, hr, -⟩; cases hr
  · intro f x m x' m' h; cases h

theorem congr {g' : Cfg} (h : PieceInv g reps done) (h1 : g'.rules = g.rules)
    (h2 : g'.numSyms = g.numSyms) (h3 : g'.rhsLenInvariant = g.rhsLenInvariant) :
    PieceInv g' reps done := by
  have hp : g'.prod = g.prod := by unfold Cfg.prod; rw [h1]
  refine ⟨?_, h3.trans h.limit, by rw [h2]; exact h.repLt, by rw [hp]; exact h.fwd,
    by rw [hp]; exact h.rules, by rw [hp]; exact h.plus, by rw [hp]; exact h.star, h.uniq,
    by rw [h2]; exact h.lhs⟩
  have := h.wf
  unfold Cfg.WF at this ⊢
  rw [h1, h2]
  exact this

theorem fresh (h : PieceInv g reps done) (name : Option String) :
    PieceInv (g.nextSym name).2 reps done := by
  have hn : (g.nextSym name).2.numSyms = g.numSyms + 1 := rfl
  have hp : (g.nextSym name).2.prod = g.prod := rfl
  refine ⟨?_, h.limit, ?_, by rw [hp]; exact h.fwd,
    by rw [hp]; exact h.rules, by rw [hp]; exact h.plus, by rw [hp]; exact h.star, h.uniq, ?_⟩
  · intro r hr
    obtain ⟨h1, h2⟩ := h.wf r hr
    rw [hn]
    exact ⟨by omega, fun s hs => by have := h2 s hs; omega⟩
  · intro f x m hm
    obtain ⟨h1, h2, h3⟩ := h.repLt f x m hm
    rw [hn]
    exact ⟨by omega, by omega, h3⟩
  · intro A ps hm
    obtain ⟨h1, h2, h3⟩ := h.lhs A ps hm
    rw [hn]
    exact ⟨by omega, h2, fun p hp => ⟨by have := (h3 p hp).1; omega, (h3 p hp).2⟩⟩

theorem pieces_lt (h : PieceInv g reps done) {ps : List Piece} {α : List Sym}
    (hα : List.Forall₂ (Piece.Is reps) ps α) (hps : ∀ p ∈ ps, p.sym < g.numSyms) :
    ∀ s ∈ α, s < g.numSyms := by
  induction hα with
  | nil => simp
  | @cons p s ps α h1 _ ih =>
    intro t ht
    rcases List.mem_cons.1 ht with rfl | ht
    · unfold Piece.Is at h1
      split at h1
      · rw [h1]; exact hps p (by simp)
      · exact (h.repLt _ _ _ h1).1
    · exact ih (fun p hp => hps p (by simp [hp])) t ht

theorem prod_push {r : CfgRule} {A : Sym} {α : List Sym} :
    (g.pushRule r).prod A α ↔ g.prod A α ∨ (r.lhs = A ∧ r.rhs = α) := by
  unfold Cfg.prod Cfg.pushRule
  simp only [List.mem_append, List.mem_singleton]
  constructor
  · rintro ⟨r', hr | rfl, h1, h2⟩
    · exact .inl ⟨r', hr, h1, h2⟩
    · exact .inr ⟨h1, h2⟩
  · rintro (⟨r', hr, h1, h2⟩ | ⟨h1, h2⟩)
    · exact ⟨r', .inl hr, h1, h2⟩
    · exact ⟨r, .inr rfl, h1, h2⟩

theorem rule (h : PieceInv g reps done) {A : Sym} {ps : List Piece} {α : List Sym} {hist : History}
    (hA : A < g.numSyms) (hrep : ¬ IsRep reps A)
    (hps : ∀ p ∈ ps, p.sym < g.numSyms ∧ ¬ IsRep reps p.sym)
    (hα : List.Forall₂ (Piece.Is reps) ps α) :
    PieceInv (g.pushRule ⟨A, α, hist⟩) reps (done ++ [(A, ps)]) := by
  have hmono : ∀ A α, g.prod A α → (g.pushRule ⟨A, α, hist⟩).prod A α := fun A α h =>
    prod_push.2 (.inl h)
  refine ⟨?_, h.limit, h.repLt, ?_, ?_, ?_, ?_, h.uniq, ?_⟩
  · intro r hr
    rcases List.mem_append.1 hr with hr | hr
    · exact h.wf r hr
    · rw [List.mem_singleton.1 hr]
      exact ⟨hA, h.pieces_lt hα fun p hp => (hps p hp).1⟩
  · intro B β hp
    rcases prod_push.1 hp with hp | ⟨rfl, rfl⟩
    · rcases h.fwd B β hp with ⟨ps', h1, h2⟩ | h1
      · exact .inl ⟨ps', List.mem_append.2 (.inl h1), h2⟩
      · exact .inr h1
    · exact .inl ⟨ps, by simp, hα⟩
  · intro B ps' hm
    rcases List.mem_append.1 hm with hm | hm
    · obtain ⟨β, h1, h2⟩ := h.rules B ps' hm
      exact ⟨β, h1, prod_push.2 (.inl h2)⟩
    · cases List.mem_singleton.1 hm
      exact ⟨α, hα, prod_push.2 (.inr ⟨rfl, rfl⟩)⟩
  · intro f x hm
    exact ⟨prod_push.2 (.inl (h.plus f x hm).1), prod_push.2 (.inl (h.plus f x hm).2)⟩
  · intro f x hm
    obtain ⟨h1, y, h2, h3⟩ := h.star f x hm
    exact ⟨prod_push.2 (.inl h1), y, h2, prod_push.2 (.inl h3)⟩
  · intro B ps' hm
    rcases List.mem_append.1 hm with hm | hm
    · exact h.lhs B ps' hm
    · cases List.mem_singleton.1 hm
      exact ⟨hA, hrep, hps⟩

theorem is_mono {reps' : List RepSym} (hsub : ∀ e ∈ reps, e ∈ reps') {ps : List Piece}
    {α : List Sym} (h : List.Forall₂ (Piece.Is reps) ps α) : List.Forall₂ (Piece.Is reps') ps α := by
  refine h.imp fun p s hp => ?_
  unfold Piece.Is at hp ⊢
  split <;> rename_i e <;> rw [e] at hp
  · exact hp
  · exact hsub _ hp

/-- Adding symbols for repetitions. -/
theorem addReps (h : PieceInv g reps done) {g' : Cfg} {new : List RepSym} {rs : List CfgRule}
    (hr : g'.rules = g.rules ++ rs) (hn : g.numSyms ≤ g'.numSyms)
    (hl : g'.rhsLenInvariant = none)
    (hrs : ∀ r ∈ rs, r.lhs < g'.numSyms ∧ ∀ s ∈ r.rhs, s < g'.numSyms)
    (hnew : ∀ f x m, (f, x, m) ∈ new → g.numSyms ≤ f ∧ f < g'.numSyms ∧ x < g.numSyms ∧
      ¬ IsRep reps x ∧ m ≤ 1)
    (huniq : ∀ f x m x' m', (f, x, m) ∈ new → (f, x', m') ∈ new → x = x' ∧ m = m')
    (hfwd : ∀ r ∈ rs, (∃ x, (r.lhs, x, 1) ∈ new ∧ (r.rhs = [x] ∨ r.rhs = [r.lhs, x])) ∨
      ∃ x y, (r.lhs, x, 0) ∈ new ∧ (y, x, 1) ∈ new ∧ (r.rhs = [] ∨ r.rhs = [y]))
    (hplus : ∀ f x, (f, x, 1) ∈ new → (∃ r ∈ rs, r.lhs = f ∧ r.rhs = [x]) ∧
      ∃ r ∈ rs, r.lhs = f ∧ r.rhs = [f, x])
    (hstar : ∀ f x, (f, x, 0) ∈ new → (∃ r ∈ rs, r.lhs = f ∧ r.rhs = []) ∧
      ∃ y, (y, x, 1) ∈ new ∧ ∃ r ∈ rs, r.lhs = f ∧ r.rhs = [y]) :
    PieceInv g' (reps ++ new) done := by
  have hprod : ∀ A α, g'.prod A α ↔ g.prod A α ∨ ∃ r ∈ rs, r.lhs = A ∧ r.rhs = α := by
    intro A α
    unfold Cfg.prod
    rw [hr]
    simp only [List.mem_append, or_and_right, exists_or]
  have hnrep : ∀ x, x < g.numSyms → ¬ IsRep reps x → ¬ IsRep (reps ++ new) x := by
    rintro x hx hno ⟨y, m, hm⟩
    rcases List.mem_append.1 hm with hm | hm
    · exact hno ⟨y, m, hm⟩
    · have := (hnew _ _ _ hm).1; omega
  refine ⟨?_, hl, ?_, ?_, ?_, ?_, ?_, ?_, ?_⟩
  · intro r hm
    rw [hr] at hm
    rcases List.mem_append.1 hm with hm | hm
    · obtain ⟨h1, h2⟩ := h.wf r hm
      exact ⟨by omega, fun s hs => by have := h2 s hs; omega⟩
    · exact hrs r hm
  · intro f x m hm
    rcases List.mem_append.1 hm with hm | hm
    · obtain ⟨h1, h2, h3, h4⟩ := h.repLt f x m hm
      exact ⟨by omega, by omega, hnrep x h2 h3, h4⟩
    · obtain ⟨h1, h2, h3, h4, h5⟩ := hnew f x m hm
      exact ⟨h2, by omega, hnrep x h3 h4, h5⟩
  · intro A α hp
    rcases (hprod A α).1 hp with hp | ⟨r, hm, rfl, rfl⟩
    · rcases h.fwd A α hp with ⟨ps, h1, h2⟩ | ⟨x, h1, h2⟩ | ⟨x, y, h1, h2, h3⟩
      · exact .inl ⟨ps, h1, is_mono (fun e he => List.mem_append.2 (.inl he)) h2⟩
      · exact .inr (.inl ⟨x, List.mem_append.2 (.inl h1), h2⟩)
      · exact .inr (.inr ⟨x, y, List.mem_append.2 (.inl h1), List.mem_append.2 (.inl h2), h3⟩)
    · rcases hfwd r hm with ⟨x, h1, h2⟩ | ⟨x, y, h1, h2, h3⟩
      · exact .inr (.inl ⟨x, List.mem_append.2 (.inr h1), h2⟩)
      · exact .inr (.inr ⟨x, y, List.mem_append.2 (.inr h1), List.mem_append.2 (.inr h2), h3⟩)
  · intro A ps hm
    obtain ⟨α, h1, h2⟩ := h.rules A ps hm
    exact ⟨α, is_mono (fun e he => List.mem_append.2 (.inl he)) h1, (hprod _ _).2 (.inl h2)⟩
  · intro f x hm
    rcases List.mem_append.1 hm with hm | hm
    · exact ⟨(hprod _ _).2 (.inl (h.plus f x hm).1), (hprod _ _).2 (.inl (h.plus f x hm).2)⟩
    · exact ⟨(hprod _ _).2 (.inr (hplus f x hm).1), (hprod _ _).2 (.inr (hplus f x hm).2)⟩
  · intro f x hm
    rcases List.mem_append.1 hm with hm | hm
    · obtain ⟨h1, y, h2, h3⟩ := h.star f x hm
      exact ⟨(hprod _ _).2 (.inl h1), y, List.mem_append.2 (.inl h2), (hprod _ _).2 (.inl h3)⟩
    · obtain ⟨h1, y, h2, h3⟩ := hstar f x hm
      exact ⟨(hprod _ _).2 (.inr h1), y, List.mem_append.2 (.inr h2), (hprod _ _).2 (.inr h3)⟩
  · intro f x m x' m' hm hm'
    rcases List.mem_append.1 hm with hm | hm <;> rcases List.mem_append.1 hm' with hm' | hm'
    · exact h.uniq f x m x' m' hm hm'
    · have := (h.repLt _ _ _ hm).1; have := (hnew _ _ _ hm').1; omega
    · have := (h.repLt _ _ _ hm').1; have := (hnew _ _ _ hm).1; omega
    · exact huniq f x m x' m' hm hm'
  · intro A ps hm
    obtain ⟨h1, h2, h3⟩ := h.lhs A ps hm
    exact ⟨by omega, hnrep A h1 h2, fun p hp => ⟨by have := (h3 p hp).1; omega,
      hnrep _ (h3 p hp).1 (h3 p hp).2⟩⟩

/-! ### Language -/

theorem term_iff (h : PieceInv g reps done) {a : Sym} :
    g.Term a ↔ a < g.numSyms ∧ ¬ IsRep reps a ∧ ∀ ps, (a, ps) ∉ done := by
  unfold Cfg.Term
  constructor
  · rintro ⟨h1, h2⟩
    refine ⟨h1, ?_, ?_⟩
    · rintro ⟨x, m, hm⟩
      have hm1 := (h.repLt _ _ _ hm).2.2.2
      rcases (show m = 0 ∨ m = 1 by omega) with rfl | rfl
      · obtain ⟨⟨r, hr, e, -⟩, -⟩ := h.star _ _ hm
        exact h2 r hr e
      · obtain ⟨⟨r, hr, e, -⟩, -⟩ := h.plus _ _ hm
        exact h2 r hr e
    · intro ps hm
      obtain ⟨α, -, r, hr, e, -⟩ := h.rules _ _ hm
      exact h2 r hr e
  · rintro ⟨h1, h2, h3⟩
    refine ⟨h1, ?_⟩
    rintro r hr rfl
    rcases h.fwd r.lhs r.rhs ⟨r, hr, rfl, rfl⟩ with ⟨ps, h4, -⟩ | ⟨x, h4, -⟩ | ⟨x, y, h4, -⟩
    · exact h3 ps h4
    · exact h2 ⟨x, 1, h4⟩
    · exact h2 ⟨x, 0, h4⟩

/-- The productions of the rules and of the repetitions. -/
def fullProd (reps : List RepSym) (done : List (Sym × List Piece)) : Productions := fun A α =>
  pieceProd done A α ∨ ∃ x m n, (A, x, m) ∈ reps ∧ m ≤ n ∧ α = List.replicate n x

/-- The strings of a repetition. -/
theorem lang_rep (h : PieceInv g reps done) {f x : Sym} {m : Nat} (hm : (f, x, m) ∈ reps)
    {w : List Sym} : InLang (fullProd reps done) g.Term f w ↔
      ∃ n, m ≤ n ∧ StrLang (fullProd reps done) g.Term (List.replicate n x) w := by
  rw [inLang_iff, Der.single_iff]
  constructor
  · rintro ⟨rfl | ⟨α, hp | ⟨x', m', n, hm', hn, rfl⟩, hd⟩, hw⟩
    · exact absurd ⟨x, m, hm⟩ (h.term_iff.1 (hw f (by simp))).2.1
    · obtain ⟨ps, hps, -⟩ := hp
      exact absurd ⟨x, m, hm⟩ (h.lhs _ _ hps).2.1
    · obtain ⟨rfl, rfl⟩ := h.uniq _ _ _ _ _ hm hm'
      exact ⟨n, hn, hd, hw⟩
  · rintro ⟨n, hn, hd, hw⟩
    exact ⟨.inr ⟨_, .inr ⟨x, m, n, hm, hn, rfl⟩, hd⟩, hw⟩

theorem pieces_means (h : PieceInv g reps done) {ps : List Piece} {α : List Sym}
    (hα : List.Forall₂ (Piece.Is reps) ps α) {w : List Sym} :
    StrLang (fullProd reps done) g.Term α w ↔ ∃ parts, List.Forall₂ Piece.Means ps parts ∧
      StrLang (fullProd reps done) g.Term parts.flatten w := by
  induction hα generalizing w with
  | nil =>
    rw [strLang_nil]
    constructor
    · rintro rfl; exact ⟨[], .nil, strLang_nil.2 rfl⟩
    · rintro ⟨parts, hp, hw⟩
      cases hp
      exact strLang_nil.1 hw
  | @cons p s ps α h1 _ ih =>
    rw [strLang_cons]
    have hone : ∀ u, InLang (fullProd reps done) g.Term s u ↔ ∃ β, p.Means β ∧
        StrLang (fullProd reps done) g.Term β u := by
      intro u
      unfold Piece.Is at h1
      unfold Piece.Means
      split at h1
      · subst h1
        simp [strLang_single]
      · rw [h.lang_rep h1]
        constructor
        · rintro ⟨n, hn, hs⟩; exact ⟨_, ⟨n, hn, rfl⟩, hs⟩
        · rintro ⟨_, ⟨n, hn, rfl⟩, hs⟩; exact ⟨n, hn, hs⟩
    constructor
    · rintro ⟨u, v, rfl, hu, hv⟩
      obtain ⟨β, hβ, hu⟩ := (hone u).1 hu
      obtain ⟨parts, hp, hv⟩ := ih.1 hv
      exact ⟨β :: parts, .cons hβ hp, by
        rw [List.flatten_cons, strLang_append]; exact ⟨u, v, rfl, hu, hv⟩⟩
    · rintro ⟨_, hp, hw⟩
      cases hp with
      | @cons _ β _ parts hβ hp =>
        rw [List.flatten_cons, strLang_append] at hw
        obtain ⟨u, v, rfl, hu, hv⟩ := hw
        exact ⟨u, v, rfl, (hone u).2 ⟨β, hβ, hu⟩, ih.2 ⟨parts, hp, hv⟩⟩

/-- If the language of every symbol is closed under the rules, then it contains what the rules
generate. -/
theorem inLang_of_closed {P Q : Productions} {T : Sym → Prop}
    (hc : ∀ A α w, P A α → StrLang Q T α w → InLang Q T A w) {A : Sym} {w : List Sym}
    (h : InLang P T A w) : InLang Q T A w := by
  have key : ∀ {u v : List Sym}, Der P u v → (∀ a ∈ v, T a) → StrLang Q T u v := by
    intro u v d
    induction d with
    | nil => intro _; exact strLang_nil.2 rfl
    | keep a d ih =>
      intro hT
      rw [strLang_cons]
      refine ⟨[a], _, rfl, ?_, ih fun b hb => hT b (by simp [hb])⟩
      rw [inLang_iff]
      exact ⟨.refl _, by simpa using hT a (by simp)⟩
    | @expand A α v₁ u v₂ hp h₁ h₂ ih₁ ih₂ =>
      intro hT
      rw [strLang_cons]
      exact ⟨v₁, v₂, rfl, hc A α v₁ hp (ih₁ fun b hb => hT b (by simp [hb])),
        ih₂ fun b hb => hT b (by simp [hb])⟩
  rw [inLang_iff] at h
  exact strLang_single.1 (key h.1 h.2)

theorem lang_full (h : PieceInv g reps done) {A : Sym} {w : List Sym} :
    g.Lang A w ↔ InLang (fullProd reps done) g.Term A w := by
  constructor
  · refine inLang_of_closed ?_
    intro A α w hp hw
    rcases h.fwd A α hp with ⟨ps, h1, h2⟩ | ⟨x, h1, h2⟩ | ⟨x, y, h1, h2, h3⟩
    · obtain ⟨parts, h3, h4⟩ := (h.pieces_means h2).1 hw
      rw [inLang_iff, Der.single_iff]
      exact ⟨.inr ⟨_, .inl ⟨ps, h1, parts, h3, rfl⟩, h4.1⟩, h4.2⟩
    · rw [h.lang_rep h1]
      rcases h2 with rfl | rfl
      · exact ⟨1, Nat.le_refl _, hw⟩
      · rw [strLang_cons] at hw
        obtain ⟨u, v, rfl, hu, hv⟩ := hw
        obtain ⟨n, hn, hu⟩ := (h.lang_rep h1).1 hu
        refine ⟨n + 1, by omega, ?_⟩
        rw [List.replicate_succ', strLang_append]
        exact ⟨u, v, rfl, hu, hv⟩
    · rw [h.lang_rep h1]
      rcases h3 with rfl | rfl
      · exact ⟨0, Nat.le_refl _, hw⟩
      · rw [strLang_single, h.lang_rep h2] at hw
        obtain ⟨n, hn, hw⟩ := hw
        exact ⟨n, Nat.zero_le _, hw⟩
  · have hplus : ∀ f x, (f, x, 1) ∈ reps → ∀ n, Der g.prod [f] (List.replicate (n + 1) x) := by
      intro f x hm n
      induction n with
      | zero => exact .prod (h.plus f x hm).1
      | succ n ih =>
        refine (Der.prod (h.plus f x hm).2).trans ?_
        rw [List.replicate_succ']
        have := Der.append ih (Der.refl (P := g.prod) [x])
        simpa using this
    have hrep : ∀ f x m n, (f, x, m) ∈ reps → m ≤ n → Der g.prod [f] (List.replicate n x) := by
      intro f x m n hm hn
      have hm1 := (h.repLt _ _ _ hm).2.2.2
      rcases (show m = 0 ∨ m = 1 by omega) with rfl | rfl
      · obtain ⟨h1, y, h2, h3⟩ := h.star f x hm
        cases n with
        | zero => exact .prod h1
        | succ n => exact (Der.prod h3).trans (hplus y x h2 n)
      · obtain ⟨n, rfl⟩ : ∃ k, n = k + 1 := ⟨n - 1, by omega⟩
        exact hplus f x hm n
    refine inLang_mono' ?_
    rintro A α (⟨ps, h1, parts, h2, rfl⟩ | ⟨x, m, n, hm, hn, rfl⟩)
    · obtain ⟨β, h3, h4⟩ := h.rules A ps h1
      refine (Der.prod h4).trans ?_
      clear h1 h4
      induction h3 generalizing parts with
      | nil => cases h2; exact .nil
      | @cons p s ps β hp _ ih =>
        cases h2 with
        | cons hm h2 =>
          have := ih _ h2
          rw [List.flatten_cons]
          refine Der.append (u₁ := [s]) ?_ this
          unfold Piece.Is at hp
          unfold Piece.Means at hm
          cases e : p.rep with
          | none =>
            rw [e] at hp hm
            dsimp only at hp hm
            rw [hp, hm]
            exact .refl _
          | some m =>
            rw [e] at hp hm
            obtain ⟨n, hn, rfl⟩ := hm
            exact hrep _ _ _ _ hp hn
    · exact hrep _ _ _ _ hm hn

theorem pieceProd_syms (h : PieceInv g reps done) {A : Sym} {α : List Sym} (hp : pieceProd done A α) :
    ∀ s ∈ α, ¬ IsRep reps s := by
  obtain ⟨ps, h1, parts, h2, rfl⟩ := hp
  have h3 := (h.lhs A ps h1).2.2
  clear h1
  induction h2 with
  | nil => simp
  | @cons p β ps parts hm _ ih =>
    intro s hs
    rw [List.flatten_cons, List.mem_append] at hs
    rcases hs with hs | hs
    · have : s = p.sym := by
        unfold Piece.Means at hm
        split at hm
        · rw [hm] at hs; exact List.mem_singleton.1 hs
        · obtain ⟨n, -, rfl⟩ := hm
          exact (List.mem_replicate.1 hs).2
      rw [this]
      exact (h3 p (by simp)).2
    · exact ih (fun p hp => h3 p (by simp [hp])) s hs

/-- The language of a symbol that was not made for a repetition. -/
theorem lang (h : PieceInv g reps done) {A : Sym} (hA : ¬ IsRep reps A) {w : List Sym} :
    g.Lang A w ↔ InLang (pieceProd done) g.Term A w := by
  rw [h.lang_full]
  refine inLang_congr (fun s => ¬ IsRep reps s) ?_ ?_ (fun _ _ => Iff.rfl) hA
  · intro B α hB
    constructor
    · rintro (hp | ⟨x, m, n, hm, -⟩)
      · exact hp
      · exact absurd ⟨x, m, hm⟩ hB
    · exact .inl
  · rintro B α hB (hp | ⟨x, m, n, hm, -⟩)
    · exact h.pieceProd_syms hp
    · exact absurd ⟨x, m, hm⟩ hB

end PieceInv

end Verif
