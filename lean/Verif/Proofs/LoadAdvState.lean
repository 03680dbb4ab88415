import Verif.Proofs.LoadState
import Verif.Proofs.Inline
import Verif.Proofs.Lexer
import Verif.Proofs.Remap
import Verif.Spec.LoadAdvanced

/-! # Proofs about the state of the advanced loader -/

namespace Verif

/-! ## Unnamed symbols and plain rules -/

theorem Cfg.Steps.namesPre {H : History → Prop} {g g' : Cfg} (h : Cfg.Steps H g g') :
    ∃ more, g'.src.names = g.src.names ++ more := by
  induction h with
  | refl => exact ⟨[], by simp⟩
  | @fresh g' name _ ih =>
    obtain ⟨more, e⟩ := ih
    refine ⟨more ++ [name], ?_⟩
    show g'.src.names ++ [name] = _
    rw [e, List.append_assoc]
  | rule hr _ ih => exact ih

theorem Cfg.Steps.extend {H : History → Prop} {g g' : Cfg} (h : Cfg.Steps H g g')
    (rs : List CfgRule) (hr : ∀ r ∈ rs, H r.history) :
    Cfg.Steps H g { g' with rules := g'.rules ++ rs } := by
  induction rs generalizing g' with
  | nil => simpa using h
  | cons r rs ih =>
    have := ih (.rule (r := r) (hr r (by simp)) h) fun r hr' => hr r (by simp [hr'])
    simpa [Cfg.pushRule] using this

namespace PieceInv

variable {g : Cfg} {reps : List RepSym} {done : List (Sym × List Piece)}

theorem plain_is (α : List Sym) : List.Forall₂ (Piece.Is reps) (α.map fun s => ⟨s, none⟩) α := by
  induction α with
  | nil => exact .nil
  | cons s α ih => exact .cons rfl ih

theorem plain_means {α : List Sym} {parts : List (List Sym)} :
    List.Forall₂ Piece.Means (α.map fun s => ⟨s, none⟩) parts ↔ parts = α.map fun s => [s] := by
  induction α generalizing parts with
  | nil => simp
  | cons s α ih =>
    constructor
    · intro h
      cases h with
      | cons h1 h2 => rw [List.map_cons, ← ih.1 h2, h1]
    · rintro rfl
      exact .cons rfl (ih.2 rfl)

theorem flatten_single (α : List Sym) : (α.map fun s => [s]).flatten = α := by
  induction α with
  | nil => rfl
  | cons s α ih => simp [ih]

/-- Adding rules without repetitions. -/
theorem plain (h : PieceInv g reps done) (rs : List CfgRule)
    (hrs : ∀ r ∈ rs, (r.lhs < g.numSyms ∧ ¬ IsRep reps r.lhs) ∧
      ∀ s ∈ r.rhs, s < g.numSyms ∧ ¬ IsRep reps s) :
    PieceInv { g with rules := g.rules ++ rs } reps
      (done ++ rs.map fun r => (r.lhs, r.rhs.map fun s => ⟨s, none⟩)) := by
  induction rs generalizing g done with
  | nil => simpa using h
  | cons r rs ih =>
    obtain ⟨⟨h1, h2⟩, h3⟩ := hrs r (by simp)
    have := h.rule (hist := r.history) h1 h2 (ps := r.rhs.map fun s => ⟨s, none⟩) (by
      intro q hq
      obtain ⟨s, hs, rfl⟩ := List.mem_map.1 hq
      exact h3 s hs) (plain_is r.rhs)
    have := ih this fun r hr => hrs r (by simp [hr])
    simpa [Cfg.pushRule] using this

end PieceInv

namespace LoadInv

variable {st : LoadState} {reps : List RepSym} {extra : List Sym} {done : List (Sym × List Piece)}

theorem extraCongr (h : LoadInv st reps extra done) {extra' : List Sym}
    (he : ∀ s, s ∈ extra ↔ s ∈ extra') : LoadInv st reps extra' done := by
  refine ⟨h.g, h.nodup, h.len, ?_, h.total, ?_, ?_⟩
  · intro i s hi
    obtain ⟨n, h1, h2, h3, h4, h5⟩ := h.known i s hi
    exact ⟨n, h1, h2, h3, fun hs => h4 ((he s).2 hs), h5⟩
  · intro s hs
    rcases h.cover s hs with h1 | h1 | h1
    · exact .inl h1
    · exact .inr (.inl ((he s).1 h1))
    · exact .inr (.inr h1)
  · intro s hs
    exact h.apart s ((he s).2 hs)

theorem extra_fresh (h : LoadInv st reps extra done) : st.cfg.numSyms ∉ extra := fun hm =>
  Nat.lt_irrefl _ (h.apart _ hm).1

theorem rep_fresh (h : LoadInv st reps extra done) : ¬ IsRep reps st.cfg.numSyms := by
  rintro ⟨x, m, hm⟩
  exact Nat.lt_irrefl _ (h.g.repLt _ _ _ hm).1

/-- A new symbol without name. -/
theorem fresh (h : LoadInv st reps extra done) :
    LoadInv { st with cfg := (st.cfg.nextSym none).2 } reps (st.cfg.numSyms :: extra) done := by
  refine ⟨h.g.fresh none, h.nodup, ?_, ?_, h.total, ?_, ?_⟩
  · show (st.cfg.src.names ++ [_]).length = st.cfg.numSyms + 1
    rw [List.length_append, h.len]; rfl
  · intro i s hi
    obtain ⟨n, h1, h2, h3, h4, h5⟩ := h.known i s hi
    refine ⟨n, h1, Nat.lt_succ_of_lt h2, h3, ?_, ?_⟩
    · intro hm
      rcases List.mem_cons.1 hm with rfl | hm
      · exact Nat.lt_irrefl _ h2
      · exact h4 hm
    · show (st.cfg.src.names ++ [none])[s]? = _
      rw [List.getElem?_append_left (by rw [h.len]; exact h2), h5]
  · intro s hs
    have hs : s < st.cfg.numSyms + 1 := hs
    by_cases e : s = st.cfg.numSyms
    · exact .inr (.inl (by simp [e]))
    · rcases h.cover s (by omega) with h1 | h1 | h1
      · exact .inl h1
      · exact .inr (.inl (by simp [h1]))
      · exact .inr (.inr h1)
  · intro s hs
    show s < st.cfg.numSyms + 1 ∧ _
    rcases List.mem_cons.1 hs with rfl | hs
    · exact ⟨Nat.lt_succ_self _, h.rep_fresh⟩
    · exact ⟨Nat.lt_succ_of_lt (h.apart s hs).1, (h.apart s hs).2⟩

theorem Grows.fresh (st : LoadState) :
    Grows st { st with cfg := (st.cfg.nextSym none).2 } [] :=
  ⟨fun _ _ h => h, by simp, rfl, rfl, Nat.le_succ _, ⟨[], by simp⟩, .fresh none .refl, id⟩

/-- Rules without repetitions. -/
theorem plain (h : LoadInv st reps extra done) (rs : List CfgRule)
    (hrs : ∀ r ∈ rs, (r.lhs < st.cfg.numSyms ∧ ¬ IsRep reps r.lhs) ∧
      ∀ s ∈ r.rhs, s < st.cfg.numSyms ∧ ¬ IsRep reps s) :
    LoadInv { st with cfg := { st.cfg with rules := st.cfg.rules ++ rs } } reps extra
      (done ++ rs.map fun r => (r.lhs, r.rhs.map fun s => ⟨s, none⟩)) :=
  h.change (b := st.internEmpty) (h.g.plain rs hrs) rfl

theorem Grows.plain (st : LoadState) (rs : List CfgRule) (hr : ∀ r ∈ rs, NoOrigin r.history) :
    Grows st { st with cfg := { st.cfg with rules := st.cfg.rules ++ rs } } [] :=
  ⟨fun _ _ h => h, by simp, rfl, rfl, Nat.le_refl _, ⟨[], by simp⟩, .extend .refl rs hr, id⟩

/-- A symbol is named, or made for a repetition, or another one. -/
theorem ok_sym (h : LoadInv st reps extra done) {s : Sym} (hs : s ∈ extra ∨ ∃ n, st.Named n s) :
    s < st.cfg.numSyms ∧ ¬ IsRep reps s := by
  rcases hs with hs | ⟨n, hs⟩
  · exact h.apart s hs
  · exact ⟨(h.named_lt hs).1, (h.named_lt hs).2.1⟩

end LoadInv

/-! ## Classes -/

namespace Advanced

/-- The symbol belongs to a class. -/
def IsClass (classes : List (LexerClasses × Sym)) (s : Sym) : Prop := ∃ k, (k, s) ∈ classes

/-- The classes are in order, and no symbol belongs to two of them. -/
structure ClassInv (classes : List (LexerClasses × Sym)) : Prop where
  asc : classes.Pairwise fun e e' => e.1.lt e'.1 = true
  syms : (classes.map Prod.snd).Nodup

namespace ClassInv

variable {classes : List (LexerClasses × Sym)}

theorem irrefl (k : LexerClasses) : ¬ k.lt k = true := by
  intro h
  have key : ∀ k : LexerClasses, k.lt k = false := by
    intro k
    induction k with
    | nil => rfl
    | cons r k ih =>
      unfold LexerClasses.lt
      simp [ih, pairLt]
  rw [key] at h
  cases h

theorem key (h : ClassInv classes) {k : LexerClasses} {s t : Sym} (hs : (k, s) ∈ classes)
    (ht : (k, t) ∈ classes) : s = t := by
  obtain ⟨asc, -⟩ := h
  induction asc with
  | nil => cases hs
  | @cons e l h1 _ ih =>
    rcases List.mem_cons.1 hs with hs | hs <;> rcases List.mem_cons.1 ht with ht | ht
    · rw [← hs] at ht; cases ht; rfl
    · have := h1 _ ht
      rw [← hs] at this
      exact absurd this (irrefl k)
    · have := h1 _ hs
      rw [← ht] at this
      exact absurd this (irrefl k)
    · exact ih hs ht

theorem sym (h : ClassInv classes) {k k' : LexerClasses} {s : Sym} (hs : (k, s) ∈ classes)
    (ht : (k', s) ∈ classes) : k = k' := by
  obtain ⟨-, syms⟩ := h
  induction classes with
  | nil => cases hs
  | cons e l ih =>
    rw [List.map_cons, List.nodup_cons] at syms
    rcases List.mem_cons.1 hs with hs | hs <;> rcases List.mem_cons.1 ht with ht | ht
    · rw [← hs] at ht; cases ht; rfl
    · rw [← hs] at syms
      exact absurd (List.mem_map_of_mem (f := Prod.snd) ht) syms.1
    · rw [← ht] at syms
      exact absurd (List.mem_map_of_mem (f := Prod.snd) hs) syms.1
    · exact ih hs ht syms.2

theorem lookup (h : ClassInv classes) {k : LexerClasses} {s : Sym} :
    classes.lookup k = some s ↔ (k, s) ∈ classes := by
  constructor
  · exact lookup_some_mem
  · intro hm
    cases e : classes.lookup k with
    | none => exact absurd (List.mem_map_of_mem (f := Prod.fst) hm) (lookup_none_not_mem e)
    | some t => rw [h.key hm (lookup_some_mem e)]

theorem insert (h : ClassInv classes) {k : LexerClasses} {s : Sym} (hk : classes.lookup k = none)
    (hs : ¬ IsClass classes s) : ClassInv (insertClass k s classes) := by
  refine ⟨Translator.insertClass_asc (lookup_none_not_mem hk) h.asc, ?_⟩
  · have := (Translator.insertClass_perm k s classes).map Prod.snd
    rw [this.nodup_iff, List.map_cons, List.nodup_cons]
    refine ⟨?_, h.syms⟩
    intro hm
    obtain ⟨⟨k', s'⟩, h1, rfl⟩ := List.mem_map.1 hm
    exact hs ⟨k', h1⟩

theorem spells (h : ClassInv classes) {ls : List Letter} {α β : List Sym}
    (h1 : SpellsLetters classes ls α) (h2 : SpellsLetters classes ls β) : α = β := by
  unfold SpellsLetters at h1 h2
  induction h1 generalizing β with
  | nil => cases h2; rfl
  | cons h3 _ ih =>
    cases h2 with
    | cons h4 h5 => rw [h.key h3 h4, ih h5]

end ClassInv

/-! ## Expressions -/

/-- The symbols of the rules of expressions, and the expressions that were translated. -/
structure RegInv (classes : List (LexerClasses × Sym)) (aux : List Sym)
    (done : List (Sym × List Piece)) (res : List (Sym × Hir)) : Prop where
  apart : ∀ s ∈ aux, ¬ IsClass classes s
  idle : ∀ s ps, IsClass classes s → (s, ps) ∉ done
  rules : ∀ A ps, (A, ps) ∈ done → A ∈ aux → ∀ q ∈ ps, q.rep = none ∧
    (q.sym ∈ aux ∨ IsClass classes q.sym)
  lhs : ∀ A ∈ aux, ∃ ps, (A, ps) ∈ done
  lang : ∀ s h, (s, h) ∈ res → (s ∈ aux ∨ IsClass classes s) ∧
    (∀ l ∈ h.letters, ∃ c, (l.ranges, c) ∈ classes) ∧
    ∀ w, InLang (pieceProd done) (IsClass classes) s w ↔
      ∃ ls, h.Matches ls ∧ SpellsLetters classes ls w

theorem plain_parts {ps : List Piece} (h : ∀ q ∈ ps, q.rep = none) {parts : List (List Sym)}
    (hp : List.Forall₂ Piece.Means ps parts) : parts = ps.map fun q => [q.sym] := by
  induction hp with
  | nil => rfl
  | @cons q β ps parts h1 _ ih =>
    have hq := h q (by simp)
    unfold Piece.Means at h1
    rw [hq] at h1
    rw [h1, ih fun q hq => h q (by simp [hq])]
    rfl

namespace RegInv

variable {classes : List (LexerClasses × Sym)} {aux : List Sym} {done : List (Sym × List Piece)}
  {res : List (Sym × Hir)}

/-- The productions stay within the symbols of expressions and classes. -/
theorem closed (h : RegInv classes aux done res) {A : Sym} {α : List Sym}
    (hA : A ∈ aux ∨ IsClass classes A) (hp : pieceProd done A α) :
    ∀ s ∈ α, s ∈ aux ∨ IsClass classes s := by
  obtain ⟨ps, h1, parts, h2, rfl⟩ := hp
  rcases hA with hA | hA
  · have h3 := h.rules A ps h1 hA
    rw [plain_parts (fun q hq => (h3 q hq).1) h2]
    intro s hs
    simp only [List.mem_flatten, List.mem_map] at hs
    obtain ⟨_, ⟨q, hq, rfl⟩, hs⟩ := hs
    rw [List.mem_singleton.1 hs]
    exact (h3 q hq).2
  · exact absurd h1 (h.idle A ps hA)

theorem mono (h : RegInv classes aux done res) {classes' : List (LexerClasses × Sym)}
    {done' : List (Sym × List Piece)} (hc : ClassInv classes')
    (hsub : ∀ e ∈ classes, e ∈ classes') (hd : ∀ e ∈ done, e ∈ done')
    (hnew : ∀ A ps, (A, ps) ∈ done' → (A, ps) ∈ done ∨ (A ∉ aux ∧ ¬ IsClass classes' A))
    (hcl : ∀ s, IsClass classes' s → IsClass classes s ∨ (s ∉ aux ∧ ∀ ps, (s, ps) ∉ done)) :
    RegInv classes' aux done' res := by
  have hup : ∀ s, IsClass classes s → IsClass classes' s := fun s ⟨k, hk⟩ => ⟨k, hsub _ hk⟩
  refine ⟨?_, ?_, ?_, ?_, ?_⟩
  · intro s hs hk
    rcases hcl s hk with h1 | h1
    · exact h.apart s hs h1
    · exact h1.1 hs
  · intro s ps hk hm
    rcases hnew s ps hm with h1 | h1
    · rcases hcl s hk with h2 | h2
      · exact h.idle s ps h2 h1
      · exact h2.2 ps h1
    · exact h1.2 hk
  · intro A ps hm hA q hq
    rcases hnew A ps hm with h1 | h1
    · obtain ⟨h2, h3⟩ := h.rules A ps h1 hA q hq
      exact ⟨h2, h3.imp id (hup _)⟩
    · exact absurd hA h1.1
  · intro A hA
    obtain ⟨ps, hm⟩ := h.lhs A hA
    exact ⟨ps, hd _ hm⟩
  · intro s hir hm
    obtain ⟨h1, h2, h3⟩ := h.lang s hir hm
    refine ⟨h1.imp id (hup s), fun l hl => ?_, fun w => ?_⟩
    · obtain ⟨c, hk⟩ := h2 l hl
      exact ⟨c, hsub _ hk⟩
    · rw [← inLang_congr (P := pieceProd done) (T := IsClass classes)
        (fun s => s ∈ aux ∨ IsClass classes s) ?_ (fun A α hA hp => h.closed hA hp) ?_ h1, h3]
      · constructor
        · rintro ⟨ls, h4, h5⟩
          exact ⟨ls, h4, h5.imp fun _ _ h => hsub _ h⟩
        · rintro ⟨ls, h4, h5⟩
          refine ⟨ls, h4, ?_⟩
          have hl := matches_letters hir ls h4
          clear h4
          unfold SpellsLetters at h5 ⊢
          induction h5 with
          | nil => exact .nil
          | @cons l k ls w h6 _ ih =>
            refine .cons ?_ (ih fun a ha => hl a (by simp [ha]))
            obtain ⟨c, hk⟩ := h2 l (hl l (by simp))
            rw [hc.key h6 (hsub _ hk)]
            exact hk
      · intro A α hA
        constructor
        · rintro ⟨ps, h4, h5⟩; exact ⟨ps, hd _ h4, h5⟩
        · rintro ⟨ps, h4, h5⟩
          refine ⟨ps, ?_, h5⟩
          rcases hnew A ps h4 with h6 | h6
          · exact h6
          · rcases hA with hA | hA
            · exact absurd hA h6.1
            · exact absurd (hup A hA) h6.2
      · intro a ha
        refine ⟨hup a, fun hk => ?_⟩
        rcases ha with ha | ha
        · rcases hcl a hk with h4 | h4
          · exact h4
          · exact absurd ha h4.1
        · exact ha

/-- More symbols and one more expression. -/
theorem add (h : RegInv classes aux done res) {aux' : List Sym}
    (ha : ∀ s ∈ aux', ¬ IsClass classes s)
    (hr : ∀ A ps, (A, ps) ∈ done → A ∈ aux' → ∀ q ∈ ps, q.rep = none ∧
      (q.sym ∈ aux ++ aux' ∨ IsClass classes q.sym))
    (hl : ∀ A ∈ aux', ∃ ps, (A, ps) ∈ done) {s : Sym} {hir : Hir}
    (hs : s ∈ aux ++ aux' ∨ IsClass classes s)
    (hk : ∀ l ∈ hir.letters, ∃ c, (l.ranges, c) ∈ classes)
    (hw : ∀ w, InLang (pieceProd done) (IsClass classes) s w ↔
      ∃ ls, hir.Matches ls ∧ SpellsLetters classes ls w) :
    RegInv classes (aux ++ aux') done (res ++ [(s, hir)]) := by
  refine ⟨?_, h.idle, ?_, ?_, ?_⟩
  · intro s hs
    rcases List.mem_append.1 hs with hs | hs
    · exact h.apart s hs
    · exact ha s hs
  · intro A ps hm hA q hq
    rcases List.mem_append.1 hA with hA | hA
    · obtain ⟨h1, h2⟩ := h.rules A ps hm hA q hq
      exact ⟨h1, h2.imp (fun h => List.mem_append.2 (.inl h)) id⟩
    · exact hr A ps hm hA q hq
  · intro A hA
    rcases List.mem_append.1 hA with hA | hA
    · exact h.lhs A hA
    · exact hl A hA
  · intro t hir' hm
    rcases List.mem_append.1 hm with hm | hm
    · obtain ⟨h1, h2⟩ := h.lang t hir' hm
      exact ⟨h1.imp (fun h => List.mem_append.2 (.inl h)) id, h2⟩
    · cases List.mem_singleton.1 hm
      exact ⟨hs, hk, hw⟩

end RegInv

/-! ## The state -/

/-- The grammar, the classes and the translated expressions. -/
structure AdvInv (st : State) (reps : List RepSym) (aux : List Sym)
    (done : List (Sym × List Piece)) (res : List (Sym × Hir)) : Prop where
  base : LoadInv st.base reps (aux ++ st.classes.map Prod.snd) done
  cls : ClassInv st.classes
  reg : RegInv st.classes aux done res
  unnamed : ∀ s, IsClass st.classes s → st.base.cfg.src.names[s]? = some none

/-- What a step adds to the names and classes. -/
structure Ext (st st' : State) (names : List Text) (keys : List LexerClasses) : Prop where
  base : LoadInv.Grows st.base st'.base names
  classes : ∀ e ∈ st.classes, e ∈ st'.classes
  keys : ∀ k, (∃ s, (k, s) ∈ st'.classes) ↔ (∃ s, (k, s) ∈ st.classes) ∨ k ∈ keys
  lhsInParser : st'.lhsInParser = st.lhsInParser
  actions : st'.actions = st.actions

theorem Ext.refl (st : State) : Ext st st [] [] :=
  ⟨.refl _, fun _ h => h, by simp, rfl, rfl⟩

theorem Ext.trans {st₁ st₂ st₃ : State} {n₁ n₂ : List Text} {k₁ k₂ : List LexerClasses}
    (h₁ : Ext st₁ st₂ n₁ k₁) (h₂ : Ext st₂ st₃ n₂ k₂) : Ext st₁ st₃ (n₁ ++ n₂) (k₁ ++ k₂) :=
  ⟨h₁.base.trans h₂.base, fun e he => h₂.classes e (h₁.classes e he), fun k => by
    rw [h₂.keys, h₁.keys, List.mem_append, or_assoc], h₂.lhsInParser.trans h₁.lhsInParser,
    h₂.actions.trans h₁.actions⟩

namespace AdvInv

variable {st : State} {reps : List RepSym} {aux : List Sym} {done : List (Sym × List Piece)}
  {res : List (Sym × Hir)}

theorem new : AdvInv {} [] [] [] [] := by
  refine ⟨LoadInv.new, ⟨.nil, .nil⟩, ⟨by simp, by simp, by simp, by simp, by simp⟩, ?_⟩
  rintro s ⟨k, hk⟩
  cases hk

theorem mem_extra {s : Sym} : s ∈ aux ++ st.classes.map Prod.snd ↔ s ∈ aux ∨ IsClass st.classes s := by
  rw [List.mem_append, List.mem_map]
  refine or_congr Iff.rfl ⟨?_, ?_⟩
  · rintro ⟨⟨k, s⟩, h, rfl⟩; exact ⟨k, h⟩
  · rintro ⟨k, h⟩; exact ⟨_, h, rfl⟩

theorem class_lt (h : AdvInv st reps aux done res) {s : Sym} (hs : IsClass st.classes s) :
    s < st.base.cfg.numSyms ∧ ¬ IsRep reps s := h.base.apart s (mem_extra.2 (.inr hs))

theorem aux_lt (h : AdvInv st reps aux done res) {s : Sym} (hs : s ∈ aux) :
    s < st.base.cfg.numSyms ∧ ¬ IsRep reps s := h.base.apart s (mem_extra.2 (.inl hs))

theorem named_not (h : AdvInv st reps aux done res) {n : Text} {s : Sym} (hn : st.base.Named n s) :
    s ∉ aux ∧ ¬ IsClass st.classes s := by
  have := (h.base.named_lt hn).2.2.1
  exact ⟨fun hs => this (mem_extra.2 (.inl hs)), fun hs => this (mem_extra.2 (.inr hs))⟩

/-- A change of the base with the same classes and rules. -/
theorem rebase (h : AdvInv st reps aux done res) {st' : State} {reps' : List RepSym}
    (hc : st'.classes = st.classes)
    (hb : LoadInv st'.base reps' (aux ++ st.classes.map Prod.snd) done)
    (hs : ∃ more, st'.base.cfg.src.names = st.base.cfg.src.names ++ more) :
    AdvInv st' reps' aux done res := by
  refine ⟨by rw [hc]; exact hb, by rw [hc]; exact h.cls, by rw [hc]; exact h.reg, ?_⟩
  intro s hk
  rw [hc] at hk
  obtain ⟨more, e⟩ := hs
  have := h.unnamed s hk
  rw [e, List.getElem?_append_left (List.getElem?_eq_some_iff.1 this).1, this]

theorem classSym (h : AdvInv st reps aux done res) (key : LexerClasses) :
    ∃ s st', st.classSym key = (s, st') ∧ AdvInv st' reps aux done res ∧ (key, s) ∈ st'.classes ∧
      Ext st st' [] [key] ∧ st'.lexIntern = st.lexIntern ∧ st'.lexical = st.lexical := by
  unfold State.classSym
  cases e : st.classes.lookup key with
  | some s =>
    have hm := lookup_some_mem e
    refine ⟨s, st, rfl, h, hm, ⟨.refl _, fun _ h => h, fun k => ?_, rfl, rfl⟩, rfl, rfl⟩
    rw [List.mem_singleton]
    exact ⟨.inl, fun h => h.elim id fun e => ⟨s, e ▸ hm⟩⟩
  | none =>
    dsimp only
    have hp := Translator.insertClass_perm key st.base.cfg.numSyms st.classes
    have hmem : ∀ e, e ∈ insertClass key st.base.cfg.numSyms st.classes ↔
        e = (key, st.base.cfg.numSyms) ∨ e ∈ st.classes := by
      intro e; rw [hp.mem_iff, List.mem_cons]
    have hcl : ∀ s, IsClass (insertClass key st.base.cfg.numSyms st.classes) s ↔
        s = st.base.cfg.numSyms ∨ IsClass st.classes s := by
      intro s
      unfold IsClass
      simp only [hmem, Prod.mk.injEq, exists_or, exists_eq_left]
    have hfresh : ¬ IsClass st.classes st.base.cfg.numSyms := fun hk =>
      Nat.lt_irrefl _ (h.class_lt hk).1
    have hcls := h.cls.insert e hfresh
    refine ⟨_, _, rfl, ⟨?_, hcls, ?_, ?_⟩, (hmem _).2 (.inl rfl),
      ⟨LoadInv.Grows.fresh _, fun e he => (hmem e).2 (.inr he), fun k => ?_, rfl, rfl⟩, rfl, rfl⟩
    · refine h.base.fresh.extraCongr ?_
      intro s
      show s ∈ _ ↔ s ∈ aux ++ (insertClass key st.base.cfg.numSyms st.classes).map Prod.snd
      rw [List.mem_cons, List.mem_append, List.mem_append, (hp.map Prod.snd).mem_iff, List.map_cons,
        List.mem_cons]
      constructor
      · rintro (h | h | h)
        · exact .inr (.inl h)
        · exact .inl h
        · exact .inr (.inr h)
      · rintro (h | h | h)
        · exact .inr (.inl h)
        · exact .inl h
        · exact .inr (.inr h)
    · refine h.reg.mono hcls (fun e he => (hmem e).2 (.inr he)) (fun _ h => h)
        (fun _ _ h => .inl h) ?_
      intro s hs
      rcases (hcl s).1 hs with rfl | hs
      · refine .inr ⟨fun hm => Nat.lt_irrefl _ (h.aux_lt hm).1, fun ps hm => ?_⟩
        exact Nat.lt_irrefl _ (h.base.g.lhs _ _ hm).1
      · exact .inl hs
    · intro s hs
      show (st.base.cfg.src.names ++ [none])[s]? = _
      rcases (hcl s).1 hs with rfl | hs
      · rw [← h.base.len]; simp
      · have := h.unnamed s hs
        rw [List.getElem?_append_left (List.getElem?_eq_some_iff.1 this).1, this]
    · show (∃ s, (k, s) ∈ insertClass key st.base.cfg.numSyms st.classes) ↔ _
      simp only [hmem, Prod.mk.injEq, exists_or, List.mem_singleton]
      constructor
      · rintro (⟨_, h1, -⟩ | h1)
        · exact .inr h1
        · exact .inl h1
      · rintro (h1 | h1)
        · exact .inr h1
        · exact .inl ⟨_, h1, rfl⟩

end AdvInv

end Advanced

end Verif
