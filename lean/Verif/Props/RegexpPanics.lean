import Verif.Props.Regexp
import Verif.Props.Sequence

/-! # Property C122: which expressions are translated -/

namespace Verif

open Translator

mutual

/-- An expression of the parser without trouble is plain. -/
theorem plain_of_parsed : ∀ (h : Hir), h.Parsed → ¬ h.Trouble → h.Plain
  | .empty, _, _ => by rw [Hir.Plain]; trivial
  | .literal bytes, _, ht => by
    rw [Hir.Plain]
    rw [Hir.Trouble] at ht
    intro b hb
    by_contra hc
    exact ht ⟨b, hb, by omega⟩
  | .cls ranges, hp, _ => by rw [Hir.Plain]; rwa [Hir.Parsed] at hp
  | .look, _, ht => absurd (by rw [Hir.Trouble]; trivial) ht
  | .repetition min max sub, hp, ht => by
    rw [Hir.Parsed] at hp
    rw [Hir.Trouble, not_or, not_not] at ht
    rw [Hir.Plain]
    exact ⟨hp.1, ht.1, plain_of_parsed sub hp.2 ht.2⟩
  | .capture sub, hp, ht => by
    rw [Hir.Parsed] at hp
    rw [Hir.Trouble] at ht
    rw [Hir.Plain]
    exact plain_of_parsed sub hp ht
  | .concat exprs, hp, ht => by
    rw [Hir.Parsed] at hp
    rw [Hir.Trouble] at ht
    rw [Hir.Plain]
    exact plainAll_of_parsed exprs hp ht
  | .alternation exprs, hp, ht => by
    rw [Hir.Parsed] at hp
    rw [Hir.Trouble] at ht
    rw [Hir.Plain]
    exact ⟨hp.1, plainAll_of_parsed exprs hp.2 ht⟩

theorem plainAll_of_parsed : ∀ (hs : List Hir), Hir.ParsedAll hs → ¬ Hir.TroubleIn hs →
    Hir.PlainAll hs
  | [], _, _ => by rw [Hir.PlainAll]; trivial
  | e :: es, hp, ht => by
    rw [Hir.ParsedAll] at hp
    rw [Hir.TroubleIn, not_or] at ht
    rw [Hir.PlainAll]
    exact ⟨plain_of_parsed e hp.1 ht.1, plainAll_of_parsed es hp.2 ht.2⟩

end

theorem bytes_panic {bytes : List Nat} (hb : ∃ b ∈ bytes, 255 ≤ b) (t : Translator) :
    t.bytes .debug bytes = .panic := by
  induction bytes generalizing t with
  | nil => simp at hb
  | cons b bytes ih =>
    unfold Translator.bytes byteSym LexerClasses.ofByte
    split
    · rename_i hlt
      obtain ⟨b', h1, h2⟩ := hb
      have : b' ∈ bytes := by
        rcases List.mem_cons.1 h1 with rfl | h1
        · omega
        · exact h1
      simp only [Res.bind_ok, ih ⟨b', this, h2⟩, Res.bind_panic]
    · rfl

mutual

theorem walk_panic : ∀ (h : Hir), h.Parsed → h.Trouble → ∀ (t : Translator) (U : List Sym),
    t.Inv U → t.walk .debug h = .panic
  | .empty, _, ht, _, _, _ => by simp [Hir.Trouble] at ht
  | .literal bytes, _, ht, t, U, hi => by
    rw [Hir.Trouble] at ht
    rw [Translator.walk, bytes_panic ht]
    rfl
  | .cls _, _, ht, _, _, _ => by simp [Hir.Trouble] at ht
  | .look, _, _, t, _, _ => by rw [Translator.walk]
  | .repetition min max sub, hp, ht, t, U, hi => by
    rw [Hir.Parsed] at hp
    rw [Hir.Trouble] at ht
    rw [Translator.walk]
    have hn : t.cfg.nextSym none = (t.cfg.numSyms, (t.cfg.nextSym none).2) := rfl
    rw [hn]
    by_cases hs : sub.Trouble
    · simp only [walk_panic sub hp.2 hs _ _ (Inv.begin hi), Res.bind_panic]
    · obtain ⟨x, t1, a1, a2, a3⟩ := hirWalk_spec .debug sub (plain_of_parsed sub hp.2 hs) _ _
        (Inv.begin hi)
      obtain ⟨rhs, t2, b1, b2, b3, b4, b5, b6⟩ := oneSym_spec a3.inv a2 a3.good
      have hrep : t1.repeated x = t1.oneSym x := by
        cases x with
        | nil => exact absurd rfl a2
        | cons α x => rfl
      have hlim : t2.cfg.LimitOk := by intro n hn; rw [b2.limit] at hn; cases hn
      have hlhs : t.cfg.numSyms < t2.cfg.numSyms :=
        ((b2.term _).2 (.inr (List.mem_cons_self ..))).1
      have hseq : t2.cfg.rewriteSequence .debug ⟨t.cfg.numSyms, rhs, min, max, .null, none⟩ =
          .panic :=
        (C51_accepted_debug_partial
          (top := ⟨t.cfg.numSyms, rhs, min, max, .null, none⟩) b2.wf hlim ⟨hlhs, b4.1, by simp [Separator.sym?]⟩ hp.1).2.1
          (ht.resolve_right hs)
      simp only [a1, Res.bind_ok, hrep, b1, Translator.sequence, hseq, Res.bind_panic]
  | .capture sub, hp, ht, t, U, hi => by
    rw [Hir.Parsed] at hp
    rw [Hir.Trouble] at ht
    rw [Translator.walk]
    exact walk_panic sub hp ht t U hi
  | .concat exprs, hp, ht, t, U, hi => by
    rw [Hir.Parsed] at hp
    rw [Hir.Trouble] at ht
    rw [Translator.walk, walkConcat_panic exprs hp ht t U hi]
    rfl
  | .alternation exprs, hp, ht, t, U, hi => by
    rw [Hir.Parsed] at hp
    rw [Hir.Trouble] at ht
    rw [Translator.walk]
    exact walkAlternatives_panic exprs hp.2 ht t U hi

theorem walkConcat_panic : ∀ (hs : List Hir), Hir.ParsedAll hs → Hir.TroubleIn hs →
    ∀ (t : Translator) (U : List Sym), t.Inv U → t.walkConcat .debug hs = .panic
  | [], _, ht, _, _, _ => by simp [Hir.TroubleIn] at ht
  | e :: es, hp, ht, t, U, hi => by
    rw [Hir.ParsedAll] at hp
    rw [Hir.TroubleIn] at ht
    rw [Translator.walkConcat]
    by_cases he : e.Trouble
    · rw [walk_panic e hp.1 he t U hi]
      rfl
    · obtain ⟨x, t1, a1, a2, a3⟩ := hirWalk_spec .debug e (plain_of_parsed e hp.1 he) t U hi
      obtain ⟨α, t2, b1, b2, -⟩ := concatPart_spec a3.inv a2 a3.good
      simp only [a1, Res.bind_ok, b1, walkConcat_panic es hp.2 (ht.resolve_left he) t2 U b2,
        Res.bind_panic]

theorem walkAlternatives_panic : ∀ (hs : List Hir), Hir.ParsedAll hs → Hir.TroubleIn hs →
    ∀ (t : Translator) (U : List Sym), t.Inv U → t.walkAlternatives .debug hs = .panic
  | [], _, ht, _, _, _ => by simp [Hir.TroubleIn] at ht
  | e :: es, hp, ht, t, U, hi => by
    rw [Hir.ParsedAll] at hp
    rw [Hir.TroubleIn] at ht
    rw [Translator.walkAlternatives]
    by_cases he : e.Trouble
    · rw [walk_panic e hp.1 he t U hi]
      rfl
    · obtain ⟨x, t1, a1, a2, a3⟩ := hirWalk_spec .debug e (plain_of_parsed e hp.1 he) t U hi
      simp only [a1, Res.bind_ok, walkAlternatives_panic es hp.2 (ht.resolve_left he) t1 U a3.inv,
        Res.bind_panic]

end

theorem translator_start : Translator.Inv {} [] := by
  refine ⟨(by intro r hr; cases hr), rfl, ?_, by simp, by simp, by simp, by simp, by simp⟩
  intro a
  simp only [List.not_mem_nil, exists_const, or_self, iff_false]
  rintro ⟨h, -⟩
  exact Nat.not_lt_zero _ h

/-- **C122** With debug checks, translating an expression of the parser panics exactly if some part
of it is look-around, the byte 255 or a repetition with inverted or too large bounds; otherwise it
gives a grammar. It always stops. -/
theorem C122_translated {hir : Hir} (hp : hir.Parsed) :
    (cfgFromHir .debug hir = .panic ↔ hir.Trouble) ∧
    ((∃ g m, cfgFromHir .debug hir = .ok (g, m)) ↔ ¬ hir.Trouble) := by
  have h1 : hir.Trouble → cfgFromHir .debug hir = .panic := by
    intro ht
    unfold cfgFromHir
    rw [walk_panic hir hp ht _ _ translator_start]
    rfl
  have h2 : ¬ hir.Trouble → ∃ g m, cfgFromHir .debug hir = .ok (g, m) := by
    intro ht
    obtain ⟨g, m, root, e, -⟩ := cfgFromHir_spec .debug (plain_of_parsed hir hp ht)
    exact ⟨g, m, e⟩
  refine ⟨⟨fun e => ?_, h1⟩, ⟨fun ⟨g, m, e⟩ ht => ?_, h2⟩⟩
  · by_contra ht
    obtain ⟨g, m, e'⟩ := h2 ht
    rw [e'] at e
    cases e
  · rw [h1 ht] at e
    cases e

/-- The expression `(a\\b|é{3,4294967295})*`. -/
def exTrouble : Hir :=
  .repetition 0 none (.capture (.alternation [
    .concat [.literal [0x61], .look],
    .repetition 3 (some (2 ^ 32 - 1)) (.literal [0xC3, 0xA9])]))

/-- Of the two alternatives each one is enough for a panic; the other example has none. -/
example : exTrouble.Parsed ∧ exTrouble.Trouble ∧ exHir.Parsed ∧ ¬ exHir.Trouble := by
  refine ⟨?_, ?_, ?_, ?_⟩ <;>
    simp [exTrouble, exHir, Hir.Parsed, Hir.ParsedAll, Hir.Trouble, Hir.TroubleIn, Sequence.Fits,
      Apart]

end Verif
