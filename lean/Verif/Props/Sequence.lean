import Verif.Proofs.SeqLang
import Verif.Proofs.Useful
import Mathlib.Data.List.Perm.Subperm
import Mathlib.Data.List.Induction

/-! # Properties C49 – C52, C77 – C79: sequence rules -/

namespace Verif

theorem fits_iff {seq : Sequence} : seq.Fits ↔ KeyOk seq.key := by
  obtain ⟨lhs, x, start, stop, sepa, hist⟩ := seq
  unfold Sequence.Fits KeyOk
  simp only [Sequence.key]
  cases stop with
  | none =>
    simp only [reduceCtorEq, false_implies, implies_true, true_and, if_false, and_true]
    omega
  | some e =>
    simp only [Option.some.injEq, forall_eq']
    by_cases h : e = start
    · subst h
      rw [if_pos rfl]
      omega
    · simp only [if_neg h]
      omega

theorem u32_iff {seq : Sequence} : seq.InU32 ↔ U32Key seq.key := Iff.rfl

/-- The language after a rewrite, in general. -/
theorem rewriteSequence_lang (p : Profile) {g : Cfg} {top : Sequence} (hwf : g.WF)
    (hlim : g.LimitOk) (hin : SeqIn g top) (hu : top.InU32) (hfits : top.Fits)
    (hself : (∀ r ∈ g.rules, r.lhs ≠ top.lhs) ∨ ∀ items ∈ plan top.key, Item.self ∉ items) :
    ∃ g', g.rewriteSequence p top = .ok g' ∧ g'.WF ∧ g'.roots = g.roots ∧
      (∀ a, g'.Term a ↔ g.Term a ∧ a ≠ top.lhs) ∧
      ∀ A, A < g.numSyms → ∀ w,
        (g'.Lang A w ↔ InLang (fun A β => g.prod A β ∨ SeqProd top A β) g'.Term A w) := by
  have hok := fits_iff.1 hfits
  obtain ⟨st, P, c, e, h, hs⟩ := rewriteSequence_ok p hwf hlim hin (u32_iff.1 hu) hok
  refine ⟨st.g, e, h.inv.split.wf, h.inv.roots, h.term hs, ?_⟩
  intro A hA w
  rw [h.inv.split.inLang (.inl hA)]
  refine ⟨h.sound hs hwf hin hok (fun k hk => hk) hself hA, ?_⟩
  refine inLang_mono' ?_
  rintro A α (hp | ⟨rfl, hp⟩)
  · exact .prod (h.old _ _ hp)
  · exact h.complete hs hok hp

/-- **C77.** Rewriting a sequence rule whose range fits succeeds; the new terminals are the old
ones without the left side; every old symbol then generates exactly what it generates with
the promised repetitions as productions of the left side. -/
theorem C77_sequence_language (p : Profile) {g : Cfg} {top : Sequence} (hwf : g.WF)
    (hlim : g.LimitOk) (hin : SeqIn g top) (hu : top.InU32) (hfits : top.Fits)
    (hno : ∀ r ∈ g.rules, r.lhs ≠ top.lhs) :
    ∃ g', g.rewriteSequence p top = .ok g' ∧ g'.WF ∧ g'.roots = g.roots ∧
      (∀ a, g'.Term a ↔ g.Term a ∧ a ≠ top.lhs) ∧
      ∀ A, A < g.numSyms → ∀ w,
        (g'.Lang A w ↔ InLang (fun A β => g.prod A β ∨ SeqProd top A β) g'.Term A w) :=
  rewriteSequence_lang p hwf hlim hin hu hfits (.inl hno)

/-- **C77.** The left side generates exactly the terminal strings derived from a number of
repetitions in the range, separated as promised. -/
theorem C77_left_side (p : Profile) {g : Cfg} {top : Sequence} (hwf : g.WF)
    (hlim : g.LimitOk) (hin : SeqIn g top) (hu : top.InU32) (hfits : top.Fits)
    (hno : ∀ r ∈ g.rules, r.lhs ≠ top.lhs) :
    ∃ g', g.rewriteSequence p top = .ok g' ∧
      ∀ w, g'.Lang top.lhs w ↔ (∀ a ∈ w, g.Term a ∧ a ≠ top.lhs) ∧
        ∃ n β, top.start ≤ n ∧ (∀ e, top.stop = some e → n ≤ e) ∧
          Repeats top.rhs n top.separator β ∧
          Derives (fun A β => g.prod A β ∨ SeqProd top A β) β w := by
  obtain ⟨g', h1, -, -, h4, h5⟩ := C77_sequence_language p hwf hlim hin hu hfits hno
  refine ⟨g', h1, fun w => ?_⟩
  rw [h5 _ hin.1, inLang_iff, Der.single_iff]
  constructor
  · rintro ⟨rfl | ⟨β, hp, hd⟩, hT⟩
    · exact absurd rfl ((h4 _).1 (hT top.lhs (by simp))).2
    · refine ⟨fun a ha => (h4 a).1 (hT a ha), ?_⟩
      rcases hp with ⟨r, hr, e, -⟩ | ⟨-, n, a1, a2, a3⟩
      · exact absurd e (hno r hr)
      · exact ⟨n, β, a1, a2, a3, derives_iff_der.2 hd⟩
  · rintro ⟨hT, n, β, a1, a2, a3, hd⟩
    exact ⟨.inr ⟨β, .inr ⟨rfl, n, a1, a2, a3⟩, derives_iff_der.1 hd⟩,
      fun a ha => (h4 a).2 (hT a ha)⟩

/-- `S ::= x A | y`, `A` undefined yet, `x y ,` terminals: `S A x y , = 0 .. 4`. -/
def exSeq : Cfg :=
  { src := ⟨5, [none, none, none, none, none]⟩
    rules := [⟨0, [2, 1], {}⟩, ⟨0, [3], {}⟩]
    roots := [0] }

theorem exSeq_wf : exSeq.WF := by decide +kernel

theorem exSeq_lim : exSeq.LimitOk := by decide +kernel

/-- The hypotheses of C77 and of C49 are met by the sequence `A ::= S+(3..=7 , )`. -/
example : ∃ g', exSeq.rewriteSequence .debug ⟨1, 0, 3, some 7, .proper 4, none⟩ = .ok g' ∧
    g'.WF ∧ g'.roots = exSeq.roots ∧
      (∀ a, g'.Term a ↔ exSeq.Term a ∧ a ≠ 1) ∧
      ∀ A, A < exSeq.numSyms → ∀ w, (g'.Lang A w ↔ InLang (fun A β => exSeq.prod A β ∨
        SeqProd ⟨1, 0, 3, some 7, .proper 4, none⟩ A β) g'.Term A w) :=
  C77_sequence_language .debug exSeq_wf exSeq_lim (by simp [SeqIn, exSeq, Cfg.numSyms,
    Separator.sym?]) (by simp [Sequence.InU32]) (by simp [Sequence.Fits]) (by decide +kernel)

example : ((fun g => g.rules.map fun r => (r.lhs, r.rhs)) <$>
    exSeq.rewriteSequence .debug ⟨1, 0, 2, some 4, .trailing 4, none⟩) =
    .ok [(0, [2, 1]), (0, [3]), (1, [5, 4]), (5, [6, 7]), (7, [8]), (7, [9, 10]), (10, [0]),
      (9, [11, 4]), (11, [0, 4, 0]), (8, [10]), (8, [11]), (6, [10, 4])] := by decide +kernel

/-- **C49** (partial: open ranges start at `2 ^ 31 + 1` at most). Rewriting succeeds and gives the
left side exactly the promised repetitions. -/
theorem C49_sequence_language_partial (p : Profile) {g : Cfg} {top : Sequence} (hwf : g.WF)
    (hlim : g.LimitOk) (hin : SeqIn g top)
    (hrange : (∃ e, top.stop = some e ∧ top.start ≤ e ∧ e ≤ 2 ^ 31) ∨
      top.stop = none ∧ top.start ≤ 2 ^ 31 + 1)
    (hno : ∀ r ∈ g.rules, r.lhs ≠ top.lhs) :
    ∃ g', g.rewriteSequence p top = .ok g' ∧
      ∀ w, g'.Lang top.lhs w ↔ (∀ a ∈ w, g.Term a ∧ a ≠ top.lhs) ∧
        ∃ n β, top.start ≤ n ∧ (∀ e, top.stop = some e → n ≤ e) ∧
          Repeats top.rhs n top.separator β ∧
          Derives (fun A β => g.prod A β ∨ SeqProd top A β) β w := by
  refine C77_left_side p hwf hlim hin ?_ ?_ hno
  · unfold Sequence.InU32
    rcases hrange with ⟨e, h1, h2, h3⟩ | ⟨h1, h2⟩
    · rw [h1]
      refine ⟨by omega, fun e' he => ?_⟩
      cases he
      omega
    · rw [h1]
      exact ⟨by omega, fun e' he => by cases he⟩
  · unfold Sequence.Fits
    rcases hrange with ⟨e, h1, h2, h3⟩ | ⟨h1, h2⟩ <;> rw [h1] <;> simp only
    · omega
    · exact h2

example : ((fun g => g.rules.map fun r => (r.lhs, r.rhs)) <$>
    exSeq.rewriteSequence .release ⟨1, 2, 1, none, .proper 4, none⟩) =
    .ok [(0, [2, 1]), (0, [3]), (1, [2]), (1, [1, 4, 2])] := by decide +kernel

/-- **C49** is violated in the release profile: the sequence of at least `2 ^ 31 + 2` repetitions
is accepted, but its left side generates nothing, although `2 ^ 31 + 2` repetitions of the terminal
are promised. -/
theorem C49_violated_open_release :
    ∃ g', exSeq.rewriteSequence .release ⟨1, 2, 2 ^ 31 + 2, none, .null, none⟩ = .ok g' ∧
      (∀ w, ¬ g'.Lang 1 w) ∧
      SeqProd ⟨1, 2, 2 ^ 31 + 2, none, .null, none⟩ 1 (List.replicate (2 ^ 31 + 2) 2) ∧
      ∀ a ∈ List.replicate (2 ^ 31 + 2) 2, g'.Term a := by
  have e : (fun g => decide g.WF && decide (g.productiveSyms = .ok
      [true, false, true, true, true, false, true, true]) && decide (2 < g.numSyms) &&
      g.rules.all fun r => r.lhs != 2) <$> exSeq.rewriteSequence .release
      ⟨1, 2, 2 ^ 31 + 2, none, .null, none⟩ = .ok true := by decide +kernel
  cases h : exSeq.rewriteSequence .release ⟨1, 2, 2 ^ 31 + 2, none, .null, none⟩ with
  | ok g' =>
    rw [h] at e
    have e := Res.ok.inj e
    simp only [Bool.and_eq_true, decide_eq_true_eq, List.all_eq_true, bne_iff_ne] at e
    obtain ⟨⟨⟨e1, e2⟩, e3⟩, e4⟩ := e
    refine ⟨g', rfl, ?_, ⟨rfl, 2 ^ 31 + 2, Nat.le_refl _, by simp, rfl⟩, ?_⟩
    · intro w hw
      obtain ⟨b, h1, -, h3⟩ := productiveSyms_spec e1
      rw [e2] at h1
      have h1 := Res.ok.inj h1
      subst h1
      have := (h3 1).2 ⟨w, hw⟩
      revert this
      decide
    · intro a ha
      rw [List.eq_of_mem_replicate ha]
      exact ⟨e3, e4⟩
  | panic => rw [h] at e; cases e
  | diverge => rw [h] at e; cases e

/-! ## Size -/

theorem mem_map_keys {p : Profile} {g : Cfg} {L : PartialSequence → Prop} {top : Sequence}
    {P : Productions} {Q : List (Sym × List Sym)} {st : SeqState} (h : LInv p g L top P Q st)
    (hLs : ∀ k, L k → k ∈ keyList top.key) : st.map.length ≤ (keyList top.key).length := by
  have := (List.subperm_of_subset h.inv.keys (l₂ := keyList top.key) (by
    intro k hk
    obtain ⟨e, he, rfl⟩ := List.mem_map.1 hk
    exact hLs _ (h.inv.allowed e he))).length_le
  simpa using this

/-- **C50.** Rewriting terminates for every non-inverted range of `u32` numbers. If it does not
panic, the old rules stay in front; the number of new rules and the number of new symbols are
logarithmic in the larger bound. -/
theorem C50_terminates_small (p : Profile) {g : Cfg} {top : Sequence} (hwf : g.WF)
    (hlim : g.LimitOk) (hin : SeqIn g top) (hu : top.InU32) (hne : top.NonEmpty) (m : Nat)
    (hm : 1 ≤ m ∧ top.start ≤ m ∧ ∀ e, top.stop = some e → e ≤ m) :
    g.rewriteSequence p top ≠ .diverge ∧
    ∀ g', g.rewriteSequence p top = .ok g' →
      (∃ rs, g'.rules = g.rules ++ rs ∧ rs.length ≤ 72 * Nat.log2 m + 148) ∧
      g'.numSyms ≤ g.numSyms + 54 * Nat.log2 m + 110 := by
  have hA := seqKeys_allowed hin
  by_cases hstep : StepOk p top.key
  · rcases rewriteSequence_run (p := p) hwf hlim hin hA (fun k h => h.2) (u32_iff.1 hu) hstep
      (fun items hi k' hk => ⟨(u32_iff.1 hu).refs hi hk,
        keyList_refs (self_mem_keyList _) hi hk⟩) with ⟨e, -⟩ | ⟨st, P, c, e, h, hs⟩
    · rw [e]
      exact ⟨by simp, fun g' h => by cases h⟩
    · rw [e]
      refine ⟨by simp, fun g' hg => ?_⟩
      cases hg
      have h1 := mem_map_keys h fun k hk => hk.2
      have hc := counts_le top.key m hm.2.1 hm.2.2 hm.1
      have h2 := length_keyList_le top.key (Nat.log2 m) (log2_mono hc.1) (log2_mono hc.2)
      have h3 := h.count
      rw [hs] at h3
      simp only [List.length_nil] at h3
      obtain ⟨rs, h4, h5⟩ := h.inv.rules
      have h6 := h.inv.syms
      exact ⟨⟨rs, h4, by omega⟩, by omega⟩
  · cases p with
    | release =>
      refine absurd (stepOk_release ?_ (u32_iff.1 hu)) hstep
      unfold Valid
      simp only [Sequence.key]
      cases e : top.stop with
      | some e' => exact hne e' e
      | none => simp only [Option.getD_none, u32Max]; have := hu.1; omega
    | debug =>
      have : g.rewriteSequence .debug top = .panic := by
        unfold Cfg.rewriteSequence
        simp only [processLinked, Res.bind_ok]
        rw [reduce_panic hstep (u32_iff.1 hu)]
        rfl
      rw [this]
      exact ⟨by simp, fun g' h => by cases h⟩

example : ((fun g => (g.rules.length, g.numSyms)) <$>
    exSeq.rewriteSequence .debug ⟨1, 0, 12345, some 1234567890, .liberal 4, none⟩) =
    .ok (160, 117) := by decide +kernel

example : (⟨1, 0, 12345, some 1234567890, .liberal 4, none⟩ : Sequence).InU32 ∧
    (⟨1, 0, 12345, some 1234567890, .liberal 4, none⟩ : Sequence).NonEmpty := by
  simp [Sequence.InU32, Sequence.NonEmpty]

/-! ## Accepted ranges -/

theorem keyOk_of_steps {M : PartialSequence → Prop} (hM : ∀ k, M k → Valid k ∧ StepOk .debug k)
    (hrefs : ∀ k, M k → ∀ items ∈ plan k, ∀ k', Item.ref k' ∈ items → M k')
    {k : PartialSequence} (hk : StepOk .debug k)
    (hk' : ∀ items ∈ plan k, ∀ k', Item.ref k' ∈ items → M k') : KeyOk k := by
  have hpos : ∀ k, (k.separator = .null ∨ ∃ s, k.separator = .proper s) → StepOk .debug k →
      (∀ items ∈ plan k, ∀ k', Item.ref k' ∈ items → M k') → KeyOk k := by
    rintro ⟨x, start, stop, sp⟩ hsp hst hr
    unfold KeyOk
    simp only at hsp ⊢
    have hplan : start ≠ 0 → plan ⟨x, start, stop, sp⟩ = planPos ⟨x, start, stop, sp⟩ := by
      intro h
      rcases hsp with rfl | ⟨s, rfl⟩ <;> simp [plan, h]
    have hplan0 : start = 0 → stop ≠ some 0 → [Item.ref ⟨x, 1, stop, sp⟩] ∈
        plan ⟨x, start, stop, sp⟩ := by
      intro h h'
      rcases hsp with rfl | ⟨s, rfl⟩ <;> simp [plan, h, h']
    have hs : start = 0 ∨ _ := hst.resolve_left (by
      rintro ⟨s, h⟩
      rcases hsp with rfl | ⟨s', rfl⟩ <;> simp at h)
    have hs : start ≠ 0 → _ := fun h => hs.resolve_left h
    simp only [reduceCtorEq, or_false] at hs
    by_cases h0 : start = 0
    · subst h0
      refine ⟨by simp, ?_, by simp⟩
      intro _ e he
      subst he
      by_cases he0 : e = 0
      · omega
      · have := hM _ (hr _ (hplan0 rfl (by simpa using he0)) ⟨x, 1, some e, sp⟩
          (by simp))
        have := (this.2.resolve_left (by
          rintro ⟨s, h⟩
          rcases hsp with rfl | ⟨s', rfl⟩ <;> simp at h)).resolve_left (by simp)
        simpa using this.1 rfl e rfl
    obtain ⟨s1, s2, s3⟩ := hs h0
    rw [hplan h0] at hr
    clear hplan hplan0 hs
    by_cases h1 : start = 1
    · subst h1
      refine ⟨?_, fun _ e he => s1 rfl e he, by simp⟩
      intro e he
      subst he
      by_contra hlt
      obtain rfl : e = 0 := by omega
      have := hM _ (hr [.ref ⟨x, 1, some (half 0), sp⟩] (by unfold planPos; simp) ⟨x, 1, some 0, sp⟩
        (by simp [half]))
      simp [Valid] at this
    have h2 : 2 ≤ start := by omega
    by_cases he : stop = some start
    · subst he
      refine ⟨by simp, by omega, ?_⟩
      intro _
      rw [if_pos rfl]
      exact s2 h2 rfl
    · have hpl : planPos ⟨x, start, stop, sp⟩ =
          [[.ref ⟨x, start - 1, some (start - 1), sp.prefixSeparator⟩,
            .ref ⟨x, 1, stop.map fun e => e - start + 1, sp⟩]] := by
        unfold planPos
        simp only
        rw [if_neg h1, if_neg (by rintro ⟨rfl, h⟩; exact he h), if_neg (fun h => he h.symm)]
      rw [hpl] at hr
      have hr := hr _ (List.mem_singleton.2 rfl)
      have r1 := hr ⟨x, start - 1, some (start - 1), sp.prefixSeparator⟩
        (by simp)
      have r2 := hr ⟨x, 1, stop.map fun e => e - start + 1, sp⟩ (by simp)
      have t2 := ((hM _ r2).2.resolve_left (by
        rintro ⟨s, h⟩
        rcases hsp with rfl | ⟨s', rfl⟩ <;> simp at h)).resolve_left (by simp)
      have t1 : 3 ≤ start → start - 1 ≤ 2 ^ 31 := by
        intro h3
        rcases hsp with rfl | ⟨s, rfl⟩
        · have := ((hM _ r1).2.resolve_left (by simp [Separator.prefixSeparator])).resolve_left
            (by simp; omega)
          simpa using this.2.1 (by simp; omega) rfl
        · have r3 := hrefs _ r1 [.ref ⟨x, start - 1, some (start - 1), .proper s⟩, .sym s]
            (by
              have : start - 1 ≠ 0 := by omega
              simp [plan, Separator.prefixSeparator, this])
            ⟨x, start - 1, some (start - 1), .proper s⟩ (by simp)
          have := ((hM _ r3).2.resolve_left (by simp)).resolve_left (by simp; omega)
          simpa using this.2.1 (by simp; omega) rfl
      refine ⟨fun e h => (s3 h2 he e h).1, by omega, fun _ => ?_⟩
      rw [if_neg he]
      refine ⟨by omega, fun e h => ?_⟩
      subst h
      simpa using t2.1 rfl (e - start + 1) (by simp)
  have hposM : ∀ k, (k.separator = .null ∨ ∃ s, k.separator = .proper s) → M k → KeyOk k :=
    fun k hsp hk => hpos k hsp (hM k hk).2 (hrefs k hk)
  obtain ⟨x, start, stop, sp⟩ := k
  cases sp with
  | null => exact hpos _ (.inl rfl) hk hk'
  | proper s => exact hpos _ (.inr ⟨s, rfl⟩) hk hk'
  | liberal s =>
    exact hposM ⟨x, start, stop, .proper s⟩ (.inr ⟨s, rfl⟩) (hk' [.ref ⟨x, start, stop, .proper s⟩]
      (by simp [plan]) ⟨x, start, stop, .proper s⟩ (by simp))
  | trailing s =>
    by_cases h0 : start = 0
    · subst h0
      refine ⟨by simp, ?_, by simp⟩
      intro _ e he
      simp only at he
      subst he
      by_cases he0 : e = 0
      · omega
      · have r1 := hk' [.ref ⟨x, 1, some e, .trailing s⟩] (by simp [plan, he0])
          ⟨x, 1, some e, .trailing s⟩ (by simp)
        have r2 := hrefs _ r1 [.ref ⟨x, 1, some e, .proper s⟩, .sym s] (by simp [plan])
          ⟨x, 1, some e, .proper s⟩ (by simp)
        exact (hposM _ (.inr ⟨s, rfl⟩) r2).2.1 (by simp) e rfl
    · exact hposM ⟨x, start, stop, .proper s⟩ (.inr ⟨s, rfl⟩)
        (hk' [.ref ⟨x, start, stop, .proper s⟩, .sym s] (by simp [plan, h0])
          ⟨x, start, stop, .proper s⟩ (by simp))

/-- **C51** (partial: what the debug profile accepts). In the debug profile, rewriting succeeds
exactly for the non-inverted ranges whose numbers of repetitions can be rounded up to a power of
two in 32 bits; for all other ranges, and so for every inverted one, it panics. -/
theorem C51_accepted_debug_partial {g : Cfg} {top : Sequence} (hwf : g.WF) (hlim : g.LimitOk)
    (hin : SeqIn g top) (hu : top.InU32) :
    ((∃ g', g.rewriteSequence .debug top = .ok g') ↔ top.Fits) ∧
    (¬ top.Fits → g.rewriteSequence .debug top = .panic) ∧
    (¬ top.NonEmpty → g.rewriteSequence .debug top = .panic) := by
  have hA := seqKeys_allowed hin
  have key : g.rewriteSequence .debug top = .panic ∨
      (∃ g', g.rewriteSequence .debug top = .ok g') ∧ top.Fits := by
    by_cases hstep : StepOk .debug top.key
    · rcases rewriteSequence_run (p := .debug) hwf hlim hin hA (fun k h => h.2) (u32_iff.1 hu) hstep
        (fun items hi k' hk => ⟨(u32_iff.1 hu).refs hi hk,
          keyList_refs (self_mem_keyList _) hi hk⟩) with ⟨e, -⟩ | ⟨st, P, c, e, h, hs⟩
      · exact .inl e
      · refine .inr ⟨⟨_, e⟩, fits_iff.2 ?_⟩
        have hdone : ∀ k y, (k, y) ∈ st.map → Done P st.map k y ∧ Valid k ∧ StepOk .debug k := by
          intro k y hky
          rcases h.done k y hky with ⟨s, h1, -⟩ | h1
          · rw [hs] at h1; simp at h1
          · exact h1
        have hinst : ∀ {k y items k'}, Done P st.map k y → items ∈ plan k →
            Item.ref k' ∈ items → ∃ y', (k', y') ∈ st.map := by
          intro k y items k' hd hi hk
          obtain ⟨α, h1, -⟩ := hd items hi
          obtain ⟨a, -, h2⟩ := forall₂_left h1 hk
          exact ⟨a, h2⟩
        refine keyOk_of_steps (M := fun k => ∃ y, (k, y) ∈ st.map) ?_ ?_ hstep ?_
        · rintro k ⟨y, hy⟩
          exact (hdone k y hy).2
        · rintro k ⟨y, hy⟩ items hi k' hk
          exact hinst (hdone k y hy).1 hi hk
        · intro items hi k' hk
          exact hinst h.topDone hi hk
    · left
      unfold Cfg.rewriteSequence
      simp only [processLinked, Res.bind_ok]
      rw [reduce_panic hstep (u32_iff.1 hu)]
      rfl
  have hfit : top.Fits → ∃ g', g.rewriteSequence .debug top = .ok g' := by
    intro hf
    obtain ⟨st, P, c, e, -⟩ := rewriteSequence_ok .debug hwf hlim hin (u32_iff.1 hu) (fits_iff.1 hf)
    exact ⟨_, e⟩
  refine ⟨⟨?_, hfit⟩, ?_, ?_⟩
  · rintro ⟨g', e⟩
    rcases key with h | h
    · rw [e] at h; cases h
    · exact h.2
  · intro hn
    exact key.resolve_right fun h => hn h.2
  · intro hn
    refine key.resolve_right fun h => hn ?_
    have := (fits_iff.1 h.2).1
    exact this

/-- **C51** (partial): ranges that fit are also accepted in the release profile. -/
theorem C51_accepted_release_partial {g : Cfg} {top : Sequence} (hwf : g.WF) (hlim : g.LimitOk)
    (hin : SeqIn g top) (hu : top.InU32) (hf : top.Fits) :
    ∃ g', g.rewriteSequence .release top = .ok g' := by
  obtain ⟨st, P, c, e, -⟩ := rewriteSequence_ok .release hwf hlim hin (u32_iff.1 hu) (fits_iff.1 hf)
  exact ⟨_, e⟩

/-- **C51** is violated: non-empty ranges are rejected in both profiles, and the release profile
accepts an inverted range, from `2 ^ 32 - 1` repetitions to 0, although it rejects others. -/
theorem C51_violated :
    (⟨1, 2, 1, some (2 ^ 31 + 1), .null, none⟩ : Sequence).NonEmpty ∧
    exSeq.rewriteSequence .debug ⟨1, 2, 1, some (2 ^ 31 + 1), .null, none⟩ = .panic ∧
    exSeq.rewriteSequence .release ⟨1, 2, 1, some (2 ^ 31 + 1), .null, none⟩ = .panic ∧
    ¬ (⟨1, 2, 2 ^ 32 - 1, some 0, .null, none⟩ : Sequence).NonEmpty ∧
    ((fun _ => ()) <$> exSeq.rewriteSequence .release ⟨1, 2, 2 ^ 32 - 1, some 0, .null, none⟩) =
      .ok () ∧
    exSeq.rewriteSequence .release ⟨1, 2, 5, some 3, .null, none⟩ = .panic ∧
    exSeq.rewriteSequence .release ⟨1, 2, 4, some 3, .proper 4, none⟩ = .panic := by
  refine ⟨by simp [Sequence.NonEmpty], by decide +kernel, by decide +kernel,
    by simp [Sequence.NonEmpty], by decide +kernel, by decide +kernel, by decide +kernel⟩

example : exSeq.rewriteSequence .debug ⟨1, 2, 5, some 4, .trailing 4, none⟩ = .panic := by
  decide +kernel
example : (⟨1, 2, 2, some (2 ^ 31 + 1), .liberal 4, none⟩ : Sequence).Fits := by
  simp [Sequence.Fits]

/-! ## Ranges -/

/-- **C52** (partial: not for `..0` with an excluded end of 0, nor for an excluded start of
`u32::MAX`). The bounds chosen by `range` select exactly the numbers in the Rust range. -/
theorem C52_range_exact_partial (s : Sequence) {lo hi : RangeBound} (hlo : lo.Within) (hhi : hi.Within)
    (h1 : hi ≠ .excluded 0) (h2 : lo ≠ .excluded u32Max) :
    (s.range lo hi).InU32 ∧
    ∀ n, ((s.range lo hi).start ≤ n ∧ ∀ e, (s.range lo hi).stop = some e → n ≤ e) ↔
      InRange lo hi n := by
  have a1 : ∀ a : Nat, a < 2 ^ 32 → a ≠ u32Max → (((a : Int) + 1) % 2 ^ 32).toNat = a + 1 := by
    intro a h h'
    unfold u32Max at h'
    omega
  have a2 : ∀ a : Nat, a < 2 ^ 32 → a ≠ 0 → (((a : Int) + (-1)) % 2 ^ 32).toNat = a - 1 := by
    intro a h h'
    omega
  unfold Sequence.InU32
  simp only [Sequence.range, Sequence.inclusive, rangeBounds, InRange]
  refine ⟨⟨?_, ?_⟩, fun n => and_congr ?_ ?_⟩
  · cases lo with
    | included a => exact hlo
    | excluded a =>
      simp only [RangeBound.toOption, Option.getD_some]
      omega
    | unbounded => simp [RangeBound.toOption]
  · cases hi with
    | included a => simpa [RangeBound.toOption, RangeBound.Within] using hhi
    | excluded a =>
      simp only [RangeBound.toOption, Option.some.injEq, forall_eq']
      omega
    | unbounded => simp [RangeBound.toOption]
  · cases lo with
    | included a => simp [RangeBound.toOption]
    | excluded a =>
      simp only [RangeBound.toOption, Option.getD_some]
      rw [a1 a hlo (fun h => h2 (by rw [h]))]
      omega
    | unbounded => simp [RangeBound.toOption]
  · cases hi with
    | included a => simp [RangeBound.toOption]
    | excluded a =>
      simp only [RangeBound.toOption, Option.some.injEq, forall_eq']
      have : a ≠ 0 := fun h => h1 (by rw [h])
      rw [a2 a hhi this]
      omega
    | unbounded => simp [RangeBound.toOption]

example : (RangeBound.included 3).Within ∧ (RangeBound.excluded 8).Within ∧
    rangeBounds (.included 3) (.excluded 8) = (3, some 7) := by
  simp [RangeBound.Within, rangeBounds, RangeBound.toOption]

/-- **C52** is violated: `range(0..0)`, which contains no number, becomes all `u32` numbers; and
the range of the numbers above `u32::MAX` becomes all numbers. -/
theorem C52_violated :
    (∀ n, ¬ InRange (.included 0) (.excluded 0) n) ∧
    rangeBounds (.included 0) (.excluded 0) = (0, some u32Max) ∧
    (∀ n, n ≤ u32Max → ¬ InRange (.excluded u32Max) .unbounded n) ∧
    rangeBounds (.excluded u32Max) .unbounded = (0, none) := by
  refine ⟨by simp [InRange], by decide +kernel, ?_, by decide +kernel⟩
  intro n hn h
  simp only [InRange, and_true] at h
  omega

/-! ## Left sides with other rules -/

/-- The sequence rule is rewritten into a direct left recursion of its own left side. -/
def Sequence.Direct (seq : Sequence) : Prop :=
  seq.start = 1 ∧ seq.stop = none ∧
    (seq.separator = .null ∨ ∃ s, seq.separator = .proper s)

/-- **C78** (partial: not for sequences of at least one element with separator `Null` or `Proper`).
A left side that has other rules generates what it generates with the promised repetitions as
additional productions. -/
theorem C78_other_rules_partial (p : Profile) {g : Cfg} {top : Sequence} (hwf : g.WF)
    (hlim : g.LimitOk) (hin : SeqIn g top) (hu : top.InU32) (hfits : top.Fits)
    (hd : ¬ top.Direct) :
    ∃ g', g.rewriteSequence p top = .ok g' ∧ g'.WF ∧ g'.roots = g.roots ∧
      (∀ a, g'.Term a ↔ g.Term a ∧ a ≠ top.lhs) ∧
      ∀ A, A < g.numSyms → ∀ w,
        (g'.Lang A w ↔ InLang (fun A β => g.prod A β ∨ SeqProd top A β) g'.Term A w) := by
  refine rewriteSequence_lang p hwf hlim hin hu hfits (.inr ?_)
  intro items hi hs
  apply hd
  obtain ⟨lhs, x, start, stop, sp, hist⟩ := top
  simp only [Sequence.key] at hi
  unfold plan planPos at hi
  simp only at hi
  unfold Sequence.Direct
  cases sp <;> simp only at hi
  all_goals
    repeat' split at hi
  all_goals
    simp only [List.mem_cons, List.not_mem_nil, or_false] at hi
    rcases hi with rfl | rfl
  all_goals
    simp_all [sepItems]

/-- The hypotheses of C78 are met by `S ::= A+(2..=3)` for the left side `S`, which has rules. -/
example : (⟨0, 1, 2, some 3, .trailing 4, none⟩ : Sequence).Fits ∧
    ¬ (⟨0, 1, 2, some 3, .trailing 4, none⟩ : Sequence).Direct := by
  simp [Sequence.Fits, Sequence.Direct]

/-- **C78** is violated for the direct recursion: `S ::= y` and the sequence `S ::= x+` give
`S ::= y | x | S x`, so `S` generates `y x`, which is neither generated by the old rules nor a
sequence of `x`. -/
theorem C78_violated :
    ∃ g', (⟨⟨3, [none, none, none]⟩, [⟨0, [2], {}⟩], [0], [], none⟩ : Cfg).rewriteSequence .debug
        ⟨0, 1, 1, none, .null, none⟩ = .ok g' ∧
      g'.Lang 0 [2, 1] ∧
      ¬ InLang (fun A β => (A = 0 ∧ β = [2]) ∨ SeqProd ⟨0, 1, 1, none, .null, none⟩ A β)
        g'.Term 0 [2, 1] := by
  have e : (fun g => g.rules.map fun r => (r.lhs, r.rhs)) <$>
      (⟨⟨3, [none, none, none]⟩, [⟨0, [2], {}⟩], [0], [], none⟩ : Cfg).rewriteSequence .debug
        ⟨0, 1, 1, none, .null, none⟩ = .ok [(0, [2]), (0, [1]), (0, [0, 1])] := by decide +kernel
  have e' : (fun g => g.numSyms) <$>
      (⟨⟨3, [none, none, none]⟩, [⟨0, [2], {}⟩], [0], [], none⟩ : Cfg).rewriteSequence .debug
        ⟨0, 1, 1, none, .null, none⟩ = .ok 3 := by decide +kernel
  cases h : (⟨⟨3, [none, none, none]⟩, [⟨0, [2], {}⟩], [0], [], none⟩ : Cfg).rewriteSequence .debug
        ⟨0, 1, 1, none, .null, none⟩ with
  | panic => rw [h] at e; cases e
  | diverge => rw [h] at e; cases e
  | ok g' =>
    rw [h] at e e'
    have e := Res.ok.inj e
    have e' : g'.numSyms = 3 := Res.ok.inj e'
    have hp : ∀ A α, g'.prod A α ↔ (A, α) ∈ [(0, [2]), (0, [1]), (0, [0, 1])] := by
      intro A α
      rw [← e, List.mem_map]
      constructor
      · rintro ⟨r, hr, rfl, rfl⟩; exact ⟨r, hr, rfl⟩
      · rintro ⟨r, hr, he⟩; exact ⟨r, hr, congrArg Prod.fst he, congrArg Prod.snd he⟩
    have hT : ∀ a ∈ [2, 1], g'.Term a := by
      intro a ha
      refine ⟨by rw [e']; simp at ha; omega, fun r hr he => ?_⟩
      have := (hp a r.rhs).1 ⟨r, hr, he, rfl⟩
      simp at this ha
      omega
    refine ⟨g', rfl, inLang_iff.2 ⟨?_, hT⟩, ?_⟩
    · refine Der.trans (.prod ((hp 0 [0, 1]).2 (by simp))) ?_
      exact Der.append (u₁ := [0]) (v₁ := [2]) (.prod ((hp 0 [2]).2 (by simp))) (.refl _)
    · intro hl
      have hno : ∀ u v : List Sym, Der (fun A β => (A = 0 ∧ β = [2]) ∨
          SeqProd ⟨0, 1, 1, none, .null, none⟩ A β) u v → 0 ∉ u → u = v := by
        intro u v hd
        induction hd with
        | nil => intro _; rfl
        | keep _ _ ih => intro h0; simp at h0; rw [ih h0.2]
        | expand hp _ _ _ _ =>
          intro h0
          simp at h0
          rcases hp with ⟨h1, -⟩ | ⟨h1, -⟩
          · exact absurd h1.symm h0.1
          · exact absurd h1.symm h0.1
      have hd := (inLang_iff.1 hl).1
      rw [Der.single_iff] at hd
      rcases hd with hd | ⟨β, ⟨-, rfl⟩ | ⟨-, n, -, -, hn⟩, hd⟩
      · simp at hd
      · simpa using hno _ _ hd (by simp)
      · simp only [Repeats] at hn
        subst hn
        have := hno _ _ hd (by simp [List.mem_replicate])
        have h2 : 2 ∈ List.replicate n 1 := by rw [this]; simp
        simpa using List.eq_of_mem_replicate h2

/-! ## Builder -/

theorem call_spec (before : List SeqCall) (dest : List Sequence) (c : SeqCall) :
    ((∃ sym, c = .rhs sym) ∨ (∃ sym h, c = .rhsWithHistory sym h)) ∧ addedBy before c = none ∧
      SeqBuilder.call ⟨lastLhs before, lastRange before, lastSeparator before, lastHistory before⟩
        dest c = .panic ∨
    ((∃ sym, c = .rhs sym) ∨ (∃ sym h, c = .rhsWithHistory sym h) → (addedBy before c).isSome) ∧
      SeqBuilder.call ⟨lastLhs before, lastRange before, lastSeparator before, lastHistory before⟩
        dest c = .ok (⟨lastLhs (c :: before), lastRange (c :: before),
          lastSeparator (c :: before), lastHistory (c :: before)⟩,
          dest ++ (addedBy before c).toList) := by
  cases c with
  | rhs sym =>
    simp only [SeqBuilder.call, SeqBuilder.rhsWithHistory, addedBy, lastLhs, lastRange,
      lastSeparator, lastHistory]
    cases lastRange before <;> cases lastLhs before <;> simp [Res.ofOption]
  | rhsWithHistory sym h =>
    simp only [SeqBuilder.call, SeqBuilder.rhsWithHistory, addedBy, lastLhs, lastRange,
      lastSeparator, lastHistory]
    cases lastRange before <;> cases lastLhs before <;> simp [Res.ofOption]
  | _ => simp [SeqBuilder.call, addedBy, lastLhs, lastRange, lastSeparator, lastHistory]

theorem run_append (b : SeqBuilder) (dest : List Sequence) (cs : List SeqCall) (c : SeqCall) :
    SeqBuilder.run b dest (cs ++ [c]) = (do
      let (b, dest) ← SeqBuilder.run b dest cs
      b.call dest c) := by
  induction cs generalizing b dest with
  | nil =>
    simp only [List.nil_append, SeqBuilder.run, Res.bind_ok]
    cases b.call dest c <;> rfl
  | cons c' cs ih =>
    simp only [List.cons_append, SeqBuilder.run]
    cases b.call dest c' with
    | ok r => simp only [Res.bind_ok]; exact ih _ _
    | panic => rfl
    | diverge => rfl

/-- A call that adds a sequence rule. -/
def SeqCall.Adds (c : SeqCall) : Prop :=
  (∃ sym, c = .rhs sym) ∨ ∃ sym h, c = .rhsWithHistory sym h

theorem addedBy_none {before : List SeqCall} {c : SeqCall} (hc : c.Adds) :
    addedBy before c = none ↔ lastLhs before = none ∨ lastRange before = none := by
  rcases hc with ⟨sym, rfl⟩ | ⟨sym, h, rfl⟩ <;> simp only [addedBy] <;>
    cases lastRange before <;> cases lastLhs before <;> simp

theorem builder_spec (calls : List SeqCall) :
    ((∃ i c, calls[i]? = some c ∧ c.Adds ∧ addedBy (calls.take i).reverse c = none) ∧
      SeqBuilder.run {} [] calls = .panic) ∨
    (¬ (∃ i c, calls[i]? = some c ∧ c.Adds ∧ addedBy (calls.take i).reverse c = none) ∧
      SeqBuilder.run {} [] calls = .ok (⟨lastLhs calls.reverse, lastRange calls.reverse,
        lastSeparator calls.reverse, lastHistory calls.reverse⟩,
        (List.range calls.length).filterMap fun i =>
          calls[i]?.bind (addedBy (calls.take i).reverse))) := by
  induction calls using List.reverseRecOn with
  | nil => right; simp [SeqBuilder.run, lastLhs, lastRange, lastSeparator, lastHistory]
  | append_singleton cs c ih =>
    rw [run_append]
    have hsub : ∀ {i c'}, cs[i]? = some c' → (cs ++ [c])[i]? = some c' ∧
        (cs ++ [c]).take i = cs.take i := by
      intro i c' h
      have hi : i < cs.length := (List.getElem?_eq_some_iff.1 h).1
      exact ⟨by rw [List.getElem?_append_left hi]; exact h, List.take_append_of_le_length hi.le⟩
    rcases ih with ⟨⟨i, c', h1, h2, h3⟩, h4⟩ | ⟨h3, h4⟩
    · left
      refine ⟨⟨i, c', (hsub h1).1, h2, by rw [(hsub h1).2]; exact h3⟩, ?_⟩
      rw [h4]; rfl
    · rw [h4]
      simp only [Res.bind_ok]
      rcases call_spec cs.reverse ((List.range cs.length).filterMap fun i =>
          cs[i]?.bind (addedBy (cs.take i).reverse)) c with ⟨a1, a2, a3⟩ | ⟨a1, a2⟩
      · left
        refine ⟨⟨cs.length, c, by simp, a1, by simpa using a2⟩, a3⟩
      · right
        refine ⟨?_, ?_⟩
        · rintro ⟨i, c', h5, h6, h7⟩
          have hi : i < cs.length + 1 := by
            simpa using (List.getElem?_eq_some_iff.1 h5).1
          by_cases hlt : i < cs.length
          · refine h3 ⟨i, c', ?_, h6, ?_⟩
            · rwa [List.getElem?_append_left hlt] at h5
            · rwa [List.take_append_of_le_length hlt.le] at h7
          · obtain rfl : i = cs.length := by omega
            simp at h5 h7
            subst h5
            have := a1 h6
            rw [h7] at this
            simp at this
        · rw [a2, List.reverse_append]
          simp only [List.reverse_singleton, List.singleton_append, List.length_append,
            List.length_singleton, List.range_succ, List.filterMap_append]
          refine congrArg Res.ok (congrArg (Prod.mk _) ?_)
          refine congrArg₂ (· ++ ·) ?_ ?_
          · refine List.filterMap_congr ?_
            intro i hi
            rw [List.mem_range] at hi
            rw [List.getElem?_append_left hi, List.take_append_of_le_length hi.le]
          · have e1 : (cs ++ [c])[cs.length]? = some c := by simp
            have e2 : (cs ++ [c]).take cs.length = cs := by simp
            simp only [List.filterMap_cons, List.filterMap_nil, e1, e2, Option.bind_some]
            cases addedBy cs.reverse c <;> rfl

/-- **C79.** A program of builder calls panics exactly when some `rhs` call comes without a left side
or without a range given since the rule before it. Otherwise it adds one sequence rule for each
`rhs` call, in order, with the last left side, the last separator given for that left side, the range
given since the previous rule and the history pending at the call. -/
theorem C79_builder (calls : List SeqCall) :
    (SeqBuilder.run {} [] calls = .panic ↔ ∃ i c, calls[i]? = some c ∧ c.Adds ∧
      (lastLhs (calls.take i).reverse = none ∨ lastRange (calls.take i).reverse = none)) ∧
    (SeqBuilder.run {} [] calls ≠ .panic → ∃ b, SeqBuilder.run {} [] calls = .ok (b,
      (List.range calls.length).filterMap fun i =>
        calls[i]?.bind (addedBy (calls.take i).reverse))) := by
  have hiff : (∃ i c, calls[i]? = some c ∧ c.Adds ∧ addedBy (calls.take i).reverse c = none) ↔
      ∃ i c, calls[i]? = some c ∧ c.Adds ∧
      (lastLhs (calls.take i).reverse = none ∨ lastRange (calls.take i).reverse = none) := by
    constructor
    · rintro ⟨i, c, h1, h2, h3⟩
      exact ⟨i, c, h1, h2, (addedBy_none h2).1 h3⟩
    · rintro ⟨i, c, h1, h2, h3⟩
      exact ⟨i, c, h1, h2, (addedBy_none h2).2 h3⟩
  rw [← hiff]
  rcases builder_spec calls with ⟨h1, h2⟩ | ⟨h1, h2⟩
  · exact ⟨⟨fun _ => h1, fun _ => h2⟩, fun h => absurd h2 h⟩
  · refine ⟨⟨fun h => ?_, fun h => absurd h h1⟩, fun _ => ⟨_, h2⟩⟩
    rw [h2] at h
    cases h

/-- A range is used up by the first `rhs`; separator and left side are kept; a new left side drops
the separator but not the range. -/
example : (fun r => r.2) <$> SeqBuilder.run {} [] [.sequence 1, .separator (.proper 4), .inclusive 2 (some 3),
      .rhs 0, .range (.included 1) .unbounded, .sequence 2, .rhsWithHistory 0 none] =
    .ok [⟨1, 0, 2, some 3, .proper 4, none⟩, ⟨2, 0, 1, none, .null, none⟩] := by decide +kernel
example : SeqBuilder.run {} [] [.sequence 1, .inclusive 2 none, .rhs 0, .rhs 3] = .panic := by
  decide +kernel

end Verif
