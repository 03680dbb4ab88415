import Verif.Props.Sequence

/-! # Property C129: several sequence rules -/

namespace Verif

/-- Rewrites sequence rules one after another: calls of `add_sequence` on one
`SequencesToProductions`, each of which clears the stack and the map.
`/repo/cfg-sequence/src/rewrite.rs:36-40,66-92`. -/
def Cfg.rewriteSequences (p : Profile) (g : Cfg) (tops : List Sequence) : Res Cfg :=
  tops.foldlM (fun g top => g.rewriteSequence p top) g

/-- The productions promised by several sequence rules. -/
def SeqProds (tops : List Sequence) : Productions := fun A β => ∃ top ∈ tops, SeqProd top A β

namespace Cfg

/-- Splitting of rules beside other productions. -/
theorem OSplit.inLang_with {O : Sym → Prop} {P : Productions} {g : Cfg} (hi : OSplit O P g)
    {E : Productions} {T : Sym → Prop} (hE : ∀ A α, E A α → O A ∧ ∀ a ∈ α, O a)
    (hT : ∀ a, T a → O a) {A : Sym} (hA : O A) (w : List Sym) :
    InLang (fun A α => g.prod A α ∨ E A α) T A w ↔ InLang (fun A α => P A α ∨ E A α) T A w := by
  unfold InLang
  refine and_congr_left fun hw => ?_
  have hw' : ∀ x ∈ w, O x := fun x hx => hT x (hw x hx)
  rw [derives_iff_der, derives_iff_der]
  constructor
  · intro d
    obtain ⟨h, h1, h2⟩ := hi.bwd
    have := Der.map (Q := fun A α => P A α ∨ E A α) h (fun A α hp => by
      rcases hp with ⟨r, hr, e1, e2⟩ | hp
      · rw [← e1, ← e2]
        exact (h2 r hr).mono' fun A α h => .prod (.inl h)
      · obtain ⟨k1, k2⟩ := hE A α hp
        rw [flatMap_single_of h1 k2, h1 A k1]
        exact .prod (.inr hp)) d
    rw [flatMap_single_of h1 hw', flatMap_single_of h1 (by simpa using hA)] at this
    exact this
  · refine Der.mono' fun A α hp => ?_
    rcases hp with hp | hp
    · exact (hi.fwd A α hp).mono' fun A α h => .prod (.inl h)
    · exact .prod (.inr hp)

end Cfg

theorem not_direct {top : Sequence} (hd : ¬ top.Direct) :
    ∀ items ∈ plan top.key, Item.self ∉ items := by
  intro items hi hs
  apply hd
  obtain ⟨lhs, x, start, stop, sp, hist⟩ := top
  simp only [Sequence.key] at hi
  unfold plan planPos at hi
  simp only at hi
  unfold Sequence.Direct
  cases sp <;> simp only at hi
  all_goals
    repeat' split at hi
  all_goals
    simp only [List.mem_cons, List.not_mem_nil, or_false] at hi
    rcases hi with rfl | rfl
  all_goals
    simp_all [sepItems]

theorem seqProd_in {g : Cfg} {top : Sequence} (hin : SeqIn g top) {A : Sym} {β : List Sym}
    (h : SeqProd top A β) : A < g.numSyms ∧ ∀ a ∈ β, a < g.numSyms := by
  obtain ⟨rfl, n, -, -, h⟩ := h
  refine ⟨hin.1, fun a ha => ?_⟩
  rcases repeats_mem h a ha with rfl | h
  · exact hin.2.1
  · exact hin.2.2 a h

/-- One rewrite beside other productions. -/
theorem rewriteSequence_with (p : Profile) {g : Cfg} {top : Sequence} (hwf : g.WF)
    (hlim : g.LimitOk) (hin : SeqIn g top) (hu : top.InU32) (hfits : top.Fits)
    (hno : top.Direct → ∀ r ∈ g.rules, r.lhs ≠ top.lhs) :
    ∃ g', g.rewriteSequence p top = .ok g' ∧ g'.WF ∧ g'.LimitOk ∧ g'.roots = g.roots ∧
      g.numSyms ≤ g'.numSyms ∧ (∀ a, g'.Term a ↔ g.Term a ∧ a ≠ top.lhs) ∧
      ∀ (E : Productions) (T : Sym → Prop),
        (∀ A α, E A α → A < g.numSyms ∧ ∀ a ∈ α, a < g.numSyms) → (∀ a, T a → a < g.numSyms) →
        (top.Direct → (∀ α, ¬ E top.lhs α) ∧ ¬ T top.lhs) →
        ∀ A, A < g.numSyms → ∀ w,
          (InLang (fun A α => g'.prod A α ∨ E A α) T A w ↔
            InLang (fun A α => (g.prod A α ∨ E A α) ∨ SeqProd top A α) T A w) := by
  have hok := fits_iff.1 hfits
  obtain ⟨st, P, c, e, h, hs⟩ := rewriteSequence_ok p hwf hlim hin (u32_iff.1 hu) hok
  have hle : g.numSyms ≤ st.g.numSyms := by
    rcases Nat.eq_zero_or_pos g.numSyms with h0 | h0
    · omega
    · have := h.inv.split.le (g.numSyms - 1) (.inl (by omega)); omega
  refine ⟨st.g, e, h.inv.split.wf, ?_, h.inv.roots, hle, h.term hs, ?_⟩
  · intro n hn
    rw [h.inv.limit] at hn
    exact hlim n hn
  intro E T hE hT hd A hA w
  rw [h.inv.split.inLang_with (fun A α h => ⟨.inl (hE A α h).1, fun a ha => .inl ((hE A α h).2 a ha)⟩)
    (fun a ha => .inl (hT a ha)) (.inl hA)]
  constructor
  · refine h.sound_in hwf hin hok (fun k hk => hk) hE hT ?_ hA
    by_cases h' : top.Direct
    · exact .inl ⟨hno h', hd h'⟩
    · exact .inr (not_direct h')
  · refine inLang_mono' ?_
    rintro A α ((hp | hp) | ⟨rfl, hp⟩)
    · exact .prod (.inl (h.old _ _ hp))
    · exact .prod (.inr hp)
    · exact (h.complete hs hok hp).mono' fun A α h => .prod (.inl h)

/-- A sequence rule of at least one element without or with a proper separator is the only
definition of its left side among the rules of the grammar and the sequence rules. -/
structure DirectAlone (g : Cfg) (tops : List Sequence) : Prop where
  rules : ∀ top ∈ tops, top.Direct → ∀ r ∈ g.rules, r.lhs ≠ top.lhs
  others : tops.Pairwise fun a b => a.Direct ∨ b.Direct → a.lhs ≠ b.lhs

theorem rewriteSequences_with (p : Profile) (tops : List Sequence) {g : Cfg} (hwf : g.WF)
    (hlim : g.LimitOk) (hin : ∀ top ∈ tops, SeqIn g top ∧ top.InU32 ∧ top.Fits)
    (hd : DirectAlone g tops) :
    ∃ g', g.rewriteSequences p tops = .ok g' ∧ g'.WF ∧ g'.LimitOk ∧ g'.roots = g.roots ∧
      g.numSyms ≤ g'.numSyms ∧ (∀ a, g'.Term a ↔ g.Term a ∧ ∀ top ∈ tops, a ≠ top.lhs) ∧
      ∀ (E : Productions) (T : Sym → Prop),
        (∀ A α, E A α → A < g.numSyms ∧ ∀ a ∈ α, a < g.numSyms) → (∀ a, T a → a < g.numSyms) →
        (∀ top ∈ tops, top.Direct → (∀ α, ¬ E top.lhs α) ∧ ¬ T top.lhs) →
        ∀ A, A < g.numSyms → ∀ w,
          (InLang (fun A α => g'.prod A α ∨ E A α) T A w ↔
            InLang (fun A α => (g.prod A α ∨ E A α) ∨ SeqProds tops A α) T A w) := by
  induction tops generalizing g with
  | nil =>
    refine ⟨g, rfl, hwf, hlim, rfl, Nat.le_refl _, by simp, fun E T _ _ _ A _ w => ?_⟩
    simp [SeqProds]
  | cons top tops ih =>
    obtain ⟨i1, i2, i3⟩ := hin top (by simp)
    obtain ⟨g₁, h1, h2, h3, h4, h5, h6, h7⟩ := rewriteSequence_with p hwf hlim i1 i2 i3
      (hd.rules top (by simp))
    have hpw := List.pairwise_cons.1 hd.others
    have hin' : ∀ t ∈ tops, SeqIn g₁ t ∧ t.InU32 ∧ t.Fits := by
      intro t ht
      obtain ⟨⟨a1, a2, a3⟩, a4⟩ := hin t (by simp [ht])
      exact ⟨⟨by omega, by omega, fun s hs => by have := a3 s hs; omega⟩, a4⟩
    have hd' : DirectAlone g₁ tops := by
      refine ⟨fun t ht hdt => ?_, hpw.2⟩
      refine ((h6 t.lhs).2 ⟨⟨(hin t (by simp [ht])).1.1, hd.rules t (by simp [ht]) hdt⟩, ?_⟩).2
      exact fun e => hpw.1 t ht (.inr hdt) e.symm
    obtain ⟨g', k1, k2, k3, k4, k5, k6, k7⟩ := ih h2 h3 hin' hd'
    refine ⟨g', ?_, k2, k3, k4.trans h4, by omega, fun a => ?_, fun E T hE hT hdT A hA w => ?_⟩
    · unfold Cfg.rewriteSequences at k1 ⊢
      rw [List.foldlM_cons, h1]
      exact k1
    · rw [k6, h6]
      simp only [List.mem_cons, forall_eq_or_imp]
      exact and_assoc
    · rw [k7 E T (fun A α h => ⟨by have := (hE A α h).1; omega, fun a ha => by
        have := (hE A α h).2 a ha; omega⟩) (fun a ha => by have := hT a ha; omega)
        (fun t ht => hdT t (by simp [ht])) A (by omega)]
      have := h7 (fun A α => E A α ∨ SeqProds tops A α) T ?_ hT ?_ A hA w
      · rw [show (fun A α => (g₁.prod A α ∨ E A α) ∨ SeqProds tops A α) =
          fun A α => g₁.prod A α ∨ E A α ∨ SeqProds tops A α from by
            funext A α; exact propext or_assoc, this]
        refine iff_of_eq (congrArg (fun P => InLang P T A w) ?_)
        funext A α
        have hc : SeqProds (top :: tops) A α ↔ SeqProd top A α ∨ SeqProds tops A α := by
          simp only [SeqProds, List.mem_cons, exists_eq_or_imp]
        rw [eq_iff_iff, hc]
        constructor
        · rintro ((k | k | k) | k)
          · exact .inl (.inl k)
          · exact .inl (.inr k)
          · exact .inr (.inr k)
          · exact .inr (.inl k)
        · rintro ((k | k) | k | k)
          · exact .inl (.inl k)
          · exact .inl (.inr (.inl k))
          · exact .inr k
          · exact .inl (.inr (.inr k))
      · rintro A α (h | ⟨t, ht, h⟩)
        · exact hE A α h
        · exact seqProd_in (hin t (by simp [ht])).1 h
      · intro hdir
        refine ⟨?_, (hdT top (by simp) hdir).2⟩
        rintro α (h | ⟨t, ht, e, -⟩)
        · exact (hdT top (by simp) hdir).1 α h
        · exact hpw.1 t ht (.inl hdir) e

/-- **C129.** Rewriting any number of sequence rules one after another succeeds; the terminals are
the old ones without the left sides; every old symbol then generates exactly what it generates with
the repetitions promised by all the sequence rules as productions. -/
theorem C129_language (p : Profile) {tops : List Sequence} {g : Cfg} (hwf : g.WF)
    (hlim : g.LimitOk) (hin : ∀ top ∈ tops, SeqIn g top ∧ top.InU32 ∧ top.Fits)
    (hd : DirectAlone g tops) :
    ∃ g', g.rewriteSequences p tops = .ok g' ∧ g'.WF ∧ g'.roots = g.roots ∧
      (∀ a, g'.Term a ↔ g.Term a ∧ ∀ top ∈ tops, a ≠ top.lhs) ∧
      ∀ A, A < g.numSyms → ∀ w,
        (g'.Lang A w ↔ InLang (fun A β => g.prod A β ∨ SeqProds tops A β) g'.Term A w) := by
  obtain ⟨g', h1, h2, -, h3, h4, h5, h6⟩ := rewriteSequences_with p tops hwf hlim hin hd
  refine ⟨g', h1, h2, h3, h5, fun A hA w => ?_⟩
  have := h6 (fun _ _ => False) g'.Term (by simp) (fun a ha => ((h5 a).1 ha).1.1)
    (fun t ht _ => ⟨by simp, fun h => ((h5 _).1 h).2 t ht rfl⟩) A hA w
  unfold Cfg.Lang
  simpa only [or_false] using this

/-- `S ::= x A | y` with `A ::= S+(3..=7 , )`, `y ::= x*` and `y ::= , %% x (2..)`. -/
def exSeqs : List Sequence :=
  [⟨1, 0, 3, some 7, .proper 4, none⟩, ⟨3, 2, 0, none, .null, none⟩,
    ⟨3, 4, 2, none, .trailing 2, none⟩]

theorem exSeqs_in : ∀ top ∈ exSeqs, SeqIn exSeq top ∧ top.InU32 ∧ top.Fits := by
  simp [exSeqs, SeqIn, exSeq, Cfg.numSyms, Separator.sym?, Sequence.InU32, Sequence.Fits]

theorem exSeqs_alone : DirectAlone exSeq exSeqs :=
  ⟨by simp [exSeqs, Sequence.Direct], by simp [exSeqs, Sequence.Direct]⟩

/-- The hypotheses are met by three sequence rules, two of them for one symbol. -/
example : ∃ g', exSeq.rewriteSequences .debug exSeqs = .ok g' ∧ g'.WF ∧ g'.roots = exSeq.roots ∧
      (∀ a, g'.Term a ↔ exSeq.Term a ∧ ∀ top ∈ exSeqs, a ≠ top.lhs) ∧
      ∀ A, A < exSeq.numSyms → ∀ w,
        (g'.Lang A w ↔ InLang (fun A β => exSeq.prod A β ∨ SeqProds exSeqs A β) g'.Term A w) :=
  C129_language .debug exSeq_wf exSeq_lim exSeqs_in exSeqs_alone

/-- A sequence with direct recursion beside sequences for other symbols. -/
example : DirectAlone exSeq [⟨1, 0, 1, none, .proper 4, none⟩, ⟨3, 2, 0, none, .null, none⟩] ∧
    (⟨1, 0, 1, none, .proper 4, none⟩ : Sequence).Direct :=
  ⟨⟨by simp [Sequence.Direct, exSeq], by simp [Sequence.Direct]⟩, by simp [Sequence.Direct]⟩

theorem DirectAlone.perm {g : Cfg} {tops tops' : List Sequence} (h : tops.Perm tops')
    (hd : DirectAlone g tops) : DirectAlone g tops' :=
  ⟨fun t ht => hd.rules t (h.mem_iff.2 ht), (h.pairwise_iff fun h1 h2 e => h1 h2.symm e.symm).1 hd.others⟩

/-- **C129.** The order in which the sequence rules are added does not matter for the languages
and the terminals. -/
theorem C129_order (p : Profile) {tops tops' : List Sequence} {g : Cfg} (hwf : g.WF)
    (hlim : g.LimitOk) (hin : ∀ top ∈ tops, SeqIn g top ∧ top.InU32 ∧ top.Fits)
    (hd : DirectAlone g tops) (hperm : tops.Perm tops') :
    ∃ g₁ g₂, g.rewriteSequences p tops = .ok g₁ ∧ g.rewriteSequences p tops' = .ok g₂ ∧
      g₁.Term = g₂.Term ∧ ∀ A, A < g.numSyms → ∀ w, (g₁.Lang A w ↔ g₂.Lang A w) := by
  obtain ⟨g₁, h1, -, -, h2, h3⟩ := C129_language p hwf hlim hin hd
  obtain ⟨g₂, k1, -, -, k2, k3⟩ := C129_language p hwf hlim
    (fun t ht => hin t (hperm.mem_iff.2 ht)) (hd.perm hperm)
  have hT : g₁.Term = g₂.Term := by
    funext a
    rw [eq_iff_iff, h2, k2]
    exact and_congr_right fun _ => ⟨fun h t ht => h t (hperm.mem_iff.2 ht), fun h t ht =>
      h t (hperm.mem_iff.1 ht)⟩
  have hP : SeqProds tops = SeqProds tops' := by
    funext A β
    exact propext ⟨fun ⟨t, ht, h⟩ => ⟨t, hperm.mem_iff.1 ht, h⟩,
      fun ⟨t, ht, h⟩ => ⟨t, hperm.mem_iff.2 ht, h⟩⟩
  refine ⟨g₁, g₂, h1, k1, hT, fun A hA w => ?_⟩
  rw [h3 A hA, k3 A hA, hT, hP]

example : ∃ g₁ g₂, exSeq.rewriteSequences .release exSeqs = .ok g₁ ∧
    exSeq.rewriteSequences .release exSeqs.reverse = .ok g₂ ∧ g₁.Term = g₂.Term ∧
    ∀ A, A < exSeq.numSyms → ∀ w, (g₁.Lang A w ↔ g₂.Lang A w) :=
  C129_order .release exSeq_wf exSeq_lim exSeqs_in exSeqs_alone (List.reverse_perm _).symm

end Verif
