import Verif.Proofs.SeqTrees
import Verif.Props.Sequence

/-!
# Property C102: parse trees of sequence rules
-/

namespace Verif

/-- **C102** (partial: not for `Liberal` separators with minimum 0, see `C102_violated_liberal`).
Rewriting a sequence rule gives exactly one parse tree for every way to parse a string as one of the
promised repetitions. -/
theorem C102_trees_partial (p : Profile) {g : Cfg} {top : Sequence} (hwf : g.WF)
    (hlim : g.LimitOk) (hin : SeqIn g top) (hu : top.InU32) (hfits : top.Fits)
    (hno : ∀ r ∈ g.rules, r.lhs ≠ top.lhs) (hrhs : top.rhs ≠ top.lhs)
    (hsep : top.separator.sym? ≠ some top.lhs)
    (hlib : ∀ s, top.separator = .liberal s → 1 ≤ top.start) :
    ∃ g', g.rewriteSequence p top = .ok g' ∧ ∀ w,
      SameNumber (g'.Trees top.lhs w)
        {q : List Sym × Forest // SeqProd top top.lhs q.1 ∧
          IsForest g'.pairs g'.Term q.1 q.2 w} := by
  obtain ⟨g', h1, h2, -⟩ := rewriteSequence_trees p hwf hlim hin (u32_iff.1 hu) (fits_iff.1 hfits)
    hno (by rintro (h | h); exacts [hrhs h.symm, hsep h])
  refine ⟨g', h1, fun w => ?_⟩
  have e : ∀ β, SeqProd top top.lhs β ↔ Form top.key β := fun β => by
    rw [seqProd_iff]
    exact ⟨fun h => h.2, fun h => ⟨rfl, h⟩⟩
  simp only [e]
  exact h2 hlib w

/-- The hypotheses are met: three to seven times `x`, separated by commas. -/
example : ∃ g', exSeq.rewriteSequence .debug ⟨1, 2, 3, some 7, .proper 4, none⟩ = .ok g' ∧ ∀ w,
      SameNumber (g'.Trees 1 w) {q : List Sym × Forest //
        SeqProd ⟨1, 2, 3, some 7, .proper 4, none⟩ 1 q.1 ∧
          IsForest g'.pairs g'.Term q.1 q.2 w} :=
  C102_trees_partial .debug exSeq_wf exSeq_lim (by simp [SeqIn, exSeq, Cfg.numSyms,
    Separator.sym?]) (by simp [Sequence.InU32]) (by simp [Sequence.Fits]) (by decide +kernel)
    (by simp) (by simp [Separator.sym?]) (by simp)

theorem isForest_terminals {rules : List (Sym × List Sym)} {T : Sym → Prop} {β w : List Sym}
    {f : Forest} (h : IsForest rules T β f w) (hβ : ∀ a ∈ β, T a) :
    β = w ∧ f = β.foldr Forest.leaf .nil := by
  induction h with
  | nil => exact ⟨rfl, rfl⟩
  | leaf _ _ ih =>
    obtain ⟨rfl, rfl⟩ := ih fun a ha => hβ a (by simp [ha])
    exact ⟨rfl, rfl⟩
  | node _ hn => exact absurd (hβ _ (by simp)) hn

/-- **C102** (partial: not for `Liberal` separators with minimum 0). If the element and the
separator are terminals, then no string has two parse trees. -/
theorem C102_unambiguous_partial (p : Profile) {g : Cfg} {top : Sequence} (hwf : g.WF)
    (hlim : g.LimitOk) (hin : SeqIn g top) (hu : top.InU32) (hfits : top.Fits)
    (hno : ∀ r ∈ g.rules, r.lhs ≠ top.lhs) (hrhs : g.Term top.rhs ∧ top.rhs ≠ top.lhs)
    (hsep : ∀ s, top.separator.sym? = some s → g.Term s ∧ s ≠ top.lhs)
    (hlib : ∀ s, top.separator = .liberal s → 1 ≤ top.start) :
    ∃ g', g.rewriteSequence p top = .ok g' ∧ g'.Unambiguous top.lhs := by
  obtain ⟨g', h1, -, -, h4, -⟩ := C77_sequence_language p hwf hlim hin hu hfits hno
  obtain ⟨g'', h5, h6⟩ := C102_trees_partial p hwf hlim hin hu hfits hno hrhs.2
    (fun h => (hsep _ h).2 rfl) hlib
  cases h1.symm.trans h5
  refine ⟨g', h1, fun w => ?_⟩
  obtain ⟨e⟩ := h6 w
  have : Subsingleton {q : List Sym × Forest // SeqProd top top.lhs q.1 ∧
      IsForest g'.pairs g'.Term q.1 q.2 w} := by
    constructor
    rintro ⟨⟨β, f⟩, ⟨-, n, -, -, a⟩, b⟩ ⟨⟨β', f'⟩, ⟨-, n', -, -, a'⟩, b'⟩
    have key : ∀ {n} {β : List Sym}, Repeats top.rhs n top.separator β → ∀ x ∈ β, g'.Term x := by
      intro n β a x hx
      rcases repeats_mem a x hx with rfl | e
      · exact (h4 _).2 hrhs
      · exact (h4 _).2 (hsep x e)
    obtain ⟨e1, e2⟩ := isForest_terminals b (key a)
    obtain ⟨e1', e2'⟩ := isForest_terminals b' (key a')
    simp only at e1 e2 e1' e2'
    subst e1 e1'
    simp only [e2, e2']
  exact e.subsingleton

example : ∃ g', exSeq.rewriteSequence .debug ⟨1, 2, 2, none, .liberal 4, none⟩ = .ok g' ∧
    g'.Unambiguous 1 :=
  C102_unambiguous_partial .debug exSeq_wf exSeq_lim (by simp [SeqIn, exSeq, Cfg.numSyms,
    Separator.sym?]) (by simp [Sequence.InU32]) (by simp [Sequence.Fits]) (by decide +kernel)
    (by decide +kernel) (by
      intro s hs
      simp only [Separator.sym?, Option.some.injEq] at hs
      subst hs
      decide +kernel) (by simp)

/-- The grammar made for any number of `x` with optional commas at the end. -/
def exLiberal : Cfg :=
  { src := ⟨9, List.replicate 9 none⟩, rules := [⟨0, [2, 1], {}⟩, ⟨0, [3], {}⟩, ⟨1, [5], {}⟩, ⟨1, [6], {}⟩, ⟨6, [], {}⟩,
      ⟨6, [7], {}⟩, ⟨7, [8, 4], {}⟩, ⟨8, [2], {}⟩, ⟨8, [8, 4, 2], {}⟩, ⟨5, [], {}⟩, ⟨5, [8], {}⟩] }

/-- **C102** is violated: with a `Liberal` separator and minimum 0 the empty string has two parse
trees, although the element and the separator are terminals. -/
theorem C102_violated_liberal : ∃ (g : Cfg) (top : Sequence) (g' : Cfg), g.WF ∧ g.LimitOk ∧
    SeqIn g top ∧ top.InU32 ∧ top.Fits ∧ (∀ r ∈ g.rules, r.lhs ≠ top.lhs) ∧
    (g.Term top.rhs ∧ top.rhs ≠ top.lhs) ∧
    (∀ s, top.separator.sym? = some s → g.Term s ∧ s ≠ top.lhs) ∧
    g.rewriteSequence .debug top = .ok g' ∧ ¬ g'.Unambiguous top.lhs := by
  have hin : SeqIn exSeq ⟨1, 2, 0, none, .liberal 4, none⟩ := by
    simp [SeqIn, exSeq, Cfg.numSyms, Separator.sym?]
  have hno : ∀ r ∈ exSeq.rules, r.lhs ≠ 1 := by decide +kernel
  obtain ⟨g', h1, -, -, h4, -⟩ := C77_sequence_language .debug
    (top := ⟨1, 2, 0, none, .liberal 4, none⟩) exSeq_wf exSeq_lim hin
    (by simp [Sequence.InU32]) (by simp [Sequence.Fits]) hno
  have hp : (fun g => g.pairs) <$> exSeq.rewriteSequence .debug ⟨1, 2, 0, none, .liberal 4, none⟩ =
      .ok exLiberal.pairs := by decide +kernel
  rw [h1] at hp
  have hp : g'.pairs = exLiberal.pairs := Res.ok.inj hp
  refine ⟨exSeq, ⟨1, 2, 0, none, .liberal 4, none⟩, g', exSeq_wf, exSeq_lim, hin,
    by simp [Sequence.InU32], by simp [Sequence.Fits], hno, by decide +kernel, ?_, h1, ?_⟩
  · intro s hs
    simp only [Separator.sym?, Option.some.injEq] at hs
    subst hs
    decide +kernel
  · intro hu
    have n1 : ¬ g'.Term 1 := fun h => ((h4 1).1 h).2 rfl
    have n5 : ¬ g'.Term 5 := fun h => by have := ((h4 5).1 h).1; revert this; decide +kernel
    have n6 : ¬ g'.Term 6 := fun h => by have := ((h4 6).1 h).1; revert this; decide +kernel
    have t1 : IsForest g'.pairs g'.Term [1] (.node 2 (.node 9 .nil .nil) .nil) [] :=
      .node (u := []) (β := [5]) (by rw [hp]; rfl) n1
        (.node (u := []) (β := []) (by rw [hp]; rfl) n5 .nil .nil) .nil
    have t2 : IsForest g'.pairs g'.Term [1] (.node 3 (.node 4 .nil .nil) .nil) [] :=
      .node (u := []) (β := [6]) (by rw [hp]; rfl) n1
        (.node (u := []) (β := []) (by rw [hp]; rfl) n6 .nil .nil) .nil
    have := congrArg Subtype.val ((hu []).elim ⟨_, t1⟩ ⟨_, t2⟩)
    cases this

/-- A sequence rule with another separator. -/
def Sequence.sepBy (seq : Sequence) (sp : Separator) : Sequence := { seq with separator := sp }

/-- **C102** for `Liberal` separators, with any minimum: exactly one parse tree for every way to
parse a string as repetitions with separators in between, and exactly one more for every way to parse
it with separators after each element. The two kinds of ways share the empty string only, so that
these are the trees promised, except when there can be no element. -/
theorem C102_liberal (p : Profile) {g : Cfg} {top : Sequence} (hwf : g.WF)
    (hlim : g.LimitOk) (hin : SeqIn g top) (hu : top.InU32) (hfits : top.Fits)
    (hno : ∀ r ∈ g.rules, r.lhs ≠ top.lhs) (hrhs : top.rhs ≠ top.lhs)
    {s : Sym} (hs : top.separator = .liberal s) (hsep : s ≠ top.lhs) :
    ∃ g', g.rewriteSequence p top = .ok g' ∧ ∀ w,
      SameNumber (g'.Trees top.lhs w)
        ({q : List Sym × Forest // SeqProd (top.sepBy (.proper s)) top.lhs q.1 ∧
            IsForest g'.pairs g'.Term q.1 q.2 w} ⊕
          {q : List Sym × Forest // SeqProd (top.sepBy (.trailing s)) top.lhs q.1 ∧
            IsForest g'.pairs g'.Term q.1 q.2 w}) := by
  obtain ⟨g', h1, -, h2⟩ := rewriteSequence_trees p hwf hlim hin (u32_iff.1 hu) (fits_iff.1 hfits)
    hno (by
      rintro (h | h)
      · exact hrhs h.symm
      · rw [hs] at h; exact hsep (Option.some.inj h))
  refine ⟨g', h1, fun w => ?_⟩
  have e : ∀ sp β, SeqProd (top.sepBy sp) top.lhs β ↔
      Form ⟨top.rhs, top.start, top.stop, sp⟩ β := fun sp β => by
    rw [seqProd_iff]
    exact ⟨fun h => h.2, fun h => ⟨rfl, h⟩⟩
  simp only [e]
  exact h2 s hs w

theorem isForest_leaves {rules : List (Sym × List Sym)} {T : Sym → Prop} {β : List Sym}
    (hβ : ∀ a ∈ β, T a) : IsForest rules T β (β.foldr Forest.leaf .nil) β := by
  induction β with
  | nil => exact .nil
  | cons a β ih => exact .leaf (hβ a (by simp)) (ih fun a ha => hβ a (by simp [ha]))

/-- If the promised right sides are strings of terminals, then there is one way to parse each. -/
theorem ways_terminal {rules : List (Sym × List Sym)} {T : Sym → Prop} {F : List Sym → Prop}
    (hF : ∀ β, F β → ∀ a ∈ β, T a) (w : List Sym) :
    SameNumber {q : List Sym × Forest // F q.1 ∧ IsForest rules T q.1 q.2 w} {_u : Unit // F w} := by
  have key : ∀ q : {q : List Sym × Forest // F q.1 ∧ IsForest rules T q.1 q.2 w},
      q.1 = (w, w.foldr Forest.leaf .nil) := by
    rintro ⟨⟨β, f⟩, h1, h2⟩
    obtain ⟨e1, e2⟩ := isForest_terminals h2 (hF β h1)
    simp only at e1 e2
    subst e1
    exact Prod.ext rfl e2
  exact ⟨{
    toFun := fun q => ⟨(), by have := q.2.1; rwa [key q] at this⟩
    invFun := fun u => ⟨(w, w.foldr Forest.leaf .nil), u.2, isForest_leaves (hF w u.2)⟩
    left_inv := fun q => Subtype.ext (key q).symm
    right_inv := fun u => rfl }⟩

/-- **C102** for `Liberal` separators with minimum 0, terminals as element and separator: the empty
string has exactly two parse trees, every other string at most one. -/
theorem C102_liberal_empty (p : Profile) {g : Cfg} {top : Sequence} (hwf : g.WF)
    (hlim : g.LimitOk) (hin : SeqIn g top) (hu : top.InU32) (hfits : top.Fits)
    (hno : ∀ r ∈ g.rules, r.lhs ≠ top.lhs) (hrhs : g.Term top.rhs ∧ top.rhs ≠ top.lhs)
    {s : Sym} (hs : top.separator = .liberal s) (hsep : g.Term s ∧ s ≠ top.lhs)
    (h0 : top.start = 0) :
    ∃ g', g.rewriteSequence p top = .ok g' ∧ SameNumber (g'.Trees top.lhs []) Bool ∧
      ∀ w, w ≠ [] → Subsingleton (g'.Trees top.lhs w) := by
  obtain ⟨g', h1, -, -, h4, -⟩ := C77_sequence_language p hwf hlim hin hu hfits hno
  obtain ⟨g'', h5, h6⟩ := C102_liberal p hwf hlim hin hu hfits hno hrhs.2 hs hsep.2
  cases h1.symm.trans h5
  have hT : ∀ sp, sp.sym? = some s → ∀ β, SeqProd (top.sepBy sp) top.lhs β →
      ∀ a ∈ β, g'.Term a := by
    rintro sp hsp β ⟨-, n, -, -, hr⟩ a ha
    rcases repeats_mem hr a ha with rfl | e
    · exact (h4 _).2 hrhs
    · obtain rfl := Option.some.inj (hsp.symm.trans e)
      exact (h4 _).2 hsep
  have h7 : ∀ w, SameNumber (g'.Trees top.lhs w)
      ({_u : Unit // SeqProd (top.sepBy (.proper s)) top.lhs w} ⊕
        {_u : Unit // SeqProd (top.sepBy (.trailing s)) top.lhs w}) := fun w =>
    (h6 w).trans (SameNumber.sum (ways_terminal (hT _ rfl) w) (ways_terminal (hT _ rfl) w))
  have hno : ∀ w, SeqProd (top.sepBy (.proper s)) top.lhs w →
      SeqProd (top.sepBy (.trailing s)) top.lhs w → w = [] := by
    rintro w ⟨-, n, -, -, hr⟩ ⟨-, n', -, -, hr'⟩
    have e1 := repeats_length (sp := .proper s) (by intro s; simp) hr
    have e2 := repeats_length (sp := .trailing s) (by intro s; simp) hr'
    simp only [sepLen] at e1 e2
    exact List.eq_nil_of_length_eq_zero (by omega)
  refine ⟨g', h1, ?_, fun w hw => ?_⟩
  · have p1 : SeqProd (top.sepBy (.proper s)) top.lhs [] :=
      ⟨rfl, 0, by simp [Sequence.sepBy, h0], by simp, by simp [Repeats, Sequence.sepBy]⟩
    have p2 : SeqProd (top.sepBy (.trailing s)) top.lhs [] :=
      ⟨rfl, 0, by simp [Sequence.sepBy, h0], by simp, by simp [Repeats, Sequence.sepBy]⟩
    refine (h7 []).trans ⟨{
      toFun := Sum.elim (fun _ => true) (fun _ => false)
      invFun := fun b => if b then .inl ⟨(), p1⟩ else .inr ⟨(), p2⟩
      left_inv := by rintro (⟨⟨⟩, h⟩ | ⟨⟨⟩, h⟩) <;> rfl
      right_inv := by rintro (_ | _) <;> rfl }⟩
  · obtain ⟨e⟩ := h7 w
    have : Subsingleton ({_u : Unit // SeqProd (top.sepBy (.proper s)) top.lhs w} ⊕
        {_u : Unit // SeqProd (top.sepBy (.trailing s)) top.lhs w}) := by
      constructor
      rintro (⟨⟨⟩, a⟩ | ⟨⟨⟩, a⟩) (⟨⟨⟩, b⟩ | ⟨⟨⟩, b⟩)
      · rfl
      · exact absurd (hno w a b) hw
      · exact absurd (hno w b a) hw
      · rfl
    exact e.subsingleton

/-- **C102**, exactly: with terminals as element and separator the left side is unambiguous if and
only if the separator is not `Liberal` or there is at least one element. -/
theorem C102_exact (p : Profile) {g : Cfg} {top : Sequence} (hwf : g.WF)
    (hlim : g.LimitOk) (hin : SeqIn g top) (hu : top.InU32) (hfits : top.Fits)
    (hno : ∀ r ∈ g.rules, r.lhs ≠ top.lhs) (hrhs : g.Term top.rhs ∧ top.rhs ≠ top.lhs)
    (hsep : ∀ s, top.separator.sym? = some s → g.Term s ∧ s ≠ top.lhs) :
    ∃ g', g.rewriteSequence p top = .ok g' ∧
      (g'.Unambiguous top.lhs ↔ ∀ s, top.separator = .liberal s → 1 ≤ top.start) := by
  by_cases hl : ∀ s, top.separator = .liberal s → 1 ≤ top.start
  · obtain ⟨g', h1, h2⟩ := C102_unambiguous_partial p hwf hlim hin hu hfits hno hrhs hsep hl
    exact ⟨g', h1, fun _ => hl, fun _ => h2⟩
  · have hl' := hl
    simp only [not_forall] at hl'
    obtain ⟨s, hs, h0⟩ := hl'
    obtain ⟨g', h1, ⟨e⟩, -⟩ := C102_liberal_empty p hwf hlim hin hu hfits hno hrhs hs
      (hsep s (by rw [hs]; rfl)) (by omega)
    refine ⟨g', h1, fun hu => ?_, fun h => absurd h hl⟩
    have := hu []
    have : e.symm true = e.symm false := Subsingleton.elim _ _
    exact absurd (e.symm.injective this) (by simp)

/-- The hypotheses are met: up to five `x` with commas in between or after each. -/
example : ∃ g', exSeq.rewriteSequence .debug ⟨1, 2, 0, some 5, .liberal 4, none⟩ = .ok g' ∧
    SameNumber (g'.Trees 1 []) Bool ∧ ∀ w, w ≠ [] → Subsingleton (g'.Trees 1 w) :=
  C102_liberal_empty .debug (top := ⟨1, 2, 0, some 5, .liberal 4, none⟩) (s := 4) exSeq_wf exSeq_lim
    (by simp [SeqIn, exSeq, Cfg.numSyms, Separator.sym?]) (by simp [Sequence.InU32])
    (by simp [Sequence.Fits]) (by decide +kernel) (by decide +kernel) rfl (by decide +kernel) rfl

example : ∃ g', exSeq.rewriteSequence .release ⟨1, 2, 0, some 5, .liberal 4, none⟩ = .ok g' ∧ ∀ w,
    SameNumber (g'.Trees 1 w)
      ({q : List Sym × Forest // SeqProd ⟨1, 2, 0, some 5, .proper 4, none⟩ 1 q.1 ∧
          IsForest g'.pairs g'.Term q.1 q.2 w} ⊕
        {q : List Sym × Forest // SeqProd ⟨1, 2, 0, some 5, .trailing 4, none⟩ 1 q.1 ∧
          IsForest g'.pairs g'.Term q.1 q.2 w}) :=
  C102_liberal .release (top := ⟨1, 2, 0, some 5, .liberal 4, none⟩) (s := 4) exSeq_wf exSeq_lim
    (by simp [SeqIn, exSeq, Cfg.numSyms, Separator.sym?]) (by simp [Sequence.InU32])
    (by simp [Sequence.Fits]) (by decide +kernel) (by decide +kernel) rfl (by decide +kernel)

example : ∃ g', exSeq.rewriteSequence .debug ⟨1, 2, 0, some 5, .liberal 4, none⟩ = .ok g' ∧
    ¬ g'.Unambiguous 1 := by
  obtain ⟨g', h1, h2⟩ := C102_exact .debug (top := ⟨1, 2, 0, some 5, .liberal 4, none⟩) exSeq_wf
    exSeq_lim (by simp [SeqIn, exSeq, Cfg.numSyms, Separator.sym?]) (by simp [Sequence.InU32])
    (by simp [Sequence.Fits]) (by decide +kernel) (by decide +kernel) (by
      intro s hs
      simp only [Separator.sym?, Option.some.injEq] at hs
      subst hs
      decide +kernel)
  exact ⟨g', h1, fun h => absurd (h2.1 h 4 rfl) (by simp)⟩

end Verif
