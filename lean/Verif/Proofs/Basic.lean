import Verif.Proofs.Binarize
import Verif.Spec.Order

/-! # Helper lemmas on reversing, sorting, deduplicating and wrapping -/

namespace Verif

variable {P Q : Productions}

/-- Derivations that start inside a set of symbols closed under the productions stay inside it
and only use the productions for that set. -/
theorem Der.restrict (S : Sym → Prop)
    (H : ∀ A α, P A α → S A → Q A α ∧ ∀ x ∈ α, S x) {u v : List Sym} (d : Der P u v)
    (hu : ∀ x ∈ u, S x) : Der Q u v ∧ ∀ x ∈ v, S x := by
  induction d with
  | nil => exact ⟨.nil, by simp⟩
  | keep a _ ih =>
    obtain ⟨h1, h2⟩ := ih fun x hx => hu x (by simp [hx])
    refine ⟨.keep a h1, fun x hx => ?_⟩
    rcases List.mem_cons.1 hx with rfl | hx
    · exact hu _ (by simp)
    · exact h2 x hx
  | expand hp _ _ ihx ihu =>
    obtain ⟨h1, h2⟩ := H _ _ hp (hu _ (by simp))
    obtain ⟨h3, h4⟩ := ihx h2
    obtain ⟨h5, h6⟩ := ihu fun x hx => hu x (by simp [hx])
    refine ⟨.expand h1 h3 h5, fun x hx => ?_⟩
    rcases List.mem_append.1 hx with hx | hx
    · exact h4 x hx
    · exact h6 x hx

/-! ## Reversal -/

theorem Der.reverse {u v : List Sym} (d : Der P u v) :
    Der (fun A α => P A α.reverse) u.reverse v.reverse := by
  induction d with
  | nil => exact .nil
  | keep a _ ih =>
    rw [List.reverse_cons, List.reverse_cons]
    exact ih.append (.refl _)
  | @expand A α x u v hp _ _ ihx ihu =>
    rw [List.reverse_cons, List.reverse_append]
    refine ihu.append (Der.single_iff.2 (.inr ⟨α.reverse, ?_, ihx⟩))
    simpa using hp

namespace Cfg

theorem prod_reverse (g : Cfg) (A : Sym) (α : List Sym) :
    g.reverse.prod A α ↔ g.prod A α.reverse := by
  unfold prod reverse
  simp only [List.mem_map, exists_exists_and_eq_and]
  constructor
  · rintro ⟨r, hr, rfl, rfl⟩; exact ⟨r, hr, rfl, by simp⟩
  · rintro ⟨r, hr, rfl, e⟩; exact ⟨r, hr, rfl, by simp [e]⟩

theorem term_reverse (g : Cfg) (a : Sym) : g.reverse.Term a ↔ g.Term a := by
  unfold Term reverse numSyms
  simp

theorem reverse_reverse (g : Cfg) : g.reverse.reverse = g := by
  unfold reverse
  simp [Function.comp_def]

theorem derives_reverse (g : Cfg) {u v : List Sym} (d : Derives g.prod u v) :
    Derives g.reverse.prod u.reverse v.reverse := by
  rw [derives_iff_der] at d ⊢
  exact d.reverse.mono fun A α h => (prod_reverse g A α).2 h

/-! ## Sorting -/

theorem lexLe_iff (a b : List Sym) : lexLe a b = true ↔ LexLe a b := by
  unfold LexLe
  fun_induction lexLe a b with
  | case1 b => simp
  | case2 => simp
  | case3 a as b bs h => simp [List.cons_le_cons_iff, h]
  | case4 a as b bs h1 h2 =>
    have : a ≠ b := by omega
    simp [List.cons_le_cons_iff, h1, this]
  | case5 a as b bs h1 h2 ih =>
    have : a = b := by omega
    subst this
    simp [List.cons_le_cons_iff, ih]

theorem ruleLe_iff (r s : CfgRule) : ruleLe r s = true ↔ RuleLe r s := by
  unfold ruleLe RuleLe
  split
  · simp [*]
  · split
    · have : r.lhs ≠ s.lhs := by omega
      simp [*]
    · have : r.lhs = s.lhs := by omega
      simp [this, lexLe_iff]

theorem LexLe.refl (a : List Sym) : LexLe a a := List.le_refl a

theorem LexLe.total (a b : List Sym) : LexLe a b ∨ LexLe b a := List.le_total a b

theorem LexLe.trans {a b c : List Sym} (h₁ : LexLe a b) (h₂ : LexLe b c) : LexLe a c :=
  List.le_trans h₁ h₂

theorem LexLe.antisymm {a b : List Sym} (h₁ : LexLe a b) (h₂ : LexLe b a) : a = b :=
  List.le_antisymm h₁ h₂

theorem RuleLe.total (r s : CfgRule) : RuleLe r s ∨ RuleLe s r := by
  unfold RuleLe
  rcases Nat.lt_trichotomy r.lhs s.lhs with h | h | h
  · exact .inl (.inl h)
  · rcases LexLe.total r.rhs s.rhs with h' | h'
    · exact .inl (.inr ⟨h, h'⟩)
    · exact .inr (.inr ⟨h.symm, h'⟩)
  · exact .inr (.inl h)

theorem RuleLe.trans {r s t : CfgRule} (h₁ : RuleLe r s) (h₂ : RuleLe s t) : RuleLe r t := by
  unfold RuleLe at *
  rcases h₁ with h₁ | ⟨e₁, h₁⟩ <;> rcases h₂ with h₂ | ⟨e₂, h₂⟩
  · exact .inl (by omega)
  · exact .inl (by omega)
  · exact .inl (by omega)
  · exact .inr ⟨by omega, LexLe.trans h₁ h₂⟩

theorem RuleLe.antisymm {r s : CfgRule} (h₁ : RuleLe r s) (h₂ : RuleLe s r) :
    r.lhs = s.lhs ∧ r.rhs = s.rhs := by
  unfold RuleLe at *
  rcases h₁ with h₁ | ⟨e₁, h₁⟩ <;> rcases h₂ with h₂ | ⟨e₂, h₂⟩
  · omega
  · omega
  · omega
  · exact ⟨e₁, LexLe.antisymm h₁ h₂⟩

instance : Std.Total (fun r s : CfgRule => ruleLe r s = true) :=
  ⟨fun r s => by simp only [ruleLe_iff]; exact RuleLe.total r s⟩
instance : IsTrans CfgRule (fun r s : CfgRule => ruleLe r s = true) :=
  ⟨fun r s t => by simp only [ruleLe_iff]; exact RuleLe.trans⟩

theorem sort_perm (g : Cfg) : g.sort.rules.Perm g.rules := List.perm_insertionSort _ _

theorem sort_sorted (g : Cfg) : g.sort.rules.Pairwise RuleLe := by
  have := List.pairwise_insertionSort (fun r s : CfgRule => ruleLe r s = true) g.rules
  exact this.imp fun h => (ruleLe_iff _ _).1 h

theorem sort_stable (g : Cfg) (A : Sym) (α : List Sym) :
    g.sort.rules.filter (fun r => r.lhs = A ∧ r.rhs = α) =
      g.rules.filter (fun r => r.lhs = A ∧ r.rhs = α) := by
  set p : CfgRule → Bool := fun r => decide (r.lhs = A ∧ r.rhs = α) with hp
  have h1 : (g.rules.filter p).Pairwise (fun r s : CfgRule => ruleLe r s = true) := by
    rw [List.pairwise_iff_forall_sublist]
    intro a b hab
    have ha : a ∈ g.rules.filter p := hab.subset (by simp)
    have hb : b ∈ g.rules.filter p := hab.subset (by simp)
    simp only [hp, List.mem_filter, decide_eq_true_eq] at ha hb
    rw [ruleLe_iff]
    exact .inr ⟨ha.2.1.trans hb.2.1.symm, ha.2.2.trans hb.2.2.symm ▸ LexLe.refl _⟩
  have h2 : (g.rules.filter p).Sublist g.sort.rules :=
    List.sublist_insertionSort h1 List.filter_sublist
  have h3 := h2.filter p
  rw [List.filter_filter] at h3
  simp only [Bool.and_self] at h3
  exact (h3.eq_of_length ((sort_perm g).filter p).length_eq.symm).symm

/-! ## Deduplication -/

theorem dedup_go_spec (last : CfgRule) (rs : List CfgRule) :
    (dedupRules.go last rs).Sublist rs ∧
    ∀ r ∈ rs, (r.lhs = last.lhs ∧ r.rhs = last.rhs) ∨
      ∃ r' ∈ dedupRules.go last rs, r'.lhs = r.lhs ∧ r'.rhs = r.rhs := by
  fun_induction dedupRules.go last rs with
  | case1 => simp
  | case2 last r rs h ih =>
    refine ⟨ih.1.trans (List.sublist_cons_self _ _), fun r' hr' => ?_⟩
    rcases List.mem_cons.1 hr' with rfl | hr'
    · exact .inl h
    · exact ih.2 r' hr'
  | case3 last r rs h ih =>
    refine ⟨ih.1.cons_cons r, fun r' hr' => .inr ?_⟩
    rcases List.mem_cons.1 hr' with rfl | hr'
    · exact ⟨r', by simp⟩
    · rcases ih.2 r' hr' with h | ⟨r'', h1, h2⟩
      · exact ⟨r, by simp, h.1.symm, h.2.symm⟩
      · exact ⟨r'', by simp [h1], h2⟩

theorem dedupRules_spec (rs : List CfgRule) :
    (dedupRules rs).Sublist rs ∧
    ∀ r ∈ rs, ∃ r' ∈ dedupRules rs, r'.lhs = r.lhs ∧ r'.rhs = r.rhs := by
  cases rs with
  | nil => simp [dedupRules]
  | cons r rs =>
    obtain ⟨h1, h2⟩ := dedup_go_spec r rs
    refine ⟨h1.cons_cons r, fun r' hr' => ?_⟩
    rcases List.mem_cons.1 hr' with rfl | hr'
    · exact ⟨r', by simp [dedupRules]⟩
    · rcases h2 r' hr' with h | ⟨r'', h1, h2⟩
      · exact ⟨r, by simp [dedupRules], h.1.symm, h.2.symm⟩
      · exact ⟨r'', by simp [dedupRules, h1], h2⟩

theorem dedup_go_nodup (last : CfgRule) (rs : List CfgRule)
    (h : (last :: rs).Pairwise RuleLe) :
    (last :: dedupRules.go last rs).Pairwise fun r s => ¬ (r.lhs = s.lhs ∧ r.rhs = s.rhs) := by
  fun_induction dedupRules.go last rs with
  | case1 => simp
  | case2 last r rs e ih =>
    apply ih
    rw [List.pairwise_cons, List.pairwise_cons] at h
    exact List.pairwise_cons.2 ⟨fun s hs => h.1 s (by simp [hs]), h.2.2⟩
  | case3 last r rs e ih =>
    rw [List.pairwise_cons] at h ⊢
    have hr := h.2
    refine ⟨fun s hs => ?_, ih hr⟩
    rw [List.pairwise_cons] at hr
    rintro ⟨e1, e2⟩
    have h1 : RuleLe last r := h.1 r (by simp)
    have h2 : RuleLe r s := by
      rcases List.mem_cons.1 hs with rfl | hs
      · exact .inr ⟨rfl, LexLe.refl _⟩
      · exact hr.1 s ((dedup_go_spec r rs).1.subset hs)
    have h3 : RuleLe s last := .inr ⟨e1.symm, e2 ▸ LexLe.refl _⟩
    have := RuleLe.antisymm h1 (RuleLe.trans h2 h3)
    exact e ⟨this.1.symm, this.2.symm⟩

theorem dedupRules_nodup (rs : List CfgRule) (h : rs.Pairwise RuleLe) :
    (dedupRules rs).Pairwise fun r s => ¬ (r.lhs = s.lhs ∧ r.rhs = s.rhs) := by
  cases rs with
  | nil => simp [dedupRules]
  | cons r rs => exact dedup_go_nodup r rs h

/-- Two grammars with the same number of symbols and the same productions have the same
languages. -/
theorem lang_congr {g g' : Cfg} (hn : g.numSyms = g'.numSyms)
    (h : ∀ A α, g.prod A α ↔ g'.prod A α) (A : Sym) (w : List Sym) :
    g.Lang A w ↔ g'.Lang A w := by
  have e : g.prod = g'.prod := by funext A α; exact propext (h A α)
  have t : g.Term = g'.Term := by
    funext a
    apply propext
    rw [term_iff_prod, term_iff_prod, e, hn]
  unfold Lang
  rw [e, t]

/-! ## Wrapping -/

/-- Roots are symbols of the grammar. -/
def RootsOk (g : Cfg) : Prop := ∀ r ∈ g.roots, r < g.numSyms

/-- What one iteration of `wrap_input` achieves. -/
structure WrapStep (g g' : Cfg) (r : Sym) : Prop where
  wf : g'.WF
  limit : g'.rhsLenInvariant = g.rhsLenInvariant
  le : g.numSyms + 3 ≤ g'.numSyms
  roots : g'.roots = g.roots ++ [g.numSyms]
  wrapped : g'.wrappedRoots =
    g.wrappedRoots ++ [⟨g.numSyms + 1, r, g.numSyms + 2, g.numSyms⟩]
  old : ∀ A, A < g.numSyms → ∀ w, g'.Lang A w ↔ g.Lang A w
  term : ∀ a, a < g.numSyms → (g'.Term a ↔ g.Term a)
  marks : g'.Term (g.numSyms + 1) ∧ g'.Term (g.numSyms + 2)
  root : ∀ w, g'.Lang g.numSyms w ↔
    ∃ u, g.Lang r u ∧ w = [g.numSyms + 1] ++ u ++ [g.numSyms + 2]
  wraps : Derives g'.prod [g.numSyms] [g.numSyms + 1, r, g.numSyms + 2]
  keeps : ∀ A, A < g.numSyms → ∀ w : List Sym, (∀ x ∈ w, x < g.numSyms) → Derives g.prod [A] w →
    Derives g'.prod [A] w

theorem wrapSyms_wf {g : Cfg} (h : g.WF) : g.wrapSyms.WF := by
  intro r hr
  obtain ⟨h1, h2⟩ := h r hr
  have e : g.wrapSyms.numSyms = g.numSyms + 3 := rfl
  rw [e]
  exact ⟨by omega, fun s hs => by have := h2 s hs; omega⟩

/-- The productions with the wrapping rule, from an old symbol. -/
theorem addProd_old {g : Cfg} (hwf : g.WF) (r : Sym) {u w : List Sym}
    (hu : ∀ x ∈ u, x < g.numSyms) :
    Der (addProd g.prod (g.wrapRule r)) u w ↔ Der g.prod u w := by
  constructor
  · intro d
    refine (d.restrict (Q := g.prod) (fun x => x < g.numSyms) ?_ hu).1
    rintro A α (h | ⟨rfl, rfl⟩) hA
    · obtain ⟨r', hr', rfl, rfl⟩ := h
      exact ⟨⟨r', hr', rfl, rfl⟩, (hwf r' hr').2⟩
    · simp [wrapRule] at hA
  · exact Der.mono fun A α => .inl

theorem wrapOne_step (g : Cfg) (hwf : g.WF) (hlim : g.LimitOk) (r : Sym) (hr : r < g.numSyms) :
    ∃ g', g.wrapOne r = .ok g' ∧ WrapStep g g' r := by
  have hn : g.wrapSyms.numSyms = g.numSyms + 3 := rfl
  have hp : g.wrapSyms.prod = g.prod := rfl
  have h0 := SplitInv.refl (wrapSyms_wf hwf)
  rw [hn, hp] at h0
  obtain ⟨g₁, k, h1, h2, h3, h4, h5, h6, -⟩ := addRule_inv h0 (g := g.wrapSyms) hlim
    (g.wrapRule r) (by simp [wrapRule]) (by simp [wrapRule]; omega)
  refine ⟨wrapRecord g g₁ r, by rw [wrapOne_eq, h1]; rfl, ?_⟩
  have hterm : ∀ a, g₁.Term a ↔ a < g.numSyms + 3 ∧
      ∀ α, ¬ addProd g.prod (g.wrapRule r) a α := h2.term
  have told : ∀ a, a < g.numSyms → (g₁.Term a ↔ g.Term a) := by
    intro a ha
    rw [hterm, term_iff_prod]
    constructor
    · rintro ⟨-, h⟩; exact ⟨ha, fun α hα => h α (.inl hα)⟩
    · rintro ⟨-, h⟩
      refine ⟨by omega, ?_⟩
      rintro α (hα | ⟨e, -⟩)
      · exact h α hα
      · simp [wrapRule] at e; omega
  have tnew : ∀ a, g.numSyms < a → a < g.numSyms + 3 → g₁.Term a := by
    intro a h1 h2
    rw [hterm]
    refine ⟨h2, ?_⟩
    rintro α (⟨r', hr', rfl, -⟩ | ⟨e, -⟩)
    · have := (hwf r' hr').1; omega
    · simp [wrapRule] at e; omega
  have key : ∀ A, A < g.numSyms → ∀ w, g₁.Lang A w ↔ g.Lang A w := by
    intro A hA w
    unfold Lang InLang
    have lt : Derives g.prod [A] w → ∀ x ∈ w, x < g.numSyms := fun d =>
      ((derives_iff_der.1 d).restrict (Q := g.prod) (fun x => x < g.numSyms) (by
        rintro A α ⟨r', hr', rfl, rfl⟩ hA
        exact ⟨⟨r', hr', rfl, rfl⟩, (hwf r' hr').2⟩) (by simpa using hA)).2
    constructor
    · rintro ⟨d, t⟩
      have d := (h2.derives (by omega) fun x hx => ((hterm x).1 (t x hx)).1).1 d
      rw [derives_iff_der, addProd_old hwf r (by simpa using hA), ← derives_iff_der] at d
      exact ⟨d, fun a ha => (told a (lt d a ha)).1 (t a ha)⟩
    · rintro ⟨d, t⟩
      refine ⟨(h2.derives (by omega) fun x hx => by have := lt d x hx; omega).2 ?_,
        fun a ha => (told a (lt d a ha)).2 (t a ha)⟩
      rw [derives_iff_der, addProd_old hwf r (by simpa using hA), ← derives_iff_der]
      exact d
  refine ⟨h2.wf, h3, h6, ?_, ?_, key, told, ⟨tnew _ (by omega) (by omega),
    tnew _ (by omega) (by omega)⟩, ?_, ?_, ?_⟩
  · show g₁.roots ++ _ = _
    rw [h4]; rfl
  · show g₁.wrappedRoots ++ _ = _
    rw [h5]; rfl
  · intro w
    show g₁.Lang _ _ ↔ _
    have e : ∀ w, g₁.Lang g.numSyms w ↔ ∃ u, g₁.Lang r u ∧
        w = [g.numSyms + 1] ++ u ++ [g.numSyms + 2] := by
      intro w
      have stuck : ∀ a, g.numSyms < a → ∀ w, Der (addProd g.prod (g.wrapRule r)) [a] w →
          w = [a] := by
        intro a ha w d
        rcases Der.single_iff.1 d with h | ⟨α, ⟨r', hr', rfl, -⟩ | ⟨e, -⟩, -⟩
        · exact h
        · have := (hwf r' hr').1; omega
        · simp [wrapRule] at e; omega
      constructor
      · rintro ⟨d, t⟩
        have d := (h2.derives (by omega) fun x hx => ((hterm x).1 (t x hx)).1).1 d
        rw [derives_iff_der] at d
        rcases Der.single_iff.1 d with rfl | ⟨α, hα, d⟩
        · have := (hterm g.numSyms).1 (t _ (by simp))
          exact absurd (.inr ⟨rfl, rfl⟩) (this.2 (g.wrapRule r).rhs)
        · rcases hα with ⟨r', hr', e, -⟩ | ⟨-, rfl⟩
          · have := (hwf r' hr').1; omega
          · obtain ⟨w₁, w₂, rfl, d₁, d⟩ := Der.cons_iff.1 d
            obtain ⟨u, w₃, rfl, d₂, d₃⟩ := Der.cons_iff.1 d
            rw [stuck _ (by omega) _ d₁] at t ⊢
            rw [stuck _ (by omega) _ d₃] at t ⊢
            have t' : ∀ a ∈ u, g₁.Term a := fun a ha => t a (by simp [ha])
            refine ⟨u, ⟨(h2.derives (by omega) fun x hx => ((hterm x).1 (t' x hx)).1).2
              (derives_iff_der.2 d₂), t'⟩, by simp⟩
      · rintro ⟨u, ⟨d, t⟩, rfl⟩
        have t' : ∀ a ∈ [g.numSyms + 1] ++ u ++ [g.numSyms + 2], g₁.Term a := by
          intro a ha
          simp only [List.cons_append, List.nil_append, List.mem_cons, List.mem_append,
            List.not_mem_nil, or_false] at ha
          rcases ha with rfl | ha | rfl
          · exact tnew _ (by omega) (by omega)
          · exact t a ha
          · exact tnew _ (by omega) (by omega)
        refine ⟨(h2.derives (by omega) fun x hx => ((hterm x).1 (t' x hx)).1).2 ?_, t'⟩
        have d := (h2.derives (by omega) fun x hx => ((hterm x).1 (t x hx)).1).1 d
        rw [derives_iff_der] at d ⊢
        refine Der.single_iff.2 (.inr ⟨_, .inr ⟨rfl, rfl⟩, ?_⟩)
        exact ((Der.refl [g.numSyms + 1]).append d).append (Der.refl [g.numSyms + 2])
    rw [e]
    simp only [key r hr]
  · refine (h2.derives (by omega) ?_).2 (derives_iff_der.2 (.prod (.inr ⟨rfl, rfl⟩)))
    intro x hx
    simp only [List.mem_cons, List.not_mem_nil, or_false] at hx
    omega
  · intro A hA w hw d
    refine (h2.derives (by omega) fun x hx => by have := hw x hx; omega).2 ?_
    exact derives_iff_der.2 ((derives_iff_der.1 d).mono fun _ _ h => .inl h)

/-- State of `wrap_input` after the roots `done`. -/
structure WrapInv (g₀ g : Cfg) (done : List Sym) : Prop where
  wf : g.WF
  limit : g.rhsLenInvariant = g₀.rhsLenInvariant
  le : g₀.numSyms ≤ g.numSyms
  roots : g.roots = g.wrappedRoots.map (·.root)
  inner : g.wrappedRoots.map (·.innerRoot) = done
  fresh : ∀ s ∈ g.wrappedRoots.flatMap (fun w => [w.root, w.startOfInput, w.endOfInput]),
    g₀.numSyms ≤ s ∧ s < g.numSyms
  nodup : (g.wrappedRoots.flatMap (fun w => [w.root, w.startOfInput, w.endOfInput])).Nodup
  old : ∀ A, A < g₀.numSyms → ∀ w, g.Lang A w ↔ g₀.Lang A w
  new : ∀ wr ∈ g.wrappedRoots, g.Term wr.startOfInput ∧ g.Term wr.endOfInput ∧
    ∀ w, g.Lang wr.root w ↔
      ∃ u, g₀.Lang wr.innerRoot u ∧ w = [wr.startOfInput] ++ u ++ [wr.endOfInput]
  wraps : ∀ wr ∈ g.wrappedRoots, wr.innerRoot < g.numSyms ∧
    Derives g.prod [wr.root] [wr.startOfInput, wr.innerRoot, wr.endOfInput]

theorem WrapInv.step {g₀ g g' : Cfg} {done : List Sym} {r : Sym} (h : WrapInv g₀ g done)
    (hr : r < g₀.numSyms) (hs : WrapStep g g' r) : WrapInv g₀ g' (done ++ [r]) := by
  have hle := h.le
  have hle' := hs.le
  refine ⟨hs.wf, hs.limit.trans h.limit, by omega, ?_, ?_, ?_, ?_, ?_, ?_, ?_⟩
  · rw [hs.roots, hs.wrapped, h.roots]; simp
  · rw [hs.wrapped, List.map_append, h.inner]; rfl
  · rw [hs.wrapped, List.flatMap_append]
    intro s hm
    rcases List.mem_append.1 hm with hm | hm
    · have := h.fresh s hm; omega
    · simp at hm; omega
  · rw [hs.wrapped, List.flatMap_append, List.nodup_append]
    refine ⟨h.nodup, by simp, fun a ha b hb => ?_⟩
    have := h.fresh a ha
    simp at hb; omega
  · intro A hA w
    rw [hs.old A (by omega), h.old A hA]
  · rw [hs.wrapped]
    intro wr hm
    rcases List.mem_append.1 hm with hm | hm
    · have f : ∀ s ∈ [wr.root, wr.startOfInput, wr.endOfInput], s < g.numSyms :=
        fun s hs' => (h.fresh s (List.mem_flatMap.2 ⟨wr, hm, hs'⟩)).2
      obtain ⟨h1, h2, h3⟩ := h.new wr hm
      exact ⟨(hs.term _ (f _ (by simp))).2 h1, (hs.term _ (f _ (by simp))).2 h2,
        fun w => by rw [hs.old _ (f _ (by simp)), h3]⟩
    · simp only [List.mem_singleton] at hm
      subst hm
      refine ⟨hs.marks.1, hs.marks.2, fun w => ?_⟩
      rw [hs.root]
      simp only [h.old r hr]
  · rw [hs.wrapped]
    intro wr hm
    rcases List.mem_append.1 hm with hm | hm
    · have f : ∀ s ∈ [wr.root, wr.startOfInput, wr.endOfInput], s < g.numSyms :=
        fun s hs' => (h.fresh s (List.mem_flatMap.2 ⟨wr, hm, hs'⟩)).2
      obtain ⟨h1, h2⟩ := h.wraps wr hm
      refine ⟨by omega, hs.keeps _ (f _ (by simp)) _ (fun x hx => ?_) h2⟩
      simp only [List.mem_cons, List.not_mem_nil, or_false] at hx
      rcases hx with rfl | rfl | rfl
      · exact f _ (by simp)
      · exact h1
      · exact f _ (by simp)
    · simp only [List.mem_singleton] at hm
      subst hm
      exact ⟨by show r < g'.numSyms; omega, hs.wraps⟩

theorem wrapInput_inv (g : Cfg) (hwf : g.WF) (hlim : g.LimitOk) (hroots : g.RootsOk) :
    ∃ g', g.wrapInput = .ok g' ∧ WrapInv g g' g.roots := by
  have key : ∀ (rs : List Sym) (g₁ : Cfg) (done : List Sym), (∀ r ∈ rs, r < g.numSyms) →
      WrapInv g g₁ done → ∃ g', rs.foldlM wrapOne g₁ = .ok g' ∧ WrapInv g g' (done ++ rs) := by
    intro rs
    induction rs with
    | nil => intro g₁ done _ h; exact ⟨g₁, rfl, by simpa using h⟩
    | cons r rs ih =>
      intro g₁ done hr h
      have hr0 := hr r (by simp)
      have := h.le
      obtain ⟨g₂, e, hs⟩ := wrapOne_step g₁ h.wf (by unfold LimitOk; rw [h.limit]; exact hlim) r
        (by omega)
      obtain ⟨g', e', h'⟩ := ih g₂ (done ++ [r]) (fun r hr' => hr r (by simp [hr']))
        (h.step hr0 hs)
      exact ⟨g', by rw [List.foldlM_cons, e]; exact e', by simpa using h'⟩
  obtain ⟨g', e, h⟩ := key g.roots { g with wrappedRoots := [], roots := [] } [] hroots
    ⟨hwf, rfl, Nat.le_refl _, rfl, rfl, by simp, by simp, fun _ _ _ => Iff.rfl, by simp, by simp⟩
  exact ⟨g', e, by simpa using h⟩

end Cfg

end Verif
