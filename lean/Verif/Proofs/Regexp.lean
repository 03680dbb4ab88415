import Verif.Props.Sequence
import Verif.Proofs.Lexer

/-! # Proofs about the translation of regular expressions -/

namespace Verif

/-! ## Languages of symbols and strings -/

/-- The language of a symbol depends only on the symbols that it can reach. -/
theorem inLang_congr {P P' : Productions} {T T' : Sym → Prop} (S : Sym → Prop)
    (hP : ∀ A α, S A → (P A α ↔ P' A α)) (hS : ∀ A α, S A → P A α → ∀ s ∈ α, S s)
    (hT : ∀ a, S a → (T a ↔ T' a)) {A : Sym} (hA : S A) {w : List Sym} :
    InLang P T A w ↔ InLang P' T' A w := by
  have key : ∀ {Q Q' : Productions}, (∀ A α, S A → Q A α → Q' A α) →
      (∀ A α, S A → Q A α → ∀ s ∈ α, S s) → ∀ {u v : List Sym}, Der Q u v → (∀ a ∈ u, S a) →
      Der Q' u v ∧ ∀ a ∈ v, S a := by
    intro Q Q' h1 h2 u v d
    induction d with
    | nil => exact fun _ => ⟨.nil, by simp⟩
    | keep a _ ih =>
      intro h
      obtain ⟨i1, i2⟩ := ih fun b hb => h b (by simp [hb])
      refine ⟨.keep a i1, ?_⟩
      intro b hb
      rcases List.mem_cons.1 hb with rfl | hb
      · exact h b (by simp)
      · exact i2 b hb
    | @expand A α v₁ u v₂ hp d₁ d₂ ih₁ ih₂ =>
      intro h
      have hA := h A (by simp)
      obtain ⟨i1, i2⟩ := ih₁ (h2 A α hA hp)
      obtain ⟨j1, j2⟩ := ih₂ fun b hb => h b (by simp [hb])
      refine ⟨.expand (h1 A α hA hp) i1 j1, ?_⟩
      intro b hb
      rcases List.mem_append.1 hb with hb | hb
      · exact i2 b hb
      · exact j2 b hb
  rw [inLang_iff, inLang_iff]
  constructor
  · rintro ⟨d, h⟩
    obtain ⟨d', h'⟩ := key (fun A α hs => (hP A α hs).1) hS d (by simpa using hA)
    exact ⟨d', fun a ha => (hT a (h' a ha)).1 (h a ha)⟩
  · rintro ⟨d, h⟩
    obtain ⟨d', h'⟩ := key (fun A α hs => (hP A α hs).2)
      (fun A α hs hp => hS A α hs ((hP A α hs).2 hp)) d (by simpa using hA)
    exact ⟨d', fun a ha => (hT a (h' a ha)).2 (h a ha)⟩

/-- The terminal strings derived from a string of symbols. -/
def StrLang (P : Productions) (T : Sym → Prop) (α w : List Sym) : Prop :=
  Der P α w ∧ ∀ a ∈ w, T a

theorem strLang_nil {P : Productions} {T : Sym → Prop} {w : List Sym} :
    StrLang P T [] w ↔ w = [] := by
  unfold StrLang
  rw [Der.nil_iff]
  constructor
  · exact fun h => h.1
  · rintro rfl; simp

theorem strLang_single {P : Productions} {T : Sym → Prop} {A : Sym} {w : List Sym} :
    StrLang P T [A] w ↔ InLang P T A w := inLang_iff.symm

theorem strLang_append {P : Productions} {T : Sym → Prop} {α β w : List Sym} :
    StrLang P T (α ++ β) w ↔ ∃ u v, w = u ++ v ∧ StrLang P T α u ∧ StrLang P T β v := by
  unfold StrLang
  rw [Der.append_iff]
  constructor
  · rintro ⟨⟨u, v, rfl, d1, d2⟩, h⟩
    exact ⟨u, v, rfl, ⟨d1, fun a ha => h a (by simp [ha])⟩, d2, fun a ha => h a (by simp [ha])⟩
  · rintro ⟨u, v, rfl, ⟨d1, h1⟩, d2, h2⟩
    refine ⟨⟨u, v, rfl, d1, d2⟩, fun a ha => ?_⟩
    rcases List.mem_append.1 ha with ha | ha
    · exact h1 a ha
    · exact h2 a ha

theorem strLang_cons {P : Productions} {T : Sym → Prop} {A : Sym} {β w : List Sym} :
    StrLang P T (A :: β) w ↔ ∃ u v, w = u ++ v ∧ InLang P T A u ∧ StrLang P T β v := by
  have := strLang_append (P := P) (T := T) (α := [A]) (β := β) (w := w)
  simpa only [strLang_single, List.singleton_append] using this

theorem strLang_congr {P P' : Productions} {T T' : Sym → Prop} {α w : List Sym}
    (h : ∀ A ∈ α, ∀ w, InLang P T A w ↔ InLang P' T' A w) :
    StrLang P T α w ↔ StrLang P' T' α w := by
  induction α generalizing w with
  | nil => rw [strLang_nil, strLang_nil]
  | cons A α ih =>
    rw [strLang_cons, strLang_cons]
    simp only [h A (by simp), ih fun B hB => h B (by simp [hB])]

theorem strLang_replicate {P : Productions} {T : Sym → Prop} {A : Sym} (n : Nat) {w : List Sym} :
    StrLang P T (List.replicate n A) w ↔
      ∃ parts : List (List Sym), parts.length = n ∧ (∀ v ∈ parts, InLang P T A v) ∧
        w = parts.flatten := by
  induction n generalizing w with
  | zero =>
    rw [List.replicate_zero, strLang_nil]
    constructor
    · rintro rfl; exact ⟨[], rfl, by simp, rfl⟩
    · rintro ⟨parts, h, -, rfl⟩
      rw [List.length_eq_zero_iff.1 h]; rfl
  | succ n ih =>
    rw [List.replicate_succ, strLang_cons]
    simp only [ih]
    constructor
    · rintro ⟨u, v, rfl, hu, parts, h1, h2, rfl⟩
      refine ⟨u :: parts, by simp [h1], ?_, rfl⟩
      intro v hv
      rcases List.mem_cons.1 hv with rfl | hv
      · exact hu
      · exact h2 v hv
    · rintro ⟨parts, h1, h2, rfl⟩
      cases parts with
      | nil => simp at h1
      | cons u parts =>
        exact ⟨u, parts.flatten, rfl, h2 u (by simp), parts, by simpa using h1,
          fun v hv => h2 v (by simp [hv]), rfl⟩

theorem lang_terminal {g : Cfg} {A : Sym} (h : g.Term A) {w : List Sym} : g.Lang A w ↔ w = [A] := by
  unfold Cfg.Lang
  rw [inLang_iff, Der.single_iff]
  constructor
  · rintro ⟨rfl | ⟨α, ⟨r, hr, e, -⟩, -⟩, -⟩
    · rfl
    · exact absurd e (h.2 r hr)
  · rintro rfl
    exact ⟨.inl rfl, by simpa using h⟩

/-! ## Sequence rules without a separator and without a limit -/

theorem sequence_plain (p : Profile) {g : Cfg} {lhs rhs start : Nat} {stop : Option Nat}
    (hwf : g.WF) (hlim : g.rhsLenInvariant = none) (h1 : lhs < g.numSyms) (h2 : rhs < g.numSyms)
    (hu : (⟨lhs, rhs, start, stop, .null, none⟩ : Sequence).InU32)
    (hfits : (⟨lhs, rhs, start, stop, .null, none⟩ : Sequence).Fits)
    (hno : ∀ r ∈ g.rules, r.lhs ≠ lhs) :
    ∃ g', g.rewriteSequence p ⟨lhs, rhs, start, stop, .null, none⟩ = .ok g' ∧ g'.WF ∧
      g'.roots = g.roots ∧ g'.rhsLenInvariant = none ∧ g.numSyms ≤ g'.numSyms ∧
      (∀ a, g'.Term a ↔ g.Term a ∧ a ≠ lhs) ∧
      (∀ A α, g'.prod A α → g.prod A α ∨ ∀ s ∈ α, s = rhs ∨ s = lhs ∨ g.numSyms ≤ s) ∧
      ∀ A, A < g.numSyms → ∀ w, (g'.Lang A w ↔ InLang (fun A β => g.prod A β ∨
        SeqProd ⟨lhs, rhs, start, stop, .null, none⟩ A β) g'.Term A w) := by
  have hin : SeqIn g ⟨lhs, rhs, start, stop, .null, none⟩ := ⟨h1, h2, by simp [Separator.sym?]⟩
  have hl : g.LimitOk := by intro n hn; rw [hlim] at hn; cases hn
  obtain ⟨g', e, a1, a2, a3, a4⟩ := rewriteSequence_lang p hwf hl hin hu hfits (.inl hno)
  obtain ⟨st, P, c, e', h, hs⟩ := rewriteSequence_ok p hwf hl hin (u32_iff.1 hu) (fits_iff.1 hfits)
  rw [e'] at e
  cases e
  refine ⟨st.g, e', a1, a2, h.inv.limit.trans hlim, ?_, a3, ?_, a4⟩
  · rcases Nat.lt_or_ge st.g.numSyms g.numSyms with hlt | hle
    · have := h.inv.split.le st.g.numSyms (.inl hlt); omega
    · exact hle
  · rintro A α ⟨r, hr, rfl, rfl⟩
    rcases h.made _ _ (h.inv.plain hlim r hr) with h' | ⟨k, hk, items, hi, hinst⟩
    · exact .inl h'
    · right
      intro s hs
      have hkey : k.rhs = rhs ∧ k.separator = .null := by
        have : k ∈ keyList (⟨lhs, rhs, start, stop, .null, none⟩ : Sequence).key := by
          rcases hk with ⟨rfl, -⟩ | hk
          · exact self_mem_keyList _
          · exact (h.inv.allowed _ hk).2.2
        obtain ⟨k1, k2, -⟩ := mem_keyList.1 this
        refine ⟨k1, ?_⟩
        simpa [Sequence.key, sepClosure] using k2
      obtain ⟨i, hi', hinst'⟩ := forall₂_right hinst hs
      cases i with
      | sym s' =>
        have : s = s' := hinst'
        subst this
        refine .inl (plan_syms_of (Q := (· = rhs)) hi hi' hkey.1 ?_)
        rw [hkey.2]
        simp
      | self =>
        have hs' : s = r.lhs := hinst'
        rcases hk with ⟨-, hk⟩ | hk
        · exact .inr (.inl (hs'.trans hk))
        · have := h.inv.ge _ hk
          exact .inr (.inr (by rw [hs']; exact this))
      | ref k' => exact .inr (.inr (h.inv.ge _ hinst'))

/-! ## Invariant of the translation -/

namespace Translator

/-- What holds between two steps; `U` are the left sides of unfinished repetitions. -/
structure Inv (t : Translator) (U : List Sym) : Prop where
  wf : t.cfg.WF
  limit : t.cfg.rhsLenInvariant = none
  term : ∀ a, t.cfg.Term a ↔ (∃ k, (k, a) ∈ t.classMap.classes) ∨ a ∈ U
  unused : ∀ r ∈ t.cfg.rules, ∀ s ∈ r.rhs, s ∉ U
  apart : ∀ k a, (k, a) ∈ t.classMap.classes → a ∉ U
  keys : (t.classMap.classes.map Prod.fst).Nodup
  syms : (t.classMap.classes.map Prod.snd).Nodup
  asc : t.classMap.classes.Pairwise fun e e' => e.1.lt e'.1 = true

/-- A finished symbol. -/
def Good (t : Translator) (U : List Sym) (s : Sym) : Prop := s < t.cfg.numSyms ∧ s ∉ U

/-- Finished symbols keep their language and classes are only added. -/
structure Ext (t t' : Translator) (U : List Sym) : Prop where
  num : t.cfg.numSyms ≤ t'.cfg.numSyms
  classes : ∀ e ∈ t.classMap.classes, e ∈ t'.classMap.classes
  lang : ∀ A, t.Good U A → ∀ w, (t'.cfg.Lang A w ↔ t.cfg.Lang A w)

theorem Ext.refl (t : Translator) (U : List Sym) : Ext t t U :=
  ⟨Nat.le_refl _, fun _ h => h, fun _ _ _ => Iff.rfl⟩

theorem Ext.good {t t' : Translator} {U : List Sym} (h : Ext t t' U) {s : Sym} (hs : t.Good U s) :
    t'.Good U s := ⟨Nat.lt_of_lt_of_le hs.1 h.num, hs.2⟩

theorem Ext.trans {t t' t'' : Translator} {U : List Sym} (h : Ext t t' U) (h' : Ext t' t'' U) :
    Ext t t'' U :=
  ⟨Nat.le_trans h.num h'.num, fun e he => h'.classes e (h.classes e he),
    fun A hA w => (h'.lang A (h.good hA) w).trans (h.lang A hA w)⟩

/-- The strings derived from a string of symbols. -/
def str (t : Translator) (α w : List Sym) : Prop := StrLang t.cfg.prod t.cfg.Term α w

theorem Ext.str {t t' : Translator} {U : List Sym} (h : Ext t t' U) {α w : List Sym}
    (hα : ∀ s ∈ α, t.Good U s) : t'.str α w ↔ t.str α w :=
  strLang_congr fun A hA w => h.lang A (hα A hA) w

/-- `w` spells the letters in class symbols. -/
def Spell (t : Translator) (ls : List Letter) (w : List Sym) : Prop :=
  List.Forall₂ (fun l s => (l.ranges, s) ∈ t.classMap.classes) ls w

theorem Inv.unique {t : Translator} {U : List Sym} (h : t.Inv U) {k : LexerClasses} {a b : Sym}
    (ha : (k, a) ∈ t.classMap.classes) (hb : (k, b) ∈ t.classMap.classes) : a = b := by
  have := List.inj_on_of_nodup_map h.keys ha hb rfl
  cases this
  rfl

theorem Inv.spell_unique {t : Translator} {U : List Sym} (h : t.Inv U) {ls : List Letter}
    {w w' : List Sym} (hw : t.Spell ls w) (hw' : t.Spell ls w') : w = w' := by
  unfold Spell at hw hw'
  induction hw generalizing w' with
  | nil => cases hw'; rfl
  | cons h1 _ ih =>
    cases hw' with
    | cons h2 h3 => rw [h.unique h1 h2, ih h3]

theorem Spell.mono {t t' : Translator} {ls : List Letter} {w : List Sym} (h : t.Spell ls w)
    (hc : ∀ e ∈ t.classMap.classes, e ∈ t'.classMap.classes) : t'.Spell ls w :=
  List.Forall₂.imp (fun _ _ h => hc _ h) h

theorem Spell.append {t : Translator} {ls ls' : List Letter} {w w' : List Sym} (h : t.Spell ls w)
    (h' : t.Spell ls' w') : t.Spell (ls ++ ls') (w ++ w') := by
  unfold Spell at *
  induction h with
  | nil => exact h'
  | cons h1 _ ih => exact .cons h1 ih

theorem Spell.split {t : Translator} {ls ls' : List Letter} {w : List Sym}
    (h : t.Spell (ls ++ ls') w) : ∃ u v, w = u ++ v ∧ t.Spell ls u ∧ t.Spell ls' v := by
  unfold Spell at *
  induction ls generalizing w with
  | nil => exact ⟨[], w, rfl, .nil, h⟩
  | cons l ls ih =>
    cases h with
    | cons h1 h2 =>
      obtain ⟨u, v, rfl, h3, h4⟩ := ih h2
      exact ⟨_ :: u, v, rfl, .cons h1 h3, h4⟩

/-- All letters have a class. -/
def Known (t : Translator) (ls : List Letter) : Prop :=
  ∀ l ∈ ls, ∃ s, (l.ranges, s) ∈ t.classMap.classes

theorem Known.mono {t t' : Translator} {ls : List Letter} (h : t.Known ls)
    (hc : ∀ e ∈ t.classMap.classes, e ∈ t'.classMap.classes) : t'.Known ls := by
  intro l hl
  obtain ⟨s, hs⟩ := h l hl
  exact ⟨s, hc _ hs⟩

theorem Known.spell_iff {t t' : Translator} {U : List Sym} {ls : List Letter} (h : t.Known ls)
    (hc : ∀ e ∈ t.classMap.classes, e ∈ t'.classMap.classes) (hi : t'.Inv U) {w : List Sym} :
    t'.Spell ls w ↔ t.Spell ls w := by
  refine ⟨fun hw => ?_, fun hw => hw.mono hc⟩
  have hex : ∃ w', t.Spell ls w' := by
    clear hw
    induction ls with
    | nil => exact ⟨[], .nil⟩
    | cons l ls ih =>
      obtain ⟨w', hw'⟩ := ih fun l hl => h l (by simp [hl])
      obtain ⟨s, hs⟩ := h l (by simp)
      exact ⟨s :: w', .cons hs hw'⟩
  obtain ⟨w', hw'⟩ := hex
  rw [hi.spell_unique hw (hw'.mono hc)]
  exact hw'

/-- New classes come from the given letters. -/
def Only (t t' : Translator) (ls : List Letter) : Prop :=
  ∀ e ∈ t'.classMap.classes, e ∈ t.classMap.classes ∨ ∃ l ∈ ls, e.1 = l.ranges

theorem Only.trans {t t' t'' : Translator} {ls ls' : List Letter} (h : Only t t' ls)
    (h' : Only t' t'' ls') : Only t t'' (ls ++ ls') := by
  intro e he
  rcases h' e he with he | ⟨l, hl, e'⟩
  · rcases h e he with he | ⟨l, hl, e'⟩
    · exact .inl he
    · exact .inr ⟨l, by simp [hl], e'⟩
  · exact .inr ⟨l, by simp [hl], e'⟩

theorem Only.of_eq {t t' : Translator} (h : t'.classMap.classes = t.classMap.classes)
    (ls : List Letter) : Only t t' ls := fun _ he => .inl (h ▸ he)

/-! ## Steps -/

theorem insertClass_perm (key : LexerClasses) (s : Sym) (l : List (LexerClasses × Sym)) :
    (insertClass key s l).Perm ((key, s) :: l) := by
  induction l with
  | nil => exact .refl _
  | cons e l ih =>
    unfold insertClass
    split
    · exact .refl _
    · exact (List.Perm.cons e ih).trans (List.Perm.swap ..)

theorem classLt_iff {as bs : LexerClasses} : as.lt bs = true ↔ ClassLt as bs := by
  induction as generalizing bs with
  | nil =>
    cases bs with
    | nil => simp [LexerClasses.lt, ClassLt]
    | cons b bs => simp [LexerClasses.lt, ClassLt]
  | cons a as ih =>
    cases bs with
    | nil => simp [LexerClasses.lt, ClassLt]
    | cons b bs =>
      rw [LexerClasses.lt, Bool.or_eq_true, Bool.and_eq_true, beq_iff_eq, ih]
      constructor
      · rintro (h | ⟨rfl, h⟩)
        · refine .inr ⟨[], a, as, b, bs, rfl, rfl, ?_⟩
          simpa [pairLt] using h
        · rcases h with ⟨b, bs', rfl⟩ | ⟨pre, x, xs, y, ys, rfl, rfl, h⟩
          · exact .inl ⟨b, bs', rfl⟩
          · exact .inr ⟨a :: pre, x, xs, y, ys, rfl, rfl, h⟩
      · rintro (⟨x, xs, h⟩ | ⟨pre, x, xs, y, ys, h1, h2, h⟩)
        · rw [List.cons_append, List.cons.injEq] at h
          obtain ⟨rfl, rfl⟩ := h
          exact .inr ⟨rfl, .inl ⟨x, xs, rfl⟩⟩
        · cases pre with
          | nil =>
            cases h1
            cases h2
            left
            simpa [pairLt] using h
          | cons z pre =>
            rw [List.cons_append, List.cons.injEq] at h1 h2
            obtain ⟨rfl, rfl⟩ := h1
            obtain ⟨rfl, rfl⟩ := h2
            exact .inr ⟨rfl, .inr ⟨pre, x, xs, y, ys, rfl, rfl, h⟩⟩

theorem pairLt_iff {a b : Nat × Nat} :
    pairLt a b = true ↔ a.1 < b.1 ∨ a.1 = b.1 ∧ a.2 < b.2 := by simp [pairLt]

theorem classLt_trans {as bs cs : LexerClasses} (h : as.lt bs = true) (h' : bs.lt cs = true) :
    as.lt cs = true := by
  induction as generalizing bs cs with
  | nil =>
    cases cs with
    | nil => cases bs <;> simp [LexerClasses.lt] at h'
    | cons c cs => rfl
  | cons a as ih =>
    cases bs with
    | nil => simp [LexerClasses.lt] at h
    | cons b bs =>
      cases cs with
      | nil => simp [LexerClasses.lt] at h'
      | cons c cs =>
        rw [LexerClasses.lt, Bool.or_eq_true, Bool.and_eq_true, beq_iff_eq, pairLt_iff] at *
        rcases h with h | ⟨rfl, h⟩ <;> rcases h' with h' | ⟨rfl, h'⟩
        · left; omega
        · left; exact h
        · left; exact h'
        · exact .inr ⟨rfl, ih h h'⟩

theorem classLt_total (as bs : LexerClasses) : as.lt bs = true ∨ as = bs ∨ bs.lt as = true := by
  induction as generalizing bs with
  | nil =>
    cases bs with
    | nil => exact .inr (.inl rfl)
    | cons b bs => exact .inl rfl
  | cons a as ih =>
    cases bs with
    | nil => exact .inr (.inr rfl)
    | cons b bs =>
      simp only [LexerClasses.lt, Bool.or_eq_true, Bool.and_eq_true, beq_iff_eq, pairLt_iff,
        List.cons.injEq]
      by_cases hab : a = b
      · subst hab
        rcases ih bs with h | h | h
        · exact .inl (.inr ⟨rfl, h⟩)
        · exact .inr (.inl ⟨rfl, h⟩)
        · exact .inr (.inr (.inr ⟨rfl, h⟩))
      · have : a.1 ≠ b.1 ∨ a.2 ≠ b.2 := by
          rw [Prod.ext_iff] at hab
          omega
        rcases Nat.lt_trichotomy a.1 b.1 with h | h | h
        · exact .inl (.inl (.inl h))
        · rcases Nat.lt_or_gt_of_ne (this.resolve_left (by omega)) with h' | h'
          · exact .inl (.inl (.inr ⟨h, h'⟩))
          · exact .inr (.inr (.inl (.inr ⟨h.symm, h'⟩)))
        · exact .inr (.inr (.inl (.inl h)))

theorem insertClass_asc {key : LexerClasses} {s : Sym} {l : List (LexerClasses × Sym)}
    (hn : key ∉ l.map Prod.fst) (h : l.Pairwise fun e e' => e.1.lt e'.1 = true) :
    (insertClass key s l).Pairwise fun e e' => e.1.lt e'.1 = true := by
  induction l with
  | nil => simp [insertClass]
  | cons e l ih =>
    rw [List.pairwise_cons] at h
    unfold insertClass
    split
    · rename_i hk
      refine List.pairwise_cons.2 ⟨?_, List.pairwise_cons.2 h⟩
      rintro e' (_ | ⟨_, he'⟩)
      · exact hk
      · exact classLt_trans hk (h.1 e' he')
    · rename_i hk
      refine List.pairwise_cons.2 ⟨?_, ih (fun hc => hn (by simp [hc])) h.2⟩
      intro e' he'
      rcases List.mem_cons.1 ((insertClass_perm key s l).mem_iff.1 he') with rfl | he'
      · rcases classLt_total key e.1 with h' | h' | h'
        · exact absurd h' hk
        · exact absurd (by simp [h']) hn
        · exact h'
      · exact h.1 e' he'

theorem term_nextSym {g : Cfg} (hwf : g.WF) (name : Option String) (a : Sym) :
    (g.nextSym name).2.Term a ↔ g.Term a ∨ a = g.numSyms := by
  unfold Cfg.Term
  have h1 : (g.nextSym name).2.numSyms = g.numSyms + 1 := rfl
  have h2 : (g.nextSym name).2.rules = g.rules := rfl
  rw [h1, h2]
  constructor
  · rintro ⟨h, h'⟩
    by_cases ha : a = g.numSyms
    · exact .inr ha
    · exact .inl ⟨by omega, h'⟩
  · rintro (⟨h, h'⟩ | rfl)
    · exact ⟨by omega, h'⟩
    · refine ⟨by omega, fun r hr e => ?_⟩
      have := (hwf r hr).1
      omega

theorem wf_nextSym {g : Cfg} (hwf : g.WF) (name : Option String) : (g.nextSym name).2.WF := by
  intro r hr
  obtain ⟨h1, h2⟩ := hwf r hr
  have h : (g.nextSym name).2.numSyms = g.numSyms + 1 := rfl
  rw [h]
  exact ⟨by omega, fun s hs => by have := h2 s hs; omega⟩

theorem lang_nextSym {g : Cfg} (hwf : g.WF) (name : Option String) {A : Sym} (hA : A < g.numSyms)
    (w : List Sym) : (g.nextSym name).2.Lang A w ↔ g.Lang A w := by
  refine inLang_congr (· < g.numSyms) (fun A α _ => Iff.rfl) ?_ ?_ hA
  · rintro A α - ⟨r, hr, rfl, rfl⟩
    exact (hwf r hr).2
  · intro a ha
    rw [term_nextSym hwf]
    exact ⟨fun h => h.resolve_right (by omega), .inl⟩

/-- A class symbol. -/
theorem classSym_spec {t : Translator} {U : List Sym} (h : t.Inv U) (key : LexerClasses)
    (name : Option String) :
    (t.classSym key name).2.Inv U ∧ Ext t (t.classSym key name).2 U ∧
      (key, (t.classSym key name).1) ∈ (t.classSym key name).2.classMap.classes ∧
      ∀ e ∈ (t.classSym key name).2.classMap.classes, e ∈ t.classMap.classes ∨ e.1 = key := by
  unfold classSym
  split
  · rename_i s hs
    exact ⟨h, Ext.refl t U, lookup_some_mem hs, fun e he => .inl he⟩
  · rename_i hn
    have hnew := lookup_none_not_mem hn
    have hp := insertClass_perm key t.cfg.numSyms t.classMap.classes
    have hsym : ∀ k a, (k, a) ∈ t.classMap.classes → a < t.cfg.numSyms := fun k a ha =>
      ((h.term a).2 (.inl ⟨k, ha⟩)).1
    have hU : ∀ a ∈ U, a < t.cfg.numSyms := fun a ha => ((h.term a).2 (.inr ha)).1
    refine ⟨⟨wf_nextSym h.wf name, h.limit, ?_, h.unused, ?_, ?_, ?_, insertClass_asc hnew h.asc⟩,
      ⟨?_, ?_, ?_⟩, ?_, ?_⟩
    · intro a
      rw [term_nextSym h.wf, h.term]
      change _ ↔ (∃ k, (k, a) ∈ insertClass key t.cfg.numSyms t.classMap.classes) ∨ _
      simp only [hp.mem_iff, List.mem_cons, Prod.mk.injEq, exists_or]
      constructor
      · rintro ((h | h) | h)
        · exact .inl (.inr h)
        · exact .inr h
        · exact .inl (.inl ⟨key, rfl, h⟩)
      · rintro ((⟨_, _, h⟩ | h) | h)
        · exact .inr h
        · exact .inl (.inl h)
        · exact .inl (.inr h)
    · intro k a ha
      have ha : (k, a) ∈ insertClass key t.cfg.numSyms t.classMap.classes := ha
      simp only [hp.mem_iff, List.mem_cons, Prod.mk.injEq] at ha
      rcases ha with ⟨-, rfl⟩ | ha
      · intro hc
        have := hU _ hc
        omega
      · exact h.apart k a ha
    · have := (hp.map Prod.fst).nodup_iff.2 (List.nodup_cons.2 ⟨hnew, h.keys⟩)
      exact this
    · refine (hp.map Prod.snd).nodup_iff.2 (List.nodup_cons.2 ⟨?_, h.syms⟩)
      intro hc
      obtain ⟨⟨k, a⟩, h1, h2⟩ := List.mem_map.1 hc
      have := hsym k a h1
      simp only at h2
      omega
    · exact Nat.le_succ _
    · intro e he
      exact hp.mem_iff.2 (by simp [he])
    · intro A hA w
      exact lang_nextSym h.wf name hA.1 w
    · exact hp.mem_iff.2 (List.mem_cons_self ..)
    · intro e he
      rcases List.mem_cons.1 (hp.mem_iff.1 he) with rfl | he
      · exact .inr rfl
      · exact .inl he

theorem bytes_spec (p : Profile) (bytes : List Nat) (hb : ∀ b ∈ bytes, b < 255) {t : Translator}
    {U : List Sym} (h : t.Inv U) :
    ∃ syms t', t.bytes p bytes = .ok (syms, t') ∧ t'.Inv U ∧ Ext t t' U ∧
      t'.Spell (bytes.map .byte) syms ∧ Only t t' (bytes.map .byte) := by
  induction bytes generalizing t with
  | nil => exact ⟨[], t, rfl, h, Ext.refl t U, .nil, .of_eq rfl _⟩
  | cons b bytes ih =>
    have hb' := hb b (by simp)
    obtain ⟨a1, a2, a3, a4⟩ := classSym_spec h [(b, b + 1)] (some ("__byte" ++ toString b))
    obtain ⟨syms, t', b1, b2, b3, b4, b5⟩ := ih (fun b hb'' => hb b (by simp [hb''])) a1
    refine ⟨_ :: syms, t', ?_, b2, a2.trans b3, .cons (b3.classes _ a3) b4, ?_⟩
    · unfold Translator.bytes byteSym LexerClasses.ofByte
      rw [if_pos (by omega)]
      simp only [Res.bind_ok, b1]
    · refine Only.trans (ls := [.byte b]) (t' := (t.classSym [(b, b + 1)] (some ("__byte" ++ toString b))).2) ?_ b5
      intro e he
      rcases a4 e he with he | he
      · exact .inl he
      · exact .inr ⟨_, List.mem_singleton.2 rfl, he⟩

theorem rule_spec {t : Translator} (hl : t.cfg.rhsLenInvariant = none) (lhs : Sym)
    (rhs : List Sym) :
    t.rule lhs rhs = .ok { t with
      cfg := t.cfg.pushRule ⟨lhs, rhs, History.ofRoot (.rule lhs)⟩ } := by
  unfold rule Cfg.addRule Cfg.rhsLenAllowed
  rw [hl]
  rfl

theorem rules_spec {t : Translator} (hl : t.cfg.rhsLenInvariant = none) (lhs : Sym)
    (x : List (List Sym)) :
    x.foldlM (fun t rhs => Translator.rule t lhs rhs) t = .ok { t with
      cfg := { t.cfg with
        rules := t.cfg.rules ++ x.map fun α => ⟨lhs, α, History.ofRoot (.rule lhs)⟩ } } := by
  induction x generalizing t with
  | nil => simp
  | cons α x ih =>
    rw [List.foldlM_cons, rule_spec hl, Res.bind_ok, ih (by exact hl)]
    simp [Cfg.pushRule]

/-- The strings derived from one of the alternatives. -/
def any (t : Translator) (x : List (List Sym)) (w : List Sym) : Prop := ∃ α ∈ x, t.str α w

theorem Ext.any {t t' : Translator} {U : List Sym} (h : Ext t t' U) {x : List (List Sym)}
    {w : List Sym} (hx : ∀ α ∈ x, ∀ s ∈ α, t.Good U s) : t'.any x w ↔ t.any x w := by
  unfold Translator.any
  constructor
  · rintro ⟨α, hα, hs⟩
    exact ⟨α, hα, (h.str (hx α hα)).1 hs⟩
  · rintro ⟨α, hα, hs⟩
    exact ⟨α, hα, (h.str (hx α hα)).2 hs⟩

theorem inner_spec {t : Translator} {U : List Sym} (h : t.Inv U) {x : List (List Sym)}
    (hx : x ≠ []) (hg : ∀ α ∈ x, ∀ s ∈ α, t.Good U s) :
    ∃ s t', t.inner x = .ok (s, t') ∧ t'.Inv U ∧ Ext t t' U ∧ t'.Good U s ∧
      t'.classMap = t.classMap ∧ ∀ w, t'.cfg.Lang s w ↔ t.any x w := by
  have hU : ∀ a ∈ U, a < t.cfg.numSyms := fun a ha => ((h.term a).2 (.inr ha)).1
  have hsym : ∀ k a, (k, a) ∈ t.classMap.classes → a < t.cfg.numSyms := fun k a ha =>
    ((h.term a).2 (.inl ⟨k, ha⟩)).1
  let new : List CfgRule := x.map fun α => ⟨t.cfg.numSyms, α, History.ofRoot (.rule t.cfg.numSyms)⟩
  let g' : Cfg := { (t.cfg.nextSym none).2 with rules := t.cfg.rules ++ new }
  have hnum : g'.numSyms = t.cfg.numSyms + 1 := rfl
  have hmem : ∀ r, r ∈ g'.rules ↔ r ∈ t.cfg.rules ∨ ∃ α ∈ x, r = ⟨t.cfg.numSyms, α,
      History.ofRoot (.rule t.cfg.numSyms)⟩ := by
    intro r
    change r ∈ t.cfg.rules ++ new ↔ _
    simp only [List.mem_append, new, List.mem_map]
    constructor
    · rintro (h | ⟨α, h1, h2⟩)
      · exact .inl h
      · exact .inr ⟨α, h1, h2.symm⟩
    · rintro (h | ⟨α, h1, h2⟩)
      · exact .inl h
      · exact .inr ⟨α, h1, h2.symm⟩
  have hterm : ∀ a, g'.Term a ↔ t.cfg.Term a := by
    intro a
    unfold Cfg.Term
    rw [hnum]
    constructor
    · rintro ⟨h1, h2⟩
      refine ⟨?_, fun r hr => h2 r ((hmem r).2 (.inl hr))⟩
      by_contra hc
      have ha : a = t.cfg.numSyms := by omega
      obtain ⟨α, hα⟩ := List.exists_mem_of_ne_nil x hx
      exact h2 _ ((hmem _).2 (.inr ⟨α, hα, rfl⟩)) ha.symm
    · rintro ⟨h1, h2⟩
      refine ⟨by omega, fun r hr => ?_⟩
      rcases (hmem r).1 hr with hr | ⟨α, -, rfl⟩
      · exact h2 r hr
      · simp only; omega
  have hlang : ∀ A, A < t.cfg.numSyms → ∀ w, (g'.Lang A w ↔ t.cfg.Lang A w) := by
    intro A hA w
    refine (inLang_congr (· < t.cfg.numSyms) ?_ ?_ (fun a _ => (hterm a).symm) hA).symm
    · intro A α hA
      constructor
      · rintro ⟨r, hr, e1, e2⟩
        exact ⟨r, (hmem r).2 (.inl hr), e1, e2⟩
      · rintro ⟨r, hr, e1, e2⟩
        rcases (hmem r).1 hr with hr | ⟨α, -, rfl⟩
        · exact ⟨r, hr, e1, e2⟩
        · simp only at e1; omega
    · rintro A α - ⟨r, hr, rfl, rfl⟩
      exact (h.wf r hr).2
  have hext : Ext t { t with cfg := g' } U :=
    ⟨Nat.le_succ _, fun _ he => he, fun A hA w => hlang A hA.1 w⟩
  refine ⟨t.cfg.numSyms, { t with cfg := g' }, ?_, ⟨?_, h.limit, ?_, ?_, h.apart, h.keys, h.syms, h.asc⟩,
    hext, ⟨Nat.lt_succ_self _, fun hc => Nat.lt_irrefl _ (hU _ hc)⟩, rfl, ?_⟩
  · unfold inner
    simp only
    rw [rules_spec (by exact h.limit), Res.bind_ok]
    rfl
  · intro r hr
    rw [hnum]
    rcases (hmem r).1 hr with hr | ⟨α, hα, rfl⟩
    · obtain ⟨h1, h2⟩ := h.wf r hr
      exact ⟨by omega, fun s hs => by have := h2 s hs; omega⟩
    · exact ⟨by simp, fun s hs => by have := (hg α hα s hs).1; omega⟩
  · intro a
    rw [← h.term a]
    exact hterm a
  · intro r hr s hs
    rcases (hmem r).1 hr with hr | ⟨α, hα, rfl⟩
    · exact h.unused r hr s hs
    · exact (hg α hα s hs).2
  · intro w
    rw [← hext.any hg]
    change InLang g'.prod g'.Term _ w ↔ _
    rw [inLang_iff, Der.single_iff]
    constructor
    · rintro ⟨rfl | ⟨α, ⟨r, hr, e1, e2⟩, hd⟩, hT⟩
      · have := ((hterm _).1 (hT _ (List.mem_singleton.2 rfl))).1
        omega
      · rcases (hmem r).1 hr with hr | ⟨α', hα, rfl⟩
        · have := (h.wf r hr).1
          omega
        · simp only at e2
          subst e2
          exact ⟨α', hα, hd, hT⟩
    · rintro ⟨α, hα, hd, hT⟩
      exact ⟨.inr ⟨α, ⟨_, (hmem _).2 (.inr ⟨α, hα, rfl⟩), rfl, rfl⟩, hd⟩, hT⟩

theorem oneSym_spec {t : Translator} {U : List Sym} (h : t.Inv U) {x : List (List Sym)}
    (hx : x ≠ []) (hg : ∀ α ∈ x, ∀ s ∈ α, t.Good U s) :
    ∃ s t', t.oneSym x = .ok (s, t') ∧ t'.Inv U ∧ Ext t t' U ∧ t'.Good U s ∧
      t'.classMap = t.classMap ∧ ∀ w, t'.cfg.Lang s w ↔ t.any x w := by
  unfold oneSym
  split
  · rename_i s
    refine ⟨s, t, rfl, h, Ext.refl t U, hg [s] (by simp) s (by simp), rfl, fun w => ?_⟩
    unfold any str
    simp only [List.mem_singleton, exists_eq_left, strLang_single]
    rfl
  · exact inner_spec h hx hg

theorem concatPart_spec {t : Translator} {U : List Sym} (h : t.Inv U) {x : List (List Sym)}
    (hx : x ≠ []) (hg : ∀ α ∈ x, ∀ s ∈ α, t.Good U s) :
    ∃ α t', t.concatPart x = .ok (α, t') ∧ t'.Inv U ∧ Ext t t' U ∧ (∀ s ∈ α, t'.Good U s) ∧
      t'.classMap = t.classMap ∧ ∀ w, t'.str α w ↔ t.any x w := by
  unfold concatPart
  split
  · exact absurd rfl hx
  · rename_i α
    refine ⟨α, t, rfl, h, Ext.refl t U, hg α (by simp), rfl, fun w => ?_⟩
    unfold any
    simp
  · obtain ⟨s, t', a1, a2, a3, a4, a5, a6⟩ := inner_spec h hx hg
    refine ⟨[s], t', by rw [a1]; rfl, a2, a3, by simpa using a4, a5, fun w => ?_⟩
    rw [← a6]
    exact strLang_single

theorem sequence_spec (p : Profile) {t : Translator} {U : List Sym} {lhs rhs start : Nat}
    {stop : Option Nat} (h : t.Inv (lhs :: U)) (hU : lhs ∉ U) (hr : t.Good (lhs :: U) rhs)
    (hu : (⟨lhs, rhs, start, stop, .null, none⟩ : Sequence).InU32)
    (hfits : (⟨lhs, rhs, start, stop, .null, none⟩ : Sequence).Fits) :
    ∃ t', t.sequence p lhs start stop rhs = .ok t' ∧ t'.Inv U ∧ Ext t t' (lhs :: U) ∧
      t'.Good U lhs ∧ t'.classMap = t.classMap ∧
      ∀ w, t'.cfg.Lang lhs w ↔ ∃ parts : List (List Sym), start ≤ parts.length ∧
        (∀ e, stop = some e → parts.length ≤ e) ∧ (∀ v ∈ parts, t.cfg.Lang rhs v) ∧
        w = parts.flatten := by
  have hlt : t.cfg.Term lhs := (h.term lhs).2 (.inr (by simp))
  obtain ⟨g', e, a1, -, a3, a4, a5, a6, a7⟩ := sequence_plain p h.wf h.limit hlt.1 hr.1 hu hfits
    hlt.2
  let P' : Productions := fun A β => t.cfg.prod A β ∨
    SeqProd ⟨lhs, rhs, start, stop, .null, none⟩ A β
  have hgood : ∀ A, t.Good (lhs :: U) A → ∀ w,
      (InLang P' g'.Term A w ↔ t.cfg.Lang A w) := by
    intro A hA w
    refine (inLang_congr (t.Good (lhs :: U)) ?_ ?_ ?_ hA).symm
    · intro A α hA
      constructor
      · exact .inl
      · rintro (h' | ⟨e, -⟩)
        · exact h'
        · exact absurd (by rw [e]; simp) hA.2
    · rintro A α - ⟨r, hr, rfl, rfl⟩ s hs
      exact ⟨(h.wf r hr).2 s hs, h.unused r hr s hs⟩
    · intro a ha
      rw [a5]
      have : a ≠ lhs := fun hc => ha.2 (by simp [hc])
      simp [this]
  have hext : Ext t { t with cfg := g' } (lhs :: U) :=
    ⟨a4, fun _ he => he, fun A hA w => (a7 A hA.1 w).trans (hgood A hA w)⟩
  refine ⟨{ t with cfg := g' }, by unfold sequence; rw [e]; rfl,
    ⟨a1, a3, ?_, ?_, fun k a ha hc => h.apart k a ha (by simp [hc]), h.keys, h.syms, h.asc⟩, hext,
    ⟨Nat.lt_of_lt_of_le hlt.1 a4, hU⟩, rfl, ?_⟩
  · intro a
    rw [a5, h.term]
    constructor
    · rintro ⟨h1 | h1, h2⟩
      · exact .inl h1
      · exact .inr ((List.mem_cons.1 h1).resolve_left h2)
    · rintro (⟨k, h1⟩ | h1)
      · refine ⟨.inl ⟨k, h1⟩, ?_⟩
        rintro rfl
        exact h.apart k a h1 (by simp)
      · refine ⟨.inr (by simp [h1]), ?_⟩
        rintro rfl
        exact hU h1
  · intro r hr' s hs hc
    rcases a6 r.lhs r.rhs ⟨r, hr', rfl, rfl⟩ with ⟨r', h1, h2, h3⟩ | h1
    · rw [← h3] at hs
      exact h.unused r' h1 s hs (by simp [hc])
    · rcases h1 s hs with rfl | rfl | h1
      · exact hr.2 (by simp [hc])
      · exact hU hc
      · have := ((h.term s).2 (.inr (by simp [hc]))).1
        omega
  · intro w
    change g'.Lang lhs w ↔ _
    rw [a7 lhs hlt.1, inLang_iff, Der.single_iff]
    constructor
    · rintro ⟨rfl | ⟨β, hp | ⟨-, n, h1, h2, h3⟩, hd⟩, hT⟩
      · exact absurd rfl ((a5 lhs).1 (hT lhs (by simp))).2
      · obtain ⟨r, hr', e', -⟩ := hp
        exact absurd e' (hlt.2 r hr')
      · simp only [Repeats] at h1 h2 h3
        subst h3
        obtain ⟨parts, b1, b2, b3⟩ := (strLang_replicate n).1 ⟨hd, hT⟩
        subst b1
        exact ⟨parts, h1, h2, fun v hv => (hgood rhs hr v).1 (b2 v hv), b3⟩
    · rintro ⟨parts, h1, h2, h3, rfl⟩
      have := (strLang_replicate (P := P') (T := g'.Term) (A := rhs) parts.length
        (w := parts.flatten)).2 ⟨parts, rfl, fun v hv => (hgood rhs hr v).2 (h3 v hv), rfl⟩
      exact ⟨.inr ⟨_, .inr ⟨rfl, parts.length, h1, h2, rfl⟩, this.1⟩, this.2⟩

/-! ## The walk -/

/-- The result of a walk describes the given strings of letters. -/
structure Walked (t : Translator) (U : List Sym) (ls : List Letter) (M : List Letter → Prop)
    (x : List (List Sym)) (t' : Translator) : Prop where
  inv : t'.Inv U
  ext : Ext t t' U
  good : ∀ α ∈ x, ∀ s ∈ α, t'.Good U s
  known : t'.Known ls
  only : Only t t' ls
  lang : ∀ w, t'.any x w ↔ ∃ l, M l ∧ t'.Spell l w

theorem Walked.later {t t' t'' : Translator} {U : List Sym} {ls : List Letter}
    {M : List Letter → Prop} {x : List (List Sym)} (h : Walked t U ls M x t') (he : Ext t' t'' U)
    (hi : t''.Inv U) (hM : ∀ l, M l → ∀ a ∈ l, a ∈ ls) (w : List Sym) :
    t''.any x w ↔ ∃ l, M l ∧ t''.Spell l w := by
  rw [he.any h.good, h.lang]
  constructor
  · rintro ⟨l, h1, h2⟩
    exact ⟨l, h1, h2.mono he.classes⟩
  · rintro ⟨l, h1, h2⟩
    have hk : t'.Known l := fun a ha => h.known a (hM l h1 a ha)
    exact ⟨l, h1, (hk.spell_iff he.classes hi).1 h2⟩

end Translator

mutual

theorem matches_letters : ∀ (h : Hir) (l : List Letter), h.Matches l → ∀ a ∈ l, a ∈ h.letters
  | .empty, l, h => by
    simp only [Hir.Matches] at h
    simp [h]
  | .literal bytes, l, h => by
    simp only [Hir.Matches] at h
    simp [h, Hir.letters]
  | .cls ranges, l, h => by
    simp only [Hir.Matches] at h
    simp [h, Hir.letters]
  | .look, l, h => by
    simp only [Hir.Matches] at h
  | .repetition min max sub, l, h => by
    simp only [Hir.Matches] at h
    obtain ⟨parts, -, -, h3, rfl⟩ := h
    intro a ha
    obtain ⟨v, hv, ha⟩ := List.mem_flatten.1 ha
    rw [Hir.letters]
    exact matches_letters sub v (h3 v hv) a ha
  | .capture sub, l, h => by
    rw [Hir.Matches] at h
    rw [Hir.letters]
    exact matches_letters sub l h
  | .concat exprs, l, h => by
    rw [Hir.Matches] at h
    rw [Hir.letters]
    exact matchesAll_letters exprs l h
  | .alternation exprs, l, h => by
    rw [Hir.Matches] at h
    rw [Hir.letters]
    exact matchesAny_letters exprs l h

theorem matchesAll_letters : ∀ (hs : List Hir) (l : List Letter), Hir.MatchesAll hs l →
    ∀ a ∈ l, a ∈ Hir.lettersAll hs
  | [], l, h => by
    rw [Hir.MatchesAll] at h
    simp [h]
  | e :: es, l, h => by
    rw [Hir.MatchesAll] at h
    obtain ⟨u, v, rfl, h1, h2⟩ := h
    intro a ha
    rw [Hir.lettersAll, List.mem_append]
    rcases List.mem_append.1 ha with ha | ha
    · exact .inl (matches_letters e u h1 a ha)
    · exact .inr (matchesAll_letters es v h2 a ha)

theorem matchesAny_letters : ∀ (hs : List Hir) (l : List Letter), Hir.MatchesAny hs l →
    ∀ a ∈ l, a ∈ Hir.lettersAll hs
  | [], l, h => by
    simp only [Hir.MatchesAny] at h
  | e :: es, l, h => by
    rw [Hir.MatchesAny] at h
    intro a ha
    rw [Hir.lettersAll, List.mem_append]
    rcases h with h | h
    · exact .inl (matches_letters e l h a ha)
    · exact .inr (matchesAny_letters es l h a ha)

end

mutual

theorem plain_letters : ∀ (h : Hir), h.Plain → ∀ l ∈ h.letters, Apart l.ranges
  | .empty, _ => by simp [Hir.letters]
  | .literal bytes, _ => by
    rw [Hir.letters]
    intro l hl
    obtain ⟨b, -, rfl⟩ := List.mem_map.1 hl
    exact ⟨by simp [Letter.ranges], by simp [Letter.ranges]⟩
  | .cls ranges, hp => by
    rw [Hir.Plain] at hp
    rw [Hir.letters]
    simpa [Letter.ranges] using hp
  | .look, _ => by simp [Hir.letters]
  | .repetition min max sub, hp => by
    rw [Hir.Plain] at hp
    rw [Hir.letters]
    exact plain_letters sub hp.2.2
  | .capture sub, hp => by
    rw [Hir.Plain] at hp
    rw [Hir.letters]
    exact plain_letters sub hp
  | .concat exprs, hp => by
    rw [Hir.Plain] at hp
    rw [Hir.letters]
    exact plainAll_letters exprs hp
  | .alternation exprs, hp => by
    rw [Hir.Plain] at hp
    rw [Hir.letters]
    exact plainAll_letters exprs hp.2

theorem plainAll_letters : ∀ (hs : List Hir), Hir.PlainAll hs → ∀ l ∈ Hir.lettersAll hs,
    Apart l.ranges
  | [], _ => by simp [Hir.lettersAll]
  | e :: es, hp => by
    rw [Hir.PlainAll] at hp
    rw [Hir.lettersAll]
    intro l hl
    rcases List.mem_append.1 hl with hl | hl
    · exact plain_letters e hp.1 l hl
    · exact plainAll_letters es hp.2 l hl

end

mutual

theorem plain_bytes : ∀ (h : Hir), h.Plain → ∀ b, .byte b ∈ h.letters → b < 255
  | .empty, _ => by simp [Hir.letters]
  | .literal bytes, hp => by
    rw [Hir.Plain] at hp
    simpa [Hir.letters] using hp
  | .cls ranges, _ => by
    simp [Hir.letters]
  | .look, _ => by simp [Hir.letters]
  | .repetition min max sub, hp => by
    rw [Hir.Plain] at hp
    rw [Hir.letters]
    exact plain_bytes sub hp.2.2
  | .capture sub, hp => by
    rw [Hir.Plain] at hp
    rw [Hir.letters]
    exact plain_bytes sub hp
  | .concat exprs, hp => by
    rw [Hir.Plain] at hp
    rw [Hir.letters]
    exact plainAll_bytes exprs hp
  | .alternation exprs, hp => by
    rw [Hir.Plain] at hp
    rw [Hir.letters]
    exact plainAll_bytes exprs hp.2

theorem plainAll_bytes : ∀ (hs : List Hir), Hir.PlainAll hs → ∀ b, .byte b ∈ Hir.lettersAll hs →
    b < 255
  | [], _ => by simp [Hir.lettersAll]
  | e :: es, hp => by
    rw [Hir.PlainAll] at hp
    rw [Hir.lettersAll]
    intro l hl
    rcases List.mem_append.1 hl with hl | hl
    · exact plain_bytes e hp.1 l hl
    · exact plainAll_bytes es hp.2 l hl

end

theorem ofRanges_apart {rs : List (Nat × Nat)} (h : Apart rs) : LexerClasses.ofRanges rs = rs := by
  unfold LexerClasses.ofRanges
  have hins : ∀ (pre : List (Nat × Nat)) (r : Nat × Nat), (∀ a ∈ pre, pairLt a r = true) →
      LexerClasses.insert r pre = pre ++ [r] := by
    intro pre r hpre
    induction pre with
    | nil => rfl
    | cons a pre ih =>
      have h1 := hpre a (by simp)
      unfold LexerClasses.insert
      rw [if_neg, if_neg, ih fun b hb => hpre b (by simp [hb])]
      · rfl
      · rintro rfl
        simp [pairLt] at h1
      · simp only [pairLt, Bool.or_eq_true, Bool.and_eq_true, decide_eq_true_eq, beq_iff_eq] at h1 ⊢
        omega
  have key : ∀ (rs pre : List (Nat × Nat)), Apart (pre ++ rs) →
      rs.foldl (fun set r => LexerClasses.insert r set) pre = pre ++ rs := by
    intro rs
    induction rs with
    | nil => intro pre _; simp
    | cons r rs ih =>
      intro pre hp
      rw [List.foldl_cons, hins pre r, ih (pre ++ [r])]
      · simp
      · simpa using hp
      · intro a ha
        have h1 := (List.pairwise_append.1 hp.2).2.2 a ha r (by simp)
        have h2 := hp.1 a (by simp [ha])
        simp only [pairLt, Bool.or_eq_true, decide_eq_true_eq]
        left
        omega
  exact key rs [] h

theorem seq_bounds {lhs rhs min : Nat} {max : Option Nat}
    (h : (⟨0, 0, min, max, .null, none⟩ : Sequence).InU32 ∧
      (⟨0, 0, min, max, .null, none⟩ : Sequence).Fits) :
    (⟨lhs, rhs, min, max, .null, none⟩ : Sequence).InU32 ∧
      (⟨lhs, rhs, min, max, .null, none⟩ : Sequence).Fits := h

/-- Strings of repetitions, in letters and in class symbols. -/
theorem spell_parts {t : Translator} {L : List Sym → Prop} {M : List Letter → Prop}
    (h : ∀ w, L w ↔ ∃ l, M l ∧ t.Spell l w) (n : Nat → Prop) (w : List Sym) :
    (∃ parts : List (List Sym), n parts.length ∧ (∀ v ∈ parts, L v) ∧ w = parts.flatten) ↔
    ∃ l, (∃ parts : List (List Letter), n parts.length ∧ (∀ v ∈ parts, M v) ∧ l = parts.flatten) ∧
      t.Spell l w := by
  constructor
  · rintro ⟨parts, h1, h2, rfl⟩
    have key : ∀ parts : List (List Sym), (∀ v ∈ parts, L v) → ∃ ps : List (List Letter),
        ps.length = parts.length ∧ (∀ v ∈ ps, M v) ∧ t.Spell ps.flatten parts.flatten := by
      intro parts
      induction parts with
      | nil => exact fun _ => ⟨[], rfl, by simp, .nil⟩
      | cons v parts ih =>
        intro hv
        obtain ⟨ps, a1, a2, a3⟩ := ih fun v' hv' => hv v' (by simp [hv'])
        obtain ⟨l, b1, b2⟩ := (h v).1 (hv v (by simp))
        refine ⟨l :: ps, by simp [a1], ?_, by simpa using b2.append a3⟩
        intro v' hv'
        rcases List.mem_cons.1 hv' with rfl | hv'
        · exact b1
        · exact a2 v' hv'
    obtain ⟨ps, a1, a2, a3⟩ := key parts h2
    exact ⟨ps.flatten, ⟨ps, by rw [a1]; exact h1, a2, rfl⟩, a3⟩
  · rintro ⟨l, ⟨ps, h1, h2, rfl⟩, hs⟩
    have key : ∀ (ps : List (List Letter)) (w : List Sym), (∀ v ∈ ps, M v) →
        t.Spell ps.flatten w → ∃ parts : List (List Sym), parts.length = ps.length ∧
          (∀ v ∈ parts, L v) ∧ w = parts.flatten := by
      intro ps
      induction ps with
      | nil =>
        intro w _ hs
        cases hs
        exact ⟨[], rfl, by simp, rfl⟩
      | cons l ps ih =>
        intro w hv hs
        rw [List.flatten_cons] at hs
        obtain ⟨u, v, rfl, b1, b2⟩ := hs.split
        obtain ⟨parts, a1, a2, rfl⟩ := ih v (fun v' hv' => hv v' (by simp [hv'])) b2
        refine ⟨u :: parts, by simp [a1], ?_, rfl⟩
        intro v' hv'
        rcases List.mem_cons.1 hv' with rfl | hv'
        · exact (h v').2 ⟨l, hv l (by simp), b1⟩
        · exact a2 v' hv'
    obtain ⟨parts, a1, a2, rfl⟩ := key ps w h2 hs
    exact ⟨parts, by rw [a1]; exact h1, a2, rfl⟩

open Translator

theorem str_terminals {t : Translator} {U : List Sym} (h : t.Inv U) {ls : List Letter}
    {syms : List Sym} (hs : t.Spell ls syms) (w : List Sym) : t.str syms w ↔ w = syms := by
  unfold Translator.str
  unfold Spell at hs
  induction hs generalizing w with
  | nil => exact strLang_nil
  | @cons l s ls syms h1 _ ih =>
    rw [strLang_cons]
    have ht : t.cfg.Term s := (h.term s).2 (.inl ⟨_, h1⟩)
    constructor
    · rintro ⟨u, v, rfl, h2, h3⟩
      rw [(ih v).1 h3, (lang_terminal ht).1 h2]
      rfl
    · rintro rfl
      exact ⟨[s], syms, rfl, (lang_terminal ht).2 rfl, (ih syms).2 rfl⟩

theorem Inv.spelled {t : Translator} {U : List Sym} (h : t.Inv U) {ls : List Letter}
    {syms : List Sym} (hs : t.Spell ls syms) :
    (∀ s ∈ syms, t.Good U s) ∧ t.Known ls := by
  unfold Spell at hs
  induction hs with
  | nil => exact ⟨by simp, by simp [Known]⟩
  | @cons l s ls syms h1 _ ih =>
    constructor
    · intro a ha
      rcases List.mem_cons.1 ha with rfl | ha
      · exact ⟨((h.term a).2 (.inl ⟨_, h1⟩)).1, h.apart _ _ h1⟩
      · exact ih.1 a ha
    · intro a ha
      rcases List.mem_cons.1 ha with rfl | ha
      · exact ⟨s, h1⟩
      · exact ih.2 a ha

theorem any_append {t : Translator} {x y : List (List Sym)} {w : List Sym} :
    t.any (x ++ y) w ↔ t.any x w ∨ t.any y w := by
  unfold Translator.any
  simp [or_and_right, exists_or]

theorem any_single {t : Translator} {α w : List Sym} : t.any [α] w ↔ t.str α w := by
  simp [Translator.any]

/-- The fresh symbol of a repetition begins as an unfinished one. -/
theorem Inv.begin {t : Translator} {U : List Sym} (hi : t.Inv U) :
    Translator.Inv { t with cfg := (t.cfg.nextSym none).2 } (t.cfg.numSyms :: U) := by
  have hsym : ∀ k a, (k, a) ∈ t.classMap.classes → a < t.cfg.numSyms := fun k a ha =>
    ((hi.term a).2 (.inl ⟨k, ha⟩)).1
  refine ⟨wf_nextSym hi.wf none, hi.limit, ?_, ?_, ?_, hi.keys, hi.syms, hi.asc⟩
  · intro a
    rw [term_nextSym hi.wf, hi.term, List.mem_cons]
    constructor
    · rintro ((h | h) | h)
      exacts [.inl h, .inr (.inr h), .inr (.inl h)]
    · rintro (h | h | h)
      exacts [.inl (.inl h), .inr h, .inl (.inr h)]
  · intro r hr s hs hc
    rcases List.mem_cons.1 hc with rfl | hc
    · exact Nat.lt_irrefl _ ((hi.wf r hr).2 _ hs)
    · exact hi.unused r hr s hs hc
  · intro k a ha hc
    rcases List.mem_cons.1 hc with rfl | hc
    · exact Nat.lt_irrefl _ (hsym k _ ha)
    · exact hi.apart k a ha hc

mutual

theorem hirWalk_spec (p : Profile) : ∀ (h : Hir), h.Plain → ∀ (t : Translator) (U : List Sym),
    t.Inv U → ∃ x t', t.walk p h = .ok (x, t') ∧ x ≠ [] ∧ Walked t U h.letters h.Matches x t'
  | .empty, _, t, U, hi => by
    rw [Translator.walk]
    refine ⟨[[]], t, rfl, by simp, hi, Ext.refl t U, by simp, by simp [Known, Hir.letters],
      .of_eq rfl _, fun w => ?_⟩
    rw [any_single]
    simp only [Translator.str, strLang_nil, Hir.Matches]
    constructor
    · rintro rfl; exact ⟨[], rfl, .nil⟩
    · rintro ⟨l, rfl, h⟩; cases h; rfl
  | .literal bytes, hp, t, U, hi => by
    rw [Hir.Plain] at hp
    obtain ⟨syms, t', a1, a2, a3, a4, a5⟩ := bytes_spec p bytes hp hi
    rw [Translator.walk, a1, Res.bind_ok]
    obtain ⟨b1, b2⟩ := Inv.spelled a2 a4
    refine ⟨[syms], t', rfl, by simp, a2, a3, by simpa using b1, by rwa [Hir.letters],
      by rwa [Hir.letters], fun w => ?_⟩
    rw [any_single, str_terminals a2 a4]
    simp only [Hir.Matches]
    constructor
    · rintro rfl; exact ⟨_, rfl, a4⟩
    · rintro ⟨l, rfl, h⟩; exact a2.spell_unique h a4
  | .cls ranges, hp, t, U, hi => by
    rw [Hir.Plain] at hp
    obtain ⟨a1, a2, a3, a4⟩ := classSym_spec hi (LexerClasses.ofRanges ranges) none
    rw [Translator.walk]
    rw [ofRanges_apart hp] at a1 a2 a3 a4 ⊢
    have hs : (t.classSym ranges none).2.Spell [.cls ranges] [(t.classSym ranges none).1] :=
      .cons a3 .nil
    obtain ⟨b1, b2⟩ := Inv.spelled a1 hs
    refine ⟨[[(t.classSym ranges none).1]], (t.classSym ranges none).2, rfl, by simp, a1, a2,
      by simpa using b1, by rwa [Hir.letters], ?_, fun w => ?_⟩
    · intro e he
      rw [Hir.letters]
      rcases a4 e he with he | he
      · exact .inl he
      · exact .inr ⟨_, List.mem_singleton.2 rfl, he⟩
    · rw [any_single, str_terminals a1 hs]
      simp only [Hir.Matches]
      constructor
      · rintro rfl; exact ⟨_, rfl, hs⟩
      · rintro ⟨l, rfl, h⟩; exact a1.spell_unique h hs
  | .look, hp, t, U, hi => by
    simp only [Hir.Plain] at hp
  | .repetition min max sub, hp, t, U, hi => by
    rw [Hir.Plain] at hp
    obtain ⟨hp1, hp2, hp3⟩ := hp
    have hU : ∀ a ∈ U, a < t.cfg.numSyms := fun a ha => ((hi.term a).2 (.inr ha)).1
    have hlhs : t.cfg.numSyms ∉ U := fun hc => Nat.lt_irrefl _ (hU _ hc)
    have hi0 := Inv.begin hi
    obtain ⟨x, t1, a1, a2, a3⟩ := hirWalk_spec p sub hp3 _ _ hi0
    obtain ⟨rhs, t2, b1, b2, b3, b4, b5, b6⟩ := oneSym_spec a3.inv a2 a3.good
    obtain ⟨t3, c1, c2, c3, c4, c5, c6⟩ := sequence_spec p b2 hlhs b4
      (seq_bounds ⟨hp1, hp2⟩).1 (seq_bounds ⟨hp1, hp2⟩).2
    have hrep : t1.repeated x = t1.oneSym x := by
      cases x with
      | nil => exact absurd rfl a2
      | cons α x => rfl
    refine ⟨[[t.cfg.numSyms]], t3, ?_, by simp, c2, ⟨?_, ?_, ?_⟩, by simpa using c4, ?_, ?_, ?_⟩
    · rw [Translator.walk]
      have hn : t.cfg.nextSym none = (t.cfg.numSyms, (t.cfg.nextSym none).2) := rfl
      rw [hn]
      simp only [a1, Res.bind_ok, hrep, b1, c1]
    · have h1 := a3.ext.num
      have h2 := b3.num
      have h3 := c3.num
      have h4 : (t.cfg.nextSym none).2.numSyms = t.cfg.numSyms + 1 := rfl
      simp only [h4] at h1
      omega
    · intro e he
      exact c3.classes e (b3.classes e (a3.ext.classes e he))
    · intro A hA w
      have hA0 : Translator.Good { t with cfg := (t.cfg.nextSym none).2 } (t.cfg.numSyms :: U) A := by
        refine ⟨Nat.lt_succ_of_lt hA.1, fun hc => ?_⟩
        rcases List.mem_cons.1 hc with rfl | hc
        · exact Nat.lt_irrefl _ hA.1
        · exact hA.2 hc
      rw [((a3.ext.trans b3).trans c3).lang A hA0 w]
      exact lang_nextSym hi.wf none hA.1 w
    · rw [Hir.letters]
      exact a3.known.mono fun e he => c3.classes e (b3.classes e he)
    · rw [Hir.letters]
      intro e he
      rw [c5, b5] at he
      exact a3.only e he
    · intro w
      rw [any_single]
      unfold Translator.str
      rw [strLang_single]
      refine (c6 w).trans ?_
      have hsp : ∀ l w, t3.Spell l w ↔ t1.Spell l w := by
        intro l w
        unfold Spell
        rw [c5, b5]
      have hsub : ∀ w, t2.cfg.Lang rhs w ↔ ∃ l, sub.Matches l ∧ t3.Spell l w := by
        intro w
        rw [b6, a3.lang]
        simp only [hsp]
      have := spell_parts hsub (fun n => min ≤ n ∧ ∀ e, max = some e → n ≤ e) w
      simp only [and_assoc] at this
      rw [this]
      simp only [Hir.Matches]
  | .capture sub, hp, t, U, hi => by
    rw [Hir.Plain] at hp
    obtain ⟨x, t', a1, a2, a3⟩ := hirWalk_spec p sub hp t U hi
    refine ⟨x, t', by rw [Translator.walk, a1], a2, a3.inv, a3.ext, a3.good, ?_, ?_, ?_⟩
    · rw [Hir.letters]; exact a3.known
    · rw [Hir.letters]; exact a3.only
    · intro w
      simp only [Hir.Matches]
      exact a3.lang w
  | .concat exprs, hp, t, U, hi => by
    rw [Hir.Plain] at hp
    obtain ⟨α, t', a1, a2⟩ := walkConcat_spec p exprs hp t U hi
    refine ⟨[α], t', by rw [Translator.walk, a1]; rfl, by simp, a2.inv, a2.ext, a2.good, ?_, ?_, ?_⟩
    · rw [Hir.letters]; exact a2.known
    · rw [Hir.letters]; exact a2.only
    · intro w
      simp only [Hir.Matches]
      exact a2.lang w
  | .alternation exprs, hp, t, U, hi => by
    rw [Hir.Plain] at hp
    obtain ⟨x, t', a1, a2, a3⟩ := walkAlternatives_spec p exprs hp.2 t U hi
    refine ⟨x, t', by rw [Translator.walk, a1], a2 hp.1, a3.inv, a3.ext, a3.good, ?_, ?_, ?_⟩
    · rw [Hir.letters]; exact a3.known
    · rw [Hir.letters]; exact a3.only
    · intro w
      simp only [Hir.Matches]
      exact a3.lang w

theorem walkConcat_spec (p : Profile) : ∀ (hs : List Hir), Hir.PlainAll hs →
    ∀ (t : Translator) (U : List Sym), t.Inv U →
    ∃ α t', t.walkConcat p hs = .ok (α, t') ∧
      Walked t U (Hir.lettersAll hs) (Hir.MatchesAll hs) [α] t'
  | [], _, t, U, hi => by
    rw [Translator.walkConcat]
    refine ⟨[], t, rfl, hi, Ext.refl t U, by simp, by simp [Known, Hir.lettersAll],
      .of_eq rfl _, fun w => ?_⟩
    rw [any_single]
    simp only [Translator.str, strLang_nil, Hir.MatchesAll]
    constructor
    · rintro rfl; exact ⟨[], rfl, .nil⟩
    · rintro ⟨l, rfl, h⟩; cases h; rfl
  | e :: es, hp, t, U, hi => by
    rw [Hir.PlainAll] at hp
    obtain ⟨x, t1, a1, a2, a3⟩ := hirWalk_spec p e hp.1 t U hi
    obtain ⟨α, t2, b1, b2, b3, b4, b5, b6⟩ := concatPart_spec a3.inv a2 a3.good
    obtain ⟨β, t3, c1, c2⟩ := walkConcat_spec p es hp.2 t2 U b2
    have he : Ext t1 t3 U := b3.trans c2.ext
    refine ⟨α ++ β, t3, ?_, c2.inv, a3.ext.trans he, ?_, ?_, ?_, ?_⟩
    · rw [Translator.walkConcat, a1]
      simp only [Res.bind_ok, b1, c1]
    · intro γ hγ s hs
      rw [List.mem_singleton] at hγ
      subst hγ
      rcases List.mem_append.1 hs with hs | hs
      · exact c2.ext.good (b4 s hs)
      · exact c2.good β (by simp) s hs
    · rw [Hir.lettersAll]
      intro l hl
      rcases List.mem_append.1 hl with hl | hl
      · exact a3.known.mono he.classes l hl
      · exact c2.known l hl
    · rw [Hir.lettersAll]
      refine a3.only.trans ?_
      intro e' he'
      rcases c2.only e' he' with h | h
      · rw [b5] at h; exact .inl h
      · exact .inr h
    · intro w
      have h1 : ∀ w, t3.str α w ↔ ∃ l, e.Matches l ∧ t3.Spell l w := by
        intro w
        rw [c2.ext.str b4, b6, ← a3.later he c2.inv (matches_letters e), he.any a3.good]
      have h2 : ∀ w, t3.str β w ↔ ∃ l, Hir.MatchesAll es l ∧ t3.Spell l w := by
        intro w
        rw [← any_single]
        exact c2.lang w
      rw [any_single]
      unfold Translator.str at h1 h2 ⊢
      rw [strLang_append]
      simp only [h1, h2, Hir.MatchesAll]
      constructor
      · rintro ⟨u, v, rfl, ⟨l, m1, s1⟩, l', m2, s2⟩
        exact ⟨l ++ l', ⟨l, l', rfl, m1, m2⟩, s1.append s2⟩
      · rintro ⟨_, ⟨l, l', rfl, m1, m2⟩, s⟩
        obtain ⟨u, v, rfl, s1, s2⟩ := s.split
        exact ⟨u, v, rfl, ⟨l, m1, s1⟩, l', m2, s2⟩

theorem walkAlternatives_spec (p : Profile) : ∀ (hs : List Hir), Hir.PlainAll hs →
    ∀ (t : Translator) (U : List Sym), t.Inv U →
    ∃ x t', t.walkAlternatives p hs = .ok (x, t') ∧ (hs ≠ [] → x ≠ []) ∧
      Walked t U (Hir.lettersAll hs) (Hir.MatchesAny hs) x t'
  | [], _, t, U, hi => by
    rw [Translator.walkAlternatives]
    refine ⟨[], t, rfl, fun h => absurd rfl h, hi, Ext.refl t U, by simp,
      by simp [Known, Hir.lettersAll], .of_eq rfl _, fun w => ?_⟩
    simp [Translator.any, Hir.MatchesAny]
  | e :: es, hp, t, U, hi => by
    rw [Hir.PlainAll] at hp
    obtain ⟨x, t1, a1, a2, a3⟩ := hirWalk_spec p e hp.1 t U hi
    obtain ⟨y, t2, b1, -, b3⟩ := walkAlternatives_spec p es hp.2 t1 U a3.inv
    refine ⟨x ++ y, t2, ?_, fun _ => by simp [a2], b3.inv, a3.ext.trans b3.ext, ?_, ?_, ?_, ?_⟩
    · rw [Translator.walkAlternatives, a1]
      simp only [Res.bind_ok, b1]
    · intro α hα s hs
      rcases List.mem_append.1 hα with hα | hα
      · exact b3.ext.good (a3.good α hα s hs)
      · exact b3.good α hα s hs
    · rw [Hir.lettersAll]
      intro l hl
      rcases List.mem_append.1 hl with hl | hl
      · exact a3.known.mono b3.ext.classes l hl
      · exact b3.known l hl
    · rw [Hir.lettersAll]
      exact a3.only.trans b3.only
    · intro w
      rw [any_append, a3.later b3.ext b3.inv (matches_letters e), b3.lang]
      simp only [Hir.MatchesAny, or_and_right, exists_or]

end

end Verif
