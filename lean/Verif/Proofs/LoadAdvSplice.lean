import Verif.Proofs.LoadAdvState
import Verif.Props.Regexp

/-! # Proofs about regular expressions in the advanced loader -/

namespace Verif.Advanced

namespace AdvInv

variable {reps : List RepSym} {aux : List Sym} {done : List (Sym × List Piece)}
  {res : List (Sym × Hir)}

theorem classSyms (cs : List (LexerClasses × Sym)) : ∀ {st : State} (symMap : List (Sym × Sym)),
    AdvInv st reps aux done res →
    ∃ pairs st', st.classSyms cs symMap = (pairs.reverse ++ symMap, st') ∧
      AdvInv st' reps aux done res ∧ Ext st st' [] (cs.map Prod.fst) ∧
      List.Forall₂ (fun e q => q.1 = e.2 ∧ (e.1, q.2) ∈ st'.classes) cs pairs ∧
      st'.lexIntern = st.lexIntern ∧ st'.lexical = st.lexical := by
  induction cs with
  | nil => intro st symMap h; exact ⟨[], st, rfl, h, .refl _, .nil, rfl, rfl⟩
  | cons e cs ih =>
    intro st symMap h
    obtain ⟨k, a⟩ := e
    obtain ⟨s, st₁, e1, h1, hm, hx, hi, hl⟩ := h.classSym k
    obtain ⟨pairs, st₂, e2, h2, hx2, hf, hi2, hl2⟩ := ih ((a, s) :: symMap) h1
    refine ⟨(a, s) :: pairs, st₂, ?_, h2, by simpa using hx.trans hx2, .cons ⟨rfl, hx2.classes _ hm⟩ hf,
      hi2.trans hi, hl2.trans hl⟩
    unfold State.classSyms
    rw [e1]
    dsimp only
    rw [e2]
    simp

end AdvInv

/-- The memory of the closure after calls with some symbols. -/
structure Memo (order : List Sym) (symMap symMap' : List (Sym × Sym)) (n n' : Nat) : Prop where
  old : ∀ a s, symMap.lookup a = some s → symMap'.lookup a = some s
  total : ∀ a ∈ order, ∃ s, symMap'.lookup a = some s
  new : ∀ a s, symMap'.lookup a = some s → symMap.lookup a = some s ∨
    (symMap.lookup a = none ∧ a ∈ order ∧ n ≤ s ∧ s < n')
  inj : ∀ a b s, symMap'.lookup a = some s → symMap'.lookup b = some s → n ≤ s → a = b
  surj : ∀ s, n ≤ s → s < n' → ∃ a ∈ order, symMap.lookup a = none ∧ symMap'.lookup a = some s

theorem memoSyms_spec {reps : List RepSym} {done : List (Sym × List Piece)} (order : List Sym) :
    ∀ {st : LoadState} {extra : List Sym} {symMap : List (Sym × Sym)},
    LoadInv st reps extra done → (∀ a s, symMap.lookup a = some s → s < st.cfg.numSyms) →
    ∃ symMap' g', memoSyms st.cfg order symMap = (symMap', g') ∧
      Memo order symMap symMap' st.cfg.numSyms g'.numSyms ∧ g'.rules = st.cfg.rules ∧
      LoadInv { st with cfg := g' } reps
        (extra ++ List.range' st.cfg.numSyms (g'.numSyms - st.cfg.numSyms)) done ∧
      LoadInv.Grows st { st with cfg := g' } [] := by
  induction order with
  | nil =>
    intro st extra symMap h hlt
    refine ⟨symMap, st.cfg, rfl, ⟨fun _ _ h => h, by simp, fun _ _ h => .inl h, ?_, ?_⟩, rfl,
      by simpa using h, .refl _⟩
    · intro a b s ha _ hn
      exact absurd (hlt a s ha) (Nat.not_lt.2 hn)
    · intro s h1 h2
      exact absurd h2 (Nat.not_lt.2 h1)
  | cons a order ih =>
    intro st extra symMap h hlt
    unfold memoSyms
    cases e : symMap.lookup a with
    | some s =>
      obtain ⟨symMap', g', e1, h1, h2, h3, h4⟩ := ih h hlt
      refine ⟨symMap', g', e1, ⟨h1.old, ?_, ?_, h1.inj, ?_⟩, h2, h3, h4⟩
      · intro b hb
        rcases List.mem_cons.1 hb with rfl | hb
        · exact ⟨s, h1.old _ _ e⟩
        · exact h1.total b hb
      · intro b t hb
        rcases h1.new b t hb with h5 | ⟨h5, h6, h7⟩
        · exact .inl h5
        · exact .inr ⟨h5, by simp [h6], h7⟩
      · intro t h5 h6
        obtain ⟨b, h7, h8⟩ := h1.surj t h5 h6
        exact ⟨b, by simp [h7], h8⟩
    | none =>
      dsimp only
      have hlook : ∀ b, ((a, st.cfg.numSyms) :: symMap).lookup b =
          if b = a then some st.cfg.numSyms else symMap.lookup b := by
        intro b
        by_cases eb : b = a
        · rw [if_pos eb, eb, List.lookup_cons_self]
        · rw [if_neg eb, List.lookup_cons, beq_eq_false_iff_ne.2 eb]
      obtain ⟨symMap', g', e1, h1, h2, h3, h4⟩ := ih (symMap := (a, st.cfg.numSyms) :: symMap)
        h.fresh (by
          intro b s hb
          show s < st.cfg.numSyms + 1
          rw [hlook] at hb
          split at hb
          · cases hb; omega
          · have := hlt b s hb; omega)
      have hn : ({ st with cfg := (st.cfg.nextSym none).2 } : LoadState).cfg.numSyms =
        st.cfg.numSyms + 1 := rfl
      rw [hn] at h1 h3
      have hle : st.cfg.numSyms + 1 ≤ g'.numSyms := h4.syms
      have hself : symMap'.lookup a = some st.cfg.numSyms :=
        h1.old _ _ (by rw [hlook, if_pos rfl])
      refine ⟨symMap', g', e1, ⟨?_, ?_, ?_, ?_, ?_⟩, h2, ?_, ?_⟩
      · intro b s hb
        refine h1.old b s ?_
        rw [hlook, if_neg, hb]
        rintro rfl
        rw [e] at hb; cases hb
      · intro b hb
        rcases List.mem_cons.1 hb with rfl | hb
        · exact ⟨_, hself⟩
        · exact h1.total b hb
      · intro b s hb
        rcases h1.new b s hb with h5 | ⟨h5, h6, h7, h8⟩
        · rw [hlook] at h5
          split at h5
          · rename_i eb
            cases h5
            exact .inr ⟨eb ▸ e, by simp [eb], Nat.le_refl _, hle⟩
          · exact .inl h5
        · rw [hlook] at h5
          split at h5
          · cases h5
          · exact .inr ⟨h5, by simp [h6], by omega, h8⟩
      · intro b c s hb hc hs
        by_cases es : s = st.cfg.numSyms
        · have key : ∀ b, symMap'.lookup b = some st.cfg.numSyms → b = a := by
            intro b hb
            rcases h1.new b _ hb with h5 | ⟨_, _, h7, _⟩
            · rw [hlook] at h5
              split at h5
              · assumption
              · exact absurd (hlt _ _ h5) (Nat.lt_irrefl _)
            · omega
          rw [es] at hb hc
          rw [key b hb, key c hc]
        · exact h1.inj b c s hb hc (by omega)
      · intro s h5 h6
        by_cases es : s = st.cfg.numSyms
        · exact ⟨a, by simp, e, es ▸ hself⟩
        · obtain ⟨b, h7, h8, h9⟩ := h1.surj s (by omega) h6
          rw [hlook] at h8
          split at h8
          · cases h8
          · exact ⟨b, by simp [h7], h8, h9⟩
      · refine h3.extraCongr ?_
        intro s
        by_cases hs : s ∈ extra
        · simp [hs]
        · simp only [List.mem_append, List.mem_cons, List.mem_range'_1, hs, or_false, false_or]
          omega
      · simpa using (LoadInv.Grows.fresh st).trans h4

theorem remapNames_ok {map : Sym → Res Sym} {φ : Sym → Sym} (s : SymbolSource)
    (hm : ∀ a, a < s.names.length → map a = .ok (φ a)) : ∃ s', s.remapSymbols map = .ok s' := by
  have key : ∀ (l : List (Option String)) (k : Nat) (acc : List (Option String)),
      k + l.length ≤ s.names.length → ∃ out, (l.zipIdx k).foldlM (m := Res)
        (fun acc (x : Option String × Nat) => do .ok (SymbolSource.placeName acc (← map x.2) x.1))
          acc = .ok out := by
    intro l
    induction l with
    | nil => intro k acc _; exact ⟨acc, rfl⟩
    | cons x l ih =>
      intro k acc hk
      rw [List.length_cons] at hk
      obtain ⟨out, e⟩ := ih (k + 1) (SymbolSource.placeName acc (φ k) x) (by omega)
      refine ⟨out, ?_⟩
      rw [List.zipIdx_cons, List.foldlM_cons]
      simp only [hm k (by omega), Res.bind_ok]
      exact e
  obtain ⟨out, e⟩ := key s.names 0 [] (by omega)
  exact ⟨⟨s.numSyms, out⟩, by unfold SymbolSource.remapSymbols; rw [e]; rfl⟩

theorem remap_ok {r : Cfg} {map : Sym → Res Sym} {φ : Sym → Sym} (hwf : r.WF)
    (hm : ∀ a, a < r.numSyms → map a = .ok (φ a)) (hl : r.rhsLenInvariant = none)
    (hw : r.wrappedRoots = []) (hn : r.src.names.length = r.numSyms)
    (hr : ∀ s ∈ r.roots, s < r.numSyms) :
    ∃ q, (Remap.new r).remapSymbols map = .ok q ∧ q.g.rules.Perm (r.rules.map (·.rename φ)) ∧
      q.g.roots = r.roots.map φ := by
  obtain ⟨s', e⟩ := remapNames_ok r.src (fun a ha => hm a (hn ▸ ha))
  refine ⟨⟨{ r with
    src := s'
    rules := r.rules.filter (fun r => decide (r.rename φ = r)) ++
      (r.rules.filter (fun r => !decide (r.rename φ = r))).map (·.rename φ)
    roots := r.roots.map φ
    wrappedRoots := [] }, (Remap.new r).mapping⟩, ?_, filter_rename_perm φ _, rfl⟩
  unfold Remap.remapSymbols
  rw [show (Remap.new r).g = r from rfl, remapRules_spec hm _ hwf]
  simp only [Res.bind_ok]
  rw [addRules_same _ (by intro n hn; rw [show r.rhsLenInvariant = some n from hn] at hl; cases hl)]
  simp only [Res.bind_ok]
  rw [mapM_ok (g := φ) fun a ha => hm a (hr a ha), hw, e]
  rfl

namespace AdvInv

variable {st : State} {reps : List RepSym} {aux : List Sym} {done : List (Sym × List Piece)}
  {res : List (Sym × Hir)}

theorem splice (p : Profile) (h : AdvInv st reps aux done res) {hir : Hir} (hp : hir.Plain)
    {r : Cfg} {m : LexerMap} (e : cfgFromHir p hir = .ok (r, m)) :
    ∃ s st' aux' rs, st.splice r m = .ok (s, st') ∧
      AdvInv st' reps (aux ++ aux') (done ++ rs) (res ++ [(s, hir)]) ∧
      (∀ d ∈ rs, d.1 ∈ aux') ∧
      (s ∈ aux ++ aux' ∨ IsClass st'.classes s) ∧
      Ext st st' [] (hir.letters.map Letter.ranges) ∧
      st'.lexIntern = st.lexIntern ∧ st'.lexical = st.lexical := by
  obtain ⟨r', m', root, e', hwf, hroots, hroot, hproper, hasc, hterm, hletters, hlang⟩ :=
    cfgFromHir_spec p hp
  rw [e] at e'
  cases e'
  obtain ⟨hlim, hwr, hnames, hhist⟩ := cfgFromHir_made p e
  -- the classes
  obtain ⟨pairs, st₁, e1, h₁, hx₁, hpairs, hi₁, hl₁⟩ := h.classSyms m.classes []
  rw [List.append_nil] at e1
  have hmc : ClassInv m.classes := ⟨hasc.imp Translator.classLt_iff.2, hproper.1⟩
  have hpair : ∀ a s, pairs.reverse.lookup a = some s →
      ∃ k, (k, a) ∈ m.classes ∧ (k, s) ∈ st₁.classes := by
    intro a s hl
    have := List.mem_reverse.1 (lookup_some_mem hl)
    obtain ⟨⟨k, b⟩, h1, h2, h3⟩ := forall₂_right hpairs this
    dsimp only at h2 h3
    rw [h2]
    exact ⟨k, h1, h3⟩
  have hkey : ∀ k a, (k, a) ∈ m.classes → ∃ s, pairs.reverse.lookup a = some s ∧
      (k, s) ∈ st₁.classes := by
    intro k a hk
    obtain ⟨⟨b, s⟩, h1, h2, h3⟩ := forall₂_left hpairs hk
    dsimp only at h2 h3
    subst h2
    cases el : pairs.reverse.lookup b with
    | none =>
      exact absurd (List.mem_map_of_mem (f := Prod.fst) (List.mem_reverse.2 h1))
        (lookup_none_not_mem el)
    | some t =>
      obtain ⟨k', h4, h5⟩ := hpair b t el
      rw [hmc.sym hk h4]
      exact ⟨t, rfl, h5⟩
  -- the other symbols
  obtain ⟨symMap, g, e2, hmemo, hrules, h₂, hg₂⟩ := memoSyms_spec r.remapOrder
    (symMap := pairs.reverse) h₁.base (by
      intro a s hl
      obtain ⟨k, -, hk⟩ := hpair a s hl
      exact (h₁.class_lt ⟨k, hk⟩).1)
  have horder : ∀ a, a < r.numSyms → a ∈ r.remapOrder := by
    intro a ha
    unfold Cfg.remapOrder
    exact List.mem_append.2 (.inr (List.mem_range.2 (hnames ▸ ha)))
  have horder' : ∀ a ∈ r.remapOrder, a < r.numSyms := by
    intro a ha
    unfold Cfg.remapOrder at ha
    rw [hwr, hroots, hnames] at ha
    simp only [List.flatMap_nil, List.append_nil, List.mem_append, List.mem_flatMap, List.mem_cons,
      List.mem_range, List.not_mem_nil, or_false] at ha
    rcases ha with (⟨q, hq, rfl | ha⟩ | rfl) | ha
    · exact (hwf q hq).1
    · exact (hwf q hq).2 a ha
    · exact hroot
    · exact ha
  obtain ⟨φ, hφ⟩ : ∃ φ : Sym → Sym, ∀ a, a < r.numSyms → symMap.lookup a = some (φ a) := by
    refine ⟨fun a => (symMap.lookup a).getD 0, fun a ha => ?_⟩
    obtain ⟨s, hs⟩ := hmemo.total a (horder a ha)
    dsimp only
    rw [hs]; rfl
  have hclass : ∀ k a, (k, a) ∈ m.classes → (k, φ a) ∈ st₁.classes := by
    intro k a hk
    obtain ⟨s, h1, h2⟩ := hkey k a hk
    have := hmemo.old _ _ h1
    rw [hφ a ((hterm a).2 ⟨k, hk⟩).1] at this
    cases this
    exact h2
  have hother : ∀ a, a < r.numSyms → ¬ IsClass m.classes a →
      st₁.base.cfg.numSyms ≤ φ a ∧ φ a < g.numSyms := by
    intro a ha hno
    rcases hmemo.new _ _ (hφ a ha) with h1 | ⟨-, -, h3⟩
    · obtain ⟨k, hk, -⟩ := hpair _ _ h1
      exact absurd ⟨k, hk⟩ hno
    · exact h3
  have hinj : ∀ a b, a < r.numSyms → b < r.numSyms → ¬ IsClass m.classes a → φ a = φ b → a = b := by
    intro a b ha hb hno he
    refine hmemo.inj a b (φ a) (hφ a ha) ?_ (hother a ha hno).1
    rw [he]; exact hφ b hb
  have hprodno : ∀ q ∈ r.rules, ¬ IsClass m.classes q.lhs := by
    rintro q hq ⟨k, hk⟩
    exact ((hterm q.lhs).2 ⟨k, hk⟩).2 q hq rfl
  have hlt : ∀ a, a < r.numSyms → IsClass st₁.classes (φ a) ∨
      (st₁.base.cfg.numSyms ≤ φ a ∧ φ a < g.numSyms) := by
    intro a ha
    by_cases hc : IsClass m.classes a
    · obtain ⟨k, hk⟩ := hc
      exact .inl ⟨k, hclass k a hk⟩
    · exact .inr (hother a ha hc)
  -- the remapped grammar
  obtain ⟨q, e3, hperm, hqroots⟩ := remap_ok (r := r) (φ := φ)
    (map := fun sym => Res.ofOption (symMap.lookup sym)) hwf
    (fun a ha => by rw [hφ a ha]; rfl) hlim hwr hnames (by rw [hroots]; simpa using hroot)
  rw [hroots] at hqroots
  have hqr : ∀ d ∈ q.g.rules, ∃ c ∈ r.rules, c.rename φ = d := by
    intro d hd
    exact List.mem_map.1 (hperm.mem_iff.1 hd)
  have hqr' : ∀ c ∈ r.rules, c.rename φ ∈ q.g.rules := fun c hc =>
    hperm.mem_iff.2 (List.mem_map_of_mem hc)
  -- the extended grammar
  have hext : ∀ s, s ∈ aux ++ st₁.classes.map Prod.snd ++
      List.range' st₁.base.cfg.numSyms (g.numSyms - st₁.base.cfg.numSyms) →
      s < g.numSyms ∧ ¬ IsRep reps s := fun s hs => h₂.apart s hs
  have hle : st₁.base.cfg.numSyms ≤ g.numSyms := hg₂.syms
  have hφok : ∀ a, a < r.numSyms → φ a < g.numSyms ∧ ¬ IsRep reps (φ a) := by
    intro a ha
    refine hext _ ?_
    rcases hlt a ha with h1 | h1
    · exact List.mem_append.2 (.inl (mem_extra.2 (.inr h1)))
    · exact List.mem_append.2 (.inr (List.mem_range'_1.2 (by omega)))
  have h₃ := h₂.plain q.g.rules (by
    intro d hd
    obtain ⟨c, hc, rfl⟩ := hqr d hd
    refine ⟨hφok _ (hwf c hc).1, fun s hs => ?_⟩
    obtain ⟨t, ht, rfl⟩ := List.mem_map.1 hs
    exact hφok _ ((hwf c hc).2 t ht))
  let rs : List (Sym × List Piece) := q.g.rules.map fun d => (d.lhs, d.rhs.map fun s => ⟨s, none⟩)
  let aux' := List.range' st₁.base.cfg.numSyms (g.numSyms - st₁.base.cfg.numSyms)
  have hrs : ∀ A ps, (A, ps) ∈ rs ↔ ∃ c ∈ r.rules, A = φ c.lhs ∧
      ps = (c.rhs.map φ).map fun s => ⟨s, none⟩ := by
    intro A ps
    constructor
    · intro hm
      obtain ⟨d, hd, ed⟩ := List.mem_map.1 hm
      obtain ⟨c, hc, rfl⟩ := hqr d hd
      cases ed
      exact ⟨c, hc, rfl, rfl⟩
    · rintro ⟨c, hc, rfl, rfl⟩
      exact List.mem_map.2 ⟨_, hqr' c hc, rfl⟩
  have hrsaux : ∀ A ps, (A, ps) ∈ rs → A ∈ aux' := by
    intro A ps hm
    obtain ⟨c, hc, rfl, -⟩ := (hrs A ps).1 hm
    have := hother _ (hwf c hc).1 (hprodno c hc)
    exact List.mem_range'_1.2 (by omega)
  have hauxge : ∀ s ∈ aux', st₁.base.cfg.numSyms ≤ s := fun s hs => (List.mem_range'_1.1 hs).1
  have hauxno : ∀ s ∈ aux', s ∉ aux ∧ ¬ IsClass st₁.classes s := by
    intro s hs
    have := hauxge s hs
    exact ⟨fun h1 => by have := (h₁.aux_lt h1).1; omega,
      fun h1 => by have := (h₁.class_lt h1).1; omega⟩
  have hauxdone : ∀ s ∈ aux', ∀ ps, (s, ps) ∉ done := by
    intro s hs ps hm
    have := hauxge s hs
    have := (h₁.base.g.lhs _ _ hm).1
    omega
  have hreg : RegInv st₁.classes aux (done ++ rs) res := by
    refine h₁.reg.mono h₁.cls (fun _ h => h) (fun e he => List.mem_append.2 (.inl he)) ?_
      (fun _ h => .inl h)
    intro A ps hm
    rcases List.mem_append.1 hm with hm | hm
    · exact .inl hm
    · exact .inr (hauxno A (hrsaux A ps hm))
  have hsdone : ∀ s ∈ aux', ∃ a, a < r.numSyms ∧ ¬ IsClass m.classes a ∧ φ a = s := by
    intro s hs
    have hs := List.mem_range'_1.1 hs
    obtain ⟨a, h1, h2, h3⟩ := hmemo.surj s hs.1 (by omega)
    refine ⟨a, horder' a h1, ?_, ?_⟩
    · rintro ⟨k, hk⟩
      obtain ⟨t, ht, -⟩ := hkey k a hk
      rw [h2] at ht; cases ht
    · rw [hφ a (horder' a h1)] at h3
      exact Option.some.inj h3
  have hrename : ∀ w, InLang (pieceProd (done ++ rs)) (IsClass st₁.classes) (φ root) w ↔
      ∃ v, InLang r.prod r.Term root v ∧ w = v.map φ ∧ ∀ s ∈ v, s < r.numSyms := by
    intro w
    refine inLang_rename (fun a => a < r.numSyms) φ ?_ ?_ ?_ hroot
    · rintro A α hA ⟨c, hc, rfl, rfl⟩
      exact (hwf c hc).2
    · intro A β hA
      constructor
      · rintro ⟨ps, hm, parts, hparts, rfl⟩
        rcases List.mem_append.1 hm with hm | hm
        · rcases hlt A hA with h1 | h1
          · exact absurd hm (h₁.reg.idle _ _ h1)
          · have := (h₁.base.g.lhs _ _ hm).1
            omega
        · obtain ⟨c, hc, h1, rfl⟩ := (hrs _ _).1 hm
          have := hinj _ _ (hwf c hc).1 hA (hprodno c hc) h1.symm
          subst this
          refine ⟨c.rhs, ⟨c, hc, rfl, rfl⟩, ?_⟩
          rw [PieceInv.plain_means.1 hparts, PieceInv.flatten_single]
      · rintro ⟨α, ⟨c, hc, rfl, rfl⟩, rfl⟩
        refine ⟨_, List.mem_append.2 (.inr ((hrs _ _).2 ⟨c, hc, rfl, rfl⟩)), _,
          PieceInv.plain_means.2 rfl, ?_⟩
        rw [PieceInv.flatten_single]
    · intro a ha
      rw [hterm]
      constructor
      · rintro ⟨k, hk⟩
        by_contra hno
        have := (hother a ha hno).1
        have := (h₁.class_lt ⟨k, hk⟩).1
        omega
      · rintro ⟨k, hk⟩
        exact ⟨k, hclass k a hk⟩
  have hroot' : φ root ∈ aux ++ aux' ∨ IsClass st₁.classes (φ root) := by
    rcases hlt root hroot with h1 | h1
    · exact .inr h1
    · exact .inl (List.mem_append.2 (.inr (List.mem_range'_1.2 (by omega))))
  have hknown : ∀ l ∈ hir.letters, ∃ c, (l.ranges, c) ∈ st₁.classes := by
    intro l hl
    obtain ⟨a, ha⟩ := (hletters l.ranges).2 ⟨l, hl, rfl⟩
    exact ⟨φ a, hclass _ _ ha⟩
  have hregs := hreg.add (aux' := aux') (s := φ root) (hir := hir) (fun s hs => (hauxno s hs).2)
    (by
      intro A ps hm hA qp hq
      rcases List.mem_append.1 hm with hm | hm
      · exact absurd hm (hauxdone A hA ps)
      · obtain ⟨c, hc, -, rfl⟩ := (hrs _ _).1 hm
        obtain ⟨s, hs, rfl⟩ := List.mem_map.1 hq
        obtain ⟨t, ht, rfl⟩ := List.mem_map.1 hs
        refine ⟨rfl, ?_⟩
        rcases hlt t ((hwf c hc).2 t ht) with h1 | h1
        · exact .inr h1
        · exact .inl (List.mem_append.2 (.inr (List.mem_range'_1.2 (by dsimp only; omega)))))
    (by
      intro A hA
      obtain ⟨a, ha, hno, rfl⟩ := hsdone A hA
      have hnt : ¬ r.Term a := fun ht => hno ((hterm a).1 ht)
      unfold Cfg.Term at hnt
      have : ∃ c ∈ r.rules, c.lhs = a := by
        by_contra hcon
        exact hnt ⟨ha, fun c hc he => hcon ⟨c, hc, he⟩⟩
      obtain ⟨c, hc, rfl⟩ := this
      exact ⟨_, List.mem_append.2 (.inr ((hrs _ _).2 ⟨c, hc, rfl, rfl⟩))⟩)
    hroot' hknown (by
      intro w
      rw [hrename]
      constructor
      · rintro ⟨v, h1, rfl, -⟩
        obtain ⟨ls, h2, h3⟩ := (hlang v).1 h1
        refine ⟨ls, h2, ?_⟩
        unfold SpellsLetters
        clear h1 h2
        induction h3 with
        | nil => exact .nil
        | cons h4 _ ih => exact .cons (hclass _ _ h4) ih
      · rintro ⟨ls, h2, h3⟩
        have hl := matches_letters hir ls h2
        have hv : ∃ v, List.Forall₂ (fun l s => (l.ranges, s) ∈ m.classes) ls v ∧ w = v.map φ := by
          clear h2
          unfold SpellsLetters at h3
          induction h3 with
          | nil => exact ⟨[], .nil, rfl⟩
          | @cons l k ls w h4 _ ih =>
            obtain ⟨v, h5, rfl⟩ := ih fun a ha => hl a (by simp [ha])
            obtain ⟨a, ha⟩ := (hletters l.ranges).2 ⟨l, hl l (by simp), rfl⟩
            refine ⟨a :: v, .cons ha h5, ?_⟩
            rw [List.map_cons, h₁.cls.key h4 (hclass _ _ ha)]
        obtain ⟨v, h4, rfl⟩ := hv
        refine ⟨v, (hlang v).2 ⟨ls, h2, h4⟩, rfl, ?_⟩
        intro s hs
        obtain ⟨l, -, h5⟩ := forall₂_right h4 hs
        exact ((hterm s).2 ⟨_, h5⟩).1)
  have hsteps : LoadInv.Grows st₁.base { st₁.base with cfg := g.extend q.g } [] := by
    have := hg₂.trans (LoadInv.Grows.plain { st₁.base with cfg := g } q.g.rules (by
      intro d hd
      obtain ⟨c, hc, rfl⟩ := hqr d hd
      exact hhist c hc))
    rw [List.append_nil] at this
    exact this
  refine ⟨φ root, { st₁ with base := { st₁.base with cfg := g.extend q.g } }, aux', rs, ?_,
    ⟨?_, h₁.cls, hregs, ?_⟩, fun d hd => hrsaux d.1 d.2 hd, hroot', ?_, hi₁, hl₁⟩
  · unfold State.splice
    rw [e1]
    dsimp only
    rw [e2]
    dsimp only
    rw [e3, Res.bind_ok, hqroots]
    rfl
  · refine h₃.extraCongr ?_
    intro s
    simp only [List.mem_append]
    constructor
    · rintro ((h | h) | h)
      · exact .inl (.inl h)
      · exact .inr h
      · exact .inl (.inr h)
    · rintro ((h | h) | h)
      · exact .inl (.inl h)
      · exact .inr h
      · exact .inl (.inr h)
  · intro s hs
    have := h₁.unnamed s hs
    obtain ⟨more, en⟩ := hsteps.steps.namesPre
    rw [en, List.getElem?_append_left (List.getElem?_eq_some_iff.1 this).1, this]
  · refine ⟨by simpa using hx₁.base.trans hsteps, hx₁.classes, fun k => ?_, hx₁.lhsInParser, hx₁.actions⟩
    have hk := hx₁.keys k
    refine hk.trans (or_congr Iff.rfl ?_)
    rw [List.mem_map, List.mem_map]
    constructor
    · rintro ⟨⟨k', a⟩, h1, rfl⟩
      obtain ⟨l, h2, h3⟩ := (hletters k').1 ⟨a, h1⟩
      exact ⟨l, h2, h3⟩
    · rintro ⟨l, h2, rfl⟩
      obtain ⟨a, ha⟩ := (hletters l.ranges).2 ⟨l, h2, rfl⟩
      exact ⟨_, ha, rfl⟩

end AdvInv

end Verif.Advanced
