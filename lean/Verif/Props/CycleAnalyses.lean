import Verif.Props.CycleTerminals
import Verif.Props.SplitAnalyses

/-! # Property C152: analyses of a grammar whose cycles are rewritten -/

namespace Verif

open Cycles Cfg BitMatrix

/-- What rewriting does to a grammar where the symbols on cycles are productive: `τ` replaces the
symbols on cycles by their representatives. -/
structure Collapsed (g g' : Cfg) (τ : Sym → Sym) : Prop where
  wf : g.WF
  wf' : g'.WF
  syms : g'.numSyms = g.numSyms
  /-- A symbol and its representative derive each other. -/
  both : ∀ s, Der g.prod [s] [τ s] ∧ Der g.prod [τ s] [s]
  fixed : ∀ s, g.Term s → τ s = s
  fore : ∀ A α, g.prod A α → Der g'.prod [τ A] (α.map τ)
  back : ∀ A α, g'.prod A α → Der g.prod [A] α
  lt : ∀ s, s < g.numSyms → τ s < g.numSyms
  term : ∀ s, s < g.numSyms → (g'.Term (τ s) ↔ g.Term s)
  term' : ∀ s, g'.Used s → (g'.Term s ↔ g.Term s)
  used : ∀ s, s < g.numSyms → (g'.Used (τ s) ↔ g.Used s)
  len : ∀ r ∈ g'.rules, ∃ q ∈ g.rules, r.rhs.length = q.rhs.length

namespace Collapsed

variable {g g' : Cfg} {τ : Sym → Sym} (h : Collapsed g g' τ)
include h

theorem map_der {u v : List Sym} (d : Der g.prod u v) : Der g'.prod (u.map τ) (v.map τ) := by
  have e : ∀ α : List Sym, α.flatMap (fun a => [τ a]) = α.map τ := by
    intro α
    induction α with
    | nil => rfl
    | cons a α ih => rw [List.flatMap_cons, ih]; rfl
  have := Der.map (Q := g'.prod) (fun a => [τ a]) (fun A α hp => by rw [e]; exact h.fore A α hp) d
  rwa [e, e] at this

theorem der_back {s : Sym} {v : List Sym} (d : Der g'.prod [τ s] v) : Der g.prod [s] v :=
  (h.both s).1.trans (d.mono' h.back)

theorem lhs_iff {s : Sym} (hs : s < g.numSyms) :
    (∃ r ∈ g'.rules, r.lhs = τ s) ↔ ∃ r ∈ g.rules, r.lhs = s := by
  have h1 : ∀ (q : Cfg) (t : Sym), t < q.numSyms → ((∃ r ∈ q.rules, r.lhs = t) ↔ ¬ q.Term t) := by
    intro q t ht
    constructor
    · rintro ⟨r, hr, e⟩ hT; exact hT.2 r hr e
    · intro hT
      by_contra hh
      exact hT ⟨ht, fun r hr e => hh ⟨r, hr, e⟩⟩
  rw [h1 _ _ (by rw [h.syms]; exact h.lt s hs), h1 _ _ hs, h.term s hs]

omit h in
theorem der_used {u v : List Sym} (d : Der g'.prod u v) : ∀ a ∈ v, a ∈ u ∨ g'.Used a := by
  induction d with
  | nil => simp
  | keep a _ ih =>
    intro b hb
    rcases List.mem_cons.1 hb with rfl | hb
    · exact .inl (by simp)
    · rcases ih b hb with hh | hh
      · exact .inl (by simp [hh])
      · exact .inr hh
  | expand hp _ _ ih1 ih2 =>
    intro b hb
    rcases List.mem_append.1 hb with hb | hb
    · rcases ih1 b hb with hh | hh
      · obtain ⟨r, hr, -, rfl⟩ := hp
        exact .inr ⟨r, hr, .inr hh⟩
      · exact .inr hh
    · rcases ih2 b hb with hh | hh
      · exact .inl (by simp [hh])
      · exact .inr hh

/-- Terminals found in strings derived from `τ s`, `s` a left side, were terminals. -/
theorem term_back {s : Sym} (hs : s < g.numSyms) {v : List Sym} (d : Der g'.prod [τ s] v)
    {a : Sym} (ha : a ∈ v) (hT : g'.Term a) (hl : ¬ g.Term s) : g.Term a := by
  rcases der_used d a ha with hh | hh
  · obtain rfl := List.mem_singleton.1 hh
    exact (hl ((h.term s hs).1 hT)).elim
  · exact (h.term' a hh).1 hT

theorem term_fore {a : Sym} (hT : g.Term a) : g'.Term a := by
  have := (h.term a hT.1).2 hT
  rwa [h.fixed a hT] at this

theorem first_iff {s : Sym} (hs : s < g.numSyms) (hl : ¬ g.Term s) (a : Sym) :
    FirstOf g'.prod g'.Term [τ s] a ↔ FirstOf g.prod g.Term [s] a := by
  constructor
  · rintro ⟨hT, γ, d⟩
    rw [derives_iff_der] at d
    exact ⟨h.term_back hs d (by simp) hT hl, γ, derives_iff_der.2 (h.der_back d)⟩
  · rintro ⟨hT, γ, d⟩
    refine ⟨h.term_fore hT, γ.map τ, derives_iff_der.2 ?_⟩
    have := h.map_der (derives_iff_der.1 d)
    simp only [List.map_cons, List.map_nil, h.fixed a hT] at this
    exact this

theorem last_iff {s : Sym} (hs : s < g.numSyms) (hl : ¬ g.Term s) (a : Sym) :
    LastOf g'.prod g'.Term [τ s] a ↔ LastOf g.prod g.Term [s] a := by
  constructor
  · rintro ⟨hT, γ, d⟩
    rw [derives_iff_der] at d
    exact ⟨h.term_back hs d (by simp) hT hl, γ, derives_iff_der.2 (h.der_back d)⟩
  · rintro ⟨hT, γ, d⟩
    refine ⟨h.term_fore hT, γ.map τ, derives_iff_der.2 ?_⟩
    have := h.map_der (derives_iff_der.1 d)
    simp only [List.map_append, List.map_cons, List.map_nil, h.fixed a hT] at this
    exact this

theorem nullable_iff (s : Sym) : Derives g'.prod [τ s] [] ↔ Derives g.prod [s] [] := by
  rw [derives_iff_der, derives_iff_der]
  exact ⟨h.der_back, fun d => by simpa using h.map_der d⟩

theorem follow_iff {s : Sym} (a : Sym) :
    FollowOf g'.prod g'.Term (τ s) a ↔ FollowOf g.prod g.Term s a := by
  constructor
  · rintro ⟨hT, B, α, γ, d⟩
    rw [derives_iff_der] at d
    have hu : g'.Used a := by
      rcases der_used d a (by simp) with hh | hh
      · obtain rfl := List.mem_singleton.1 hh
        -- a terminal derives only itself
        rcases Der.single_iff.1 d with e | ⟨β, ⟨r, hr, e, -⟩, -⟩
        · have := congrArg List.length e
          simp at this
          omega
        · exact (hT.2 r hr e).elim
      · exact hh
    refine ⟨(h.term' a hu).1 hT, B, α, γ, derives_iff_der.2 ((d.mono' h.back).trans ?_)⟩
    exact Der.append (.refl α) (Der.append (u₁ := [τ s]) (v₁ := [s]) (h.both s).2 (.refl _))
  · rintro ⟨hT, B, α, γ, d⟩
    refine ⟨h.term_fore hT, τ B, α.map τ, γ.map τ, derives_iff_der.2 ?_⟩
    have := h.map_der (derives_iff_der.1 d)
    simp only [List.map_append, List.map_cons, List.map_nil, h.fixed a hT] at this
    exact this

theorem lang_iff {s : Sym} (hs : s < g.numSyms) (w : List Sym) :
    g'.Lang (τ s) w ↔ g.Lang s w := by
  constructor
  · rintro ⟨d, hw⟩
    rw [derives_iff_der] at d
    refine ⟨derives_iff_der.2 (h.der_back d), fun a ha => ?_⟩
    by_cases hl : g.Term s
    · rcases der_used d a ha with hh | hh
      · rw [h.fixed s hl] at hh
        rw [List.mem_singleton.1 hh]; exact hl
      · exact (h.term' a hh).1 (hw a ha)
    · exact h.term_back hs d ha (hw a ha) hl
  · rintro ⟨d, hw⟩
    have := h.map_der (derives_iff_der.1 d)
    rw [List.map_congr_left (g := id) fun a ha => h.fixed a (hw a ha), List.map_id] at this
    exact ⟨derives_iff_der.2 this, fun a ha => h.term_fore (hw a ha)⟩

theorem productive_iff {s : Sym} (hs : s < g.numSyms) :
    Productive g'.prod g'.Term (τ s) ↔ Productive g.prod g.Term s :=
  exists_congr fun w => h.lang_iff hs w

theorem reaches_iff (a b : Sym) : Reaches g'.prod (τ a) (τ b) ↔ Reaches g.prod a b := by
  constructor
  · rintro ⟨p, s, d⟩
    refine ⟨p, s, derives_iff_der.2 ((h.der_back (derives_iff_der.1 d)).trans ?_)⟩
    exact Der.append (.refl p) (Der.append (u₁ := [τ b]) (v₁ := [b]) (h.both b).2 (.refl _))
  · rintro ⟨p, s, d⟩
    refine ⟨p.map τ, s.map τ, derives_iff_der.2 ?_⟩
    simpa using h.map_der (derives_iff_der.1 d)

end Collapsed

/-- Rewriting the cycles of a grammar whose symbols on cycles are productive. -/
theorem collapsed_of {g : Cfg} (hwf : g.WF) (hlen : ∀ n, g.rhsLenInvariant = some n →
      2 ≤ n ∧ ∀ r ∈ g.rules, r.rhs.length ≤ n)
    (hprod : ∀ s, UnitChain g.prod s s → Productive g.prod g.Term s) :
    ∃ c c', Cycles.new g = .ok c ∧ c.rewriteCycles = .ok c' ∧
      ∃ τ : Sym → Sym,
        (∀ s, ¬ UnitChain g.prod s s → τ s = s) ∧
        (∀ s, UnitChain g.prod s s → ∃ r pre post, g.rules = pre ++ r :: post ∧
          CycleRule g.prod r.lhs r.rhs ∧ SameCycle g.prod r.lhs s ∧ τ s = r.lhs ∧
          ∀ r' ∈ pre, ¬ (CycleRule g.prod r'.lhs r'.rhs ∧ SameCycle g.prod r'.lhs s)) ∧
        Collapsed g c'.grammar τ := by
  obtain ⟨c, c', h1, h2, τ, h3, h4, h5⟩ := C149_rules hwf hlen
  obtain ⟨d, d', k1, k2, σ, k3, k4, hused, hterm, hT⟩ := C151_rewritten_partial hwf hlen
  obtain rfl : c = d := Res.ok.inj (h1.symm.trans k1)
  obtain rfl : c' = d' := Res.ok.inj (h2.symm.trans k2)
  obtain rfl : σ = τ := by
    funext s
    by_cases hc : UnitChain g.prod s s
    · obtain ⟨r, pre, post, e, hr, hs, ht, hp⟩ := h4 s hc
      obtain ⟨r', pre', post', e', hr', hs', ht', hp'⟩ := k4 s hc
      rw [ht, ht', first_unique (e.symm.trans e') (p := fun q => CycleRule g.prod q.lhs q.rhs ∧
        SameCycle g.prod q.lhs s) ⟨hr, hs⟩ ⟨hr', hs'⟩ hp hp']
    · rw [h3 s hc, k3 s hc]
  have hsame : ∀ s t, SameCycle g.prod s t → σ s = σ t := by
    intro s t hst
    obtain ⟨r, pre, post, e, hr, hs, ht, hp⟩ := h4 s (hst.1.trans hst.2)
    obtain ⟨r', pre', post', e', hr', hs', ht', hp'⟩ := h4 t (hst.2.trans hst.1)
    rw [ht, ht', first_unique (e.symm.trans e') (p := fun q => CycleRule g.prod q.lhs q.rhs ∧
      SameCycle g.prod q.lhs s) ⟨hr, hs⟩ ⟨hr', SameCycle.trans hs' hst.symm⟩ hp
      fun x hx hh => hp' x hx ⟨hh.1, SameCycle.trans hh.2 hst⟩]
  have hcyc : ∀ s, UnitChain g.prod s s → SameCycle g.prod (σ s) s := by
    intro s hs
    obtain ⟨r, -, -, -, -, h, e, -⟩ := h4 s hs
    rw [e]; exact h
  have hboth : ∀ s, Der g.prod [s] [σ s] ∧ Der g.prod [σ s] [s] := by
    intro s
    by_cases hc : UnitChain g.prod s s
    · exact ⟨(hcyc s hc).2.der, (hcyc s hc).1.der⟩
    · rw [h3 s hc]; exact ⟨.refl _, .refl _⟩
  have hall : ∀ α : List Sym, Der g.prod α (α.map σ) := by
    intro α
    induction α with
    | nil => exact .nil
    | cons a α ih => exact Der.append (u₁ := [a]) (v₁ := [σ a]) (hboth a).1 ih
  have hm : ∀ q, q ∈ c'.grammar.rules ↔
      ∃ r ∈ g.rules, ¬ CycleRule g.prod r.lhs r.rhs ∧ q = substRule σ r := by
    intro q
    rw [h5]
    simp only [List.mem_append, List.mem_map, List.mem_filter, decide_eq_true_iff]
    constructor
    · rintro (⟨hq, hc, e⟩ | ⟨r, ⟨hr, hc, -⟩, rfl⟩)
      · exact ⟨q, hq, hc, e.symm⟩
      · exact ⟨r, hr, hc, rfl⟩
    · rintro ⟨r, hr, hc, rfl⟩
      by_cases e : substRule σ r = r
      · left; rw [e]; exact ⟨hr, hc, e⟩
      · right; exact ⟨r, ⟨hr, hc, e⟩, rfl⟩
  have hn : c'.grammar.numSyms = g.numSyms := by rw [h5]; rfl
  have hlt : ∀ s, s < g.numSyms → σ s < g.numSyms := by
    intro s hs
    by_cases hc : UnitChain g.prod s s
    · obtain ⟨r, pre, post, e, -, -, e', -⟩ := h4 s hc
      rw [e']
      exact (hwf r (by rw [e]; simp)).1
    · rw [h3 s hc]; exact hs
  have hfix : ∀ s, g.Term s → σ s = s := by
    intro s hs
    refine h3 s fun hc => ?_
    obtain ⟨α, ⟨r', hr', e', -⟩, -⟩ := hc.rule
    exact hs.2 r' hr' e'
  refine ⟨c, c', h1, h2, σ, h3, h4, ?_⟩
  refine ⟨hwf, ?_, hn, hboth, hfix, ?_, ?_, hlt, ?_, hT hprod, ?_, fun q hq => ?_⟩
  · intro q hq
    obtain ⟨r, hr, -, rfl⟩ := (hm q).1 hq
    rw [hn]
    refine ⟨hlt _ (hwf r hr).1, fun s hs => ?_⟩
    obtain ⟨t, ht, rfl⟩ := List.mem_map.1 hs
    exact hlt _ ((hwf r hr).2 t ht)
  · rintro A α ⟨r, hr, rfl, rfl⟩
    by_cases hc : CycleRule g.prod r.lhs r.rhs
    · obtain ⟨B, e, hB⟩ := hc
      rw [e]
      have : σ r.lhs = σ B := by
        by_cases e' : r.lhs = B
        · rw [e']
        · exact hsame _ _ ⟨Relation.TransGen.single (r := UnitStep g.prod)
            ⟨⟨r, hr, rfl, e⟩, e'⟩, hB⟩
      rw [List.map_singleton, this]; exact .refl _
    · exact .prod ⟨_, (hm _).2 ⟨r, hr, hc, rfl⟩, rfl, rfl⟩
  · rintro A α ⟨q, hq, rfl, rfl⟩
    obtain ⟨r, hr, -, rfl⟩ := (hm q).1 hq
    exact (hboth r.lhs).2.trans ((Der.prod ⟨r, hr, rfl, rfl⟩).trans (hall r.rhs))
  · intro s hs
    by_cases ht : g.Term s
    · exact iff_of_true ((hterm s hs).2 (.inl ht)) ht
    · refine iff_of_false (fun hh => ?_) ht
      rcases (hterm s hs).1 hh with hh | ⟨hc, hx⟩
      · exact ht hh
      · exact cycle_exit hc (hprod s hc) hx
  · intro s hs
    constructor
    · intro hu
      obtain ⟨t, ht, e⟩ := hused _ hu
      by_cases hc : UnitChain g.prod s s
      · obtain ⟨α, ⟨r, hr, e', -⟩, -⟩ := hc.rule
        exact ⟨r, hr, .inl e'⟩
      · rw [h3 s hc] at e
        by_cases hc' : UnitChain g.prod t t
        · have := hcyc t hc'
          rw [← e] at this
          exact (hc (this.1.trans this.2)).elim
        · rw [h3 t hc'] at e
          rw [e]; exact ht
    · rintro ⟨r, hr, hu⟩
      by_cases hl : ∃ r ∈ g.rules, r.lhs = s
      · by_contra hn'
        have hnt : c'.grammar.Term (σ s) := ⟨by rw [hn]; exact hlt s hs,
          fun q hq e => hn' ⟨q, hq, .inl e⟩⟩
        obtain ⟨r, hr, e⟩ := hl
        rcases (hterm s hs).1 hnt with hh | ⟨hc, hx⟩
        · exact hh.2 r hr e
        · exact cycle_exit hc (hprod s hc) hx
      · rcases hu with hu | hu
        · exact (hl ⟨r, hr, hu⟩).elim
        · refine ⟨_, (hm _).2 ⟨r, hr, ?_, rfl⟩, .inr (List.mem_map_of_mem hu)⟩
          rintro ⟨B, e, hB⟩
          rw [e, List.mem_singleton] at hu
          subst hu
          obtain ⟨z, hz, -⟩ := hB.head
          obtain ⟨q, hq, e', -⟩ := hz.1
          exact hl ⟨q, hq, e'⟩
  · obtain ⟨r, hr, -, rfl⟩ := (hm q).1 hq
    exact ⟨r, hr, by simp [substRule]⟩

section

variable {g : Cfg} (hwf : g.WF) (hlen : ∀ n, g.rhsLenInvariant = some n →
    2 ≤ n ∧ ∀ r ∈ g.rules, r.rhs.length ≤ n)
  (hprod : ∀ s, UnitChain g.prod s s → Productive g.prod g.Term s)
include hwf hlen hprod

/-- **C152.** Let all symbols on cycles be productive and let `τ s` be the left side of the first
rule on a cycle through `s`, or `s` when there is none. After `rewrite_cycles` the FIRST, LAST and
FOLLOW sets of `τ s` are those that `s` had before, but for the mark of the end of input in FOLLOW
sets, which only symbols listed as roots have. -/
theorem C152_predict :
    ∃ c c', Cycles.new g = .ok c ∧ c.rewriteCycles = .ok c' ∧
      ∃ τ : Sym → Sym,
        (∀ s, ¬ UnitChain g.prod s s → τ s = s) ∧
        (∀ s, UnitChain g.prod s s → ∃ r pre post, g.rules = pre ++ r :: post ∧
          CycleRule g.prod r.lhs r.rhs ∧ SameCycle g.prod r.lhs s ∧ τ s = r.lhs ∧
          ∀ r' ∈ pre, ¬ (CycleRule g.prod r'.lhs r'.rhs ∧ SameCycle g.prod r'.lhs s)) ∧
        (∃ fs fs', g.firstSets = .ok fs ∧ c'.grammar.firstSets = .ok fs' ∧
          ∀ s < g.numSyms, fs'.map (τ s) = fs.map s) ∧
        (∃ m m', g.lastSets = .ok m ∧ c'.grammar.lastSets = .ok m' ∧
          ∀ s < g.numSyms, m' (τ s) = m s) ∧
        ∃ m m', g.followSets = .ok m ∧ c'.grammar.followSets = .ok m' ∧
          ∀ s < g.numSyms, (m' (τ s)).map SetVal.list = (m s).map SetVal.list := by
  obtain ⟨c, c', e1, e2, τ, e3, e4, hc⟩ := collapsed_of hwf hlen hprod
  have hl : ∀ s, (∃ r ∈ g.rules, r.lhs = s) → ¬ g.Term s := by
    rintro s ⟨r, hr, e⟩ hT; exact hT.2 r hr e
  refine ⟨c, c', e1, e2, τ, e3, e4, ?_, ?_, ?_⟩
  · obtain ⟨fs, h1, h2, h3⟩ := C41_first hwf
    obtain ⟨fs', k1, k2, k3⟩ := C41_first hc.wf'
    refine ⟨fs, fs', h1, k1, fun A hA => optVal_ext ?_ fun v w hv hw => ?_⟩
    · rw [h2, k2]; exact hc.lhs_iff hA
    · obtain ⟨v1, v2, v3⟩ := k3 _ v hv
      obtain ⟨w1, w2, w3⟩ := h3 A w hw
      exact setVal_ext v1 w1
        (fun a => by rw [v2, w2]; exact hc.first_iff hA (hl A ((h2 A).1 (by rw [hw]; rfl))) a)
        (by rw [v3, w3]; exact hc.nullable_iff A)
  · obtain ⟨fs, h1, h2, h3⟩ := C45_last hwf
    obtain ⟨fs', k1, k2, k3⟩ := C45_last hc.wf'
    refine ⟨fs, fs', h1, k1, fun A hA => optVal_ext ?_ fun v w hv hw => ?_⟩
    · rw [h2, k2]; exact hc.lhs_iff hA
    · obtain ⟨v1, v2, v3⟩ := k3 _ v hv
      obtain ⟨w1, w2, w3⟩ := h3 A w hw
      exact setVal_ext v1 w1
        (fun a => by rw [v2, w2]; exact hc.last_iff hA (hl A ((h2 A).1 (by rw [hw]; rfl))) a)
        (by rw [v3, w3]; exact hc.nullable_iff A)
  · obtain ⟨m, h1, h2, h3⟩ := C43_follow hwf
    obtain ⟨m', k1, k2, k3⟩ := C43_follow hc.wf'
    refine ⟨m, m', h1, k1, fun A hA => ?_⟩
    have hk := (k2 (τ A)).trans ((hc.lhs_iff hA).trans (h2 A).symm)
    cases hv : m' (τ A) with
    | none => cases hw : m A <;> simp_all
    | some v =>
      cases hw : m A with
      | none => simp_all
      | some w =>
        obtain ⟨v1, v2⟩ := k3 _ v hv
        obtain ⟨w1, w2⟩ := h3 A w hw
        have := setVal_ext (v := ⟨true, v.list⟩) (w := ⟨true, w.list⟩) v1 w1
          (fun a => by
            show a ∈ v.list ↔ a ∈ w.list
            rw [v2, w2]; exact hc.follow_iff a) Iff.rfl
        rw [Option.map_some, Option.map_some, (SetVal.mk.inj this).2]

/-- **C152.** In the same situation the analysis of usefulness, started from the representatives of
any roots, finds the representative of a symbol productive or reachable exactly when it found the
symbol so before, and the same symbols are reachable from each other. -/
theorem C152_usefulness {roots : List Sym} (hr : ∀ s ∈ roots, s < g.numSyms) :
    ∃ c c', Cycles.new g = .ok c ∧ c.rewriteCycles = .ok c' ∧
      ∃ τ : Sym → Sym,
        (∀ s, ¬ UnitChain g.prod s s → τ s = s) ∧
        (∀ s, UnitChain g.prod s s → ∃ r pre post, g.rules = pre ++ r :: post ∧
          CycleRule g.prod r.lhs r.rhs ∧ SameCycle g.prod r.lhs s ∧ τ s = r.lhs ∧
          ∀ r' ∈ pre, ¬ (CycleRule g.prod r'.lhs r'.rhs ∧ SameCycle g.prod r'.lhs s)) ∧
        ∃ u u', g.usefulnessWithRoots roots = .ok u ∧
          c'.grammar.usefulnessWithRoots (roots.map τ) = .ok u' ∧
          ∀ s < g.numSyms, (Has u'.productivity (τ s) ↔ Has u.productivity s) ∧
            (Has u'.reachableSyms (τ s) ↔ Has u.reachableSyms s) ∧
            ∀ t, BitMatrix.Bit u'.reachability (τ s) (τ t) ↔ BitMatrix.Bit u.reachability s t := by
  obtain ⟨c, c', e1, e2, τ, e3, e4, hc⟩ := collapsed_of hwf hlen hprod
  obtain ⟨u, h1, h2⟩ := usefulness_spec hwf roots hr
  obtain ⟨u', k1, k2⟩ := usefulness_spec hc.wf' (roots.map τ) fun s hs => by
    obtain ⟨t, ht, rfl⟩ := List.mem_map.1 hs
    rw [hc.syms]; exact hc.lt t (hr t ht)
  refine ⟨c, c', e1, e2, τ, e3, e4, u, u', h1, k1, fun s hs => ⟨?_, ?_, fun t => ?_⟩⟩
  · rw [h2.prod, k2.prod]; exact hc.productive_iff hs
  · rw [h2.reachable, k2.reachable, hc.used s hs, hc.syms]
    simp only [hs, hc.lt s hs, true_and]
    refine or_congr_left ⟨?_, ?_⟩
    · rintro ⟨q, hq, hh⟩
      obtain ⟨t, ht, rfl⟩ := List.mem_map.1 hq
      exact ⟨t, ht, (hc.reaches_iff t s).1 hh⟩
    · rintro ⟨t, ht, hh⟩
      exact ⟨τ t, List.mem_map_of_mem ht, (hc.reaches_iff t s).2 hh⟩
  · rw [h2.reach, k2.reach, hc.syms, hc.reaches_iff]
    simp only [hs, hc.lt s hs, true_and]

/-- **C152.** In the same situation the minimal lengths of sentences of the representatives are
those of the symbols before, in the range where they do not overflow. -/
theorem C152_lengths (K : Nat) (hK1 : 1 ≤ K)
    (hK : ∀ r ∈ g.rules, r.rhs.length ≤ K) (hb : K ^ (g.numSyms + 1) < 2 ^ 32) :
    ∃ c c', Cycles.new g = .ok c ∧ c.rewriteCycles = .ok c' ∧
      ∃ τ : Sym → Sym,
        (∀ s, ¬ UnitChain g.prod s s → τ s = s) ∧
        (∀ s, UnitChain g.prod s s → ∃ r pre post, g.rules = pre ++ r :: post ∧
          CycleRule g.prod r.lhs r.rhs ∧ SameCycle g.prod r.lhs s ∧ τ s = r.lhs ∧
          ∀ r' ∈ pre, ¬ (CycleRule g.prod r'.lhs r'.rhs ∧ SameCycle g.prod r'.lhs s)) ∧
        ∃ t t', g.minimalSentenceLengths (MinimalDistance.new g).minLength = .ok t ∧
          c'.grammar.minimalSentenceLengths (MinimalDistance.new c'.grammar).minLength = .ok t' ∧
          ∀ s < g.numSyms, t'[τ s]? = t[s]? := by
  obtain ⟨c, c', e1, e2, τ, e3, e4, hc⟩ := collapsed_of hwf hlen hprod
  obtain ⟨t, h1, h2, h3, -⟩ := C86_sentence_lengths hwf K hK1 hK hb
  obtain ⟨t', k1, k2, k3, -⟩ := C86_sentence_lengths hc.wf' K hK1 (fun r hr => by
    obtain ⟨q, hq, e⟩ := hc.len r hr
    rw [e]; exact hK q hq) (by rw [hc.syms]; exact hb)
  refine ⟨c, c', e1, e2, τ, e3, e4, t, t', h1, k1, fun s hs => ?_⟩
  have l1 : s < t.length := by omega
  have l2 : τ s < t'.length := by have := hc.lt s hs; have := hc.syms; omega
  have key : ∀ v, t'[τ s]?.join = some v ↔ t[s]?.join = some v := fun v => by
    rw [h3, k3]
    unfold Cfg.MinLen
    simp only [hc.lang_iff hs]
  rw [List.getElem?_eq_getElem l1, List.getElem?_eq_getElem l2] at key ⊢
  congr 1
  exact Option.ext key

/-- **C152.** In the same situation the language of the representative, over the terminals of the
new grammar, is the language of the symbol before, over the terminals it had then. -/
theorem C152_language :
    ∃ c c', Cycles.new g = .ok c ∧ c.rewriteCycles = .ok c' ∧
      ∃ τ : Sym → Sym,
        (∀ s, ¬ UnitChain g.prod s s → τ s = s) ∧
        (∀ s, UnitChain g.prod s s → ∃ r pre post, g.rules = pre ++ r :: post ∧
          CycleRule g.prod r.lhs r.rhs ∧ SameCycle g.prod r.lhs s ∧ τ s = r.lhs ∧
          ∀ r' ∈ pre, ¬ (CycleRule g.prod r'.lhs r'.rhs ∧ SameCycle g.prod r'.lhs s)) ∧
        ∀ s < g.numSyms, ∀ w, c'.grammar.Lang (τ s) w ↔ g.Lang s w := by
  obtain ⟨c, c', e1, e2, τ, e3, e4, hc⟩ := collapsed_of hwf hlen hprod
  exact ⟨c, c', e1, e2, τ, e3, e4, fun s hs w => hc.lang_iff hs w⟩

end

/-- `A ::= B`, `A ::= a`, `B ::= A`, `B ::= A b`, `S ::= c B`, `S ::=`, root `S`, limit 2; symbols
`S A B a b c = 0 .. 5`. -/
def exCycleAn : Cfg :=
  { src := ⟨6, [none, none, none, none, none, none]⟩
    rhsLenInvariant := some 2
    rules := [⟨1, [2], {}⟩, ⟨1, [3], {}⟩, ⟨2, [1], {}⟩, ⟨2, [1, 4], {}⟩, ⟨0, [5, 2], {}⟩, ⟨0, [], {}⟩]
    roots := [0] }

/-- The grammar meets the hypotheses; every left side derives a terminal string. -/
example : exCycleAn.WF ∧ (∀ n, exCycleAn.rhsLenInvariant = some n →
      2 ≤ n ∧ ∀ r ∈ exCycleAn.rules, r.rhs.length ≤ n) ∧
    (∀ s, UnitChain exCycleAn.prod s s → Productive exCycleAn.prod exCycleAn.Term s) ∧
    (∀ s ∈ [0, 2], s < exCycleAn.numSyms) ∧ 2 ^ (exCycleAn.numSyms + 1) < 2 ^ 32 := by
  refine ⟨by decide +kernel, fun n hn => ?_, fun s h => ?_, by decide +kernel, by decide +kernel⟩
  · obtain rfl : 2 = n := by simpa [exCycleAn] using hn
    decide +kernel
  · obtain ⟨α, ⟨r, hr, rfl, rfl⟩, -⟩ := h.rule
    have h1 : Der exCycleAn.prod [1] [3] :=
      Der.single_iff.2 (.inr ⟨[3], by decide +kernel, .refl _⟩)
    have h2 : Der exCycleAn.prod [2] [3] := Der.single_iff.2 (.inr ⟨[1], by decide +kernel, h1⟩)
    have h3 : Der exCycleAn.prod [0] [] := Der.single_iff.2 (.inr ⟨[], by decide +kernel, .nil⟩)
    have ht : ∀ a ∈ ([3] : List Sym), exCycleAn.Term a := by decide +kernel
    simp only [exCycleAn, List.mem_cons, List.not_mem_nil, or_false] at hr
    rcases hr with rfl | rfl | rfl | rfl | rfl | rfl
    · exact ⟨[3], derives_iff_der.2 h1, ht⟩
    · exact ⟨[3], derives_iff_der.2 h1, ht⟩
    · exact ⟨[3], derives_iff_der.2 h2, ht⟩
    · exact ⟨[3], derives_iff_der.2 h2, ht⟩
    · exact ⟨[], derives_iff_der.2 h3, by simp⟩
    · exact ⟨[], derives_iff_der.2 h3, by simp⟩

example : (do .ok (← (← Cycles.new exCycleAn).rewriteCycles).grammar.rules) =
    .ok [⟨1, [3], {}⟩, ⟨0, [], {}⟩, ⟨1, [1, 4], {}⟩, ⟨0, [5, 1], {}⟩] := by decide +kernel
example : (do
    let c ← (← Cycles.new exCycleAn).rewriteCycles
    let m ← exCycleAn.followSets
    let m' ← c.grammar.followSets
    .ok (m 2, m' 1)) = .ok (some ⟨false, [4]⟩, some ⟨false, [4]⟩) := by decide +kernel

end Verif
