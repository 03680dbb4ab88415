import Verif.Props.TreesFinite
import Verif.Props.TreesNulling
import Verif.Props.TreesOps
import Verif.Proofs.LoadBnf

/-! # Several operations after each other -/

namespace Verif

/-- The symbols and names of the first grammar with more of them behind. -/
def Cfg.SrcExt (g g' : Cfg) : Prop :=
  ∃ l, g'.src.names = g.src.names ++ l ∧ g'.numSyms = g.numSyms + l.length

namespace Cfg.SrcExt

variable {g g' g'' : Cfg}

theorem refl (g : Cfg) : SrcExt g g := ⟨[], by simp, by simp⟩

theorem of_eq (h : g'.src = g.src) : SrcExt g g' :=
  ⟨[], by rw [h]; simp, by unfold numSyms; rw [h]; simp⟩

theorem trans (h : SrcExt g g') (h' : SrcExt g' g'') : SrcExt g g'' := by
  obtain ⟨l, h1, h2⟩ := h
  obtain ⟨l', h3, h4⟩ := h'
  exact ⟨l ++ l', by rw [h3, h1, List.append_assoc], by rw [h4, h2, List.length_append]; omega⟩

theorem fresh (g : Cfg) (name : Option String) : SrcExt g (g.nextSym name).2 := ⟨[name], rfl, rfl⟩

theorem push (g : Cfg) (r : CfgRule) : SrcExt g (g.pushRule r) := of_eq rfl

theorem le (h : SrcExt g g') : g.numSyms ≤ g'.numSyms := by
  obtain ⟨l, -, h⟩ := h
  omega

theorem named (h : SrcExt g g') (hn : g.src.names.length = g.numSyms) :
    g'.src.names.length = g'.numSyms := by
  obtain ⟨l, h1, h2⟩ := h
  rw [h1, List.length_append, hn, h2]

theorem name (h : SrcExt g g') (hn : g.src.names.length = g.numSyms) {a : Sym} (ha : a < g.numSyms) :
    g'.src.originalNameOf a = g.src.originalNameOf a := by
  obtain ⟨l, h1, -⟩ := h
  unfold SymbolSource.originalNameOf
  rw [h1, List.getElem?_append_left (by omega)]

theorem addRuleLoop (rule : CfgRule) : ∀ (fuel : Nat) (g : Cfg) (rhsRev : List Sym) (parts : Nat)
    (x : Cfg × Nat), Cfg.addRuleLoop rule fuel g rhsRev parts = .ok x → SrcExt g x.1 := by
  intro fuel
  induction fuel with
  | zero =>
    intro g rhsRev parts x h
    unfold Cfg.addRuleLoop at h
    split at h
    · cases h; exact refl g
    · cases h
  | succ fuel ih =>
    intro g rhsRev parts x h
    unfold Cfg.addRuleLoop at h
    split at h
    · cases h; exact refl g
    · dsimp only at h
      split at h
      · split at h
        all_goals
          obtain ⟨history, -, h⟩ := Res.bind_eq_ok.1 h
          exact (push g _).trans (ih _ _ _ _ h)
      · split at h
        all_goals
          obtain ⟨history, -, h⟩ := Res.bind_eq_ok.1 h
          exact ((fresh g none).trans (push _ _)).trans (ih _ _ _ _ h)

theorem addRule {r : CfgRule} {x : Cfg × Nat} (h : g.addRule r = .ok x) : SrcExt g x.1 := by
  unfold Cfg.addRule at h
  split at h
  · cases h; exact push g r
  · exact addRuleLoop _ _ _ _ _ _ h

theorem addRules {rs : List CfgRule} (h : g.addRules rs = .ok g') : SrcExt g g' := by
  induction rs generalizing g with
  | nil => cases h; exact refl _
  | cons r rs ih =>
    unfold Cfg.addRules at h
    rw [List.foldlM_cons] at h
    obtain ⟨g₁, h1, h2⟩ := Res.bind_eq_ok.1 h
    obtain ⟨x, h3, h4⟩ := Res.bind_eq_ok.1 h1
    cases h4
    exact (addRule h3).trans (ih h2)

theorem limitRhsLen {limit : Option Nat} (h : g.limitRhsLen limit = .ok g') : SrcExt g g' :=
  (of_eq (g' := { g with rhsLenInvariant := limit, rules := [] }) rfl).trans (addRules h)

theorem wrapOne {r : Sym} (h : g.wrapOne r = .ok g') : SrcExt g g' := by
  obtain ⟨x, h1, h2⟩ := Res.bind_eq_ok.1 h
  cases h2
  exact ((((fresh g _).trans (fresh _ _)).trans (fresh _ _)).trans (addRule h1)).trans (of_eq rfl)

theorem wrapInput (h : g.wrapInput = .ok g') : SrcExt g g' := by
  have key : ∀ (rs : List Sym) (g₁ : Cfg), rs.foldlM Cfg.wrapOne g₁ = .ok g' → SrcExt g₁ g' := by
    intro rs
    induction rs with
    | nil => intro g₁ h; cases h; exact refl _
    | cons r rs ih =>
      intro g₁ h
      rw [List.foldlM_cons] at h
      obtain ⟨g₂, h1, h2⟩ := Res.bind_eq_ok.1 h
      exact (wrapOne h1).trans (ih _ h2)
  exact (of_eq (g' := { g with wrappedRoots := [], roots := [] }) rfl).trans (key _ _ h)

theorem eliminate {res : Cfg} (h : g.binarizeAndEliminateNulling = .ok (g', res)) : SrcExt g g' := by
  unfold Cfg.binarizeAndEliminateNulling at h
  obtain ⟨g₁, h1, h⟩ := Res.bind_eq_ok.1 h
  refine (limitRhsLen h1).trans ?_
  dsimp only at h
  obtain ⟨n, -, h⟩ := Res.bind_eq_ok.1 h
  obtain ⟨n, -, h⟩ := Res.bind_eq_ok.1 h
  split at h
  · cases h; exact refl _
  · obtain ⟨⟨result, work⟩, -, h⟩ := Res.bind_eq_ok.1 h
    obtain ⟨n, -, h⟩ := Res.bind_eq_ok.1 h
    obtain ⟨n, -, h⟩ := Res.bind_eq_ok.1 h
    obtain ⟨n, -, h⟩ := Res.bind_eq_ok.1 h
    obtain ⟨rules, -, h⟩ := Res.bind_eq_ok.1 h
    cases h
    exact of_eq rfl

end Cfg.SrcExt

theorem makeProper_keeps {g g' : Cfg} {b : Bool} (h : g.makeProper = .ok (g', b)) :
    g'.src = g.src ∧ g'.rhsLenInvariant = g.rhsLenInvariant := by
  unfold Cfg.makeProper at h
  obtain ⟨u, -, h⟩ := Res.bind_eq_ok.1 h
  dsimp only at h
  split at h
  · obtain ⟨g₁, h1, h⟩ := Res.bind_eq_ok.1 h
    cases h
    unfold Usefulness.removeUselessRules at h1
    split at h1
    · cases h1; exact ⟨rfl, rfl⟩
    · obtain ⟨rs, -, h1⟩ := Res.bind_eq_ok.1 h1
      cases h1; exact ⟨rfl, rfl⟩
  · cases h; exact ⟨rfl, rfl⟩

/-- Without a length limit, `wrap_input` adds just the rules of the new roots. -/
theorem wrapInput_rules {g g' : Cfg} (hlim : g.rhsLenInvariant = none) (h : g.wrapInput = .ok g') :
    ∀ r ∈ g'.rules, r ∈ g.rules ∨ ∃ wr ∈ g'.wrappedRoots,
      r.rhs = [wr.startOfInput, wr.innerRoot, wr.endOfInput] := by
  have key : ∀ (rs : List Sym) (g₁ : Cfg), g₁.rhsLenInvariant = none →
      (∀ r ∈ g₁.rules, r ∈ g.rules ∨ ∃ wr ∈ g₁.wrappedRoots,
        r.rhs = [wr.startOfInput, wr.innerRoot, wr.endOfInput]) →
      rs.foldlM Cfg.wrapOne g₁ = .ok g' →
      ∀ r ∈ g'.rules, r ∈ g.rules ∨ ∃ wr ∈ g'.wrappedRoots,
        r.rhs = [wr.startOfInput, wr.innerRoot, wr.endOfInput] := by
    intro rs
    induction rs with
    | nil => intro g₁ _ h1 h; cases h; exact h1
    | cons root rs ih =>
      intro g₁ hl h1 h
      rw [List.foldlM_cons] at h
      obtain ⟨g₂, h2, h⟩ := Res.bind_eq_ok.1 h
      unfold Cfg.wrapOne at h2
      dsimp only at h2
      rw [addRule_push (by exact hl)] at h2
      cases h2
      refine ih _ ?_ ?_ h
      · exact hl
      intro r hr
      rcases List.mem_append.1 hr with hr | hr
      · rcases h1 r hr with h1 | ⟨wr, h2, h3⟩
        · exact .inl h1
        · exact .inr ⟨wr, List.mem_append_left _ h2, h3⟩
      · rw [List.mem_singleton.1 hr]
        exact .inr ⟨_, List.mem_append_right _ (List.mem_singleton.2 rfl), rfl⟩
  exact key g.roots { g with wrappedRoots := [], roots := [] } hlim (fun r hr => .inl hr) h

theorem Cfg.term_iff_lang {g : Cfg} {a : Sym} : g.Term a ↔ g.Lang a [a] :=
  ⟨fun h => ⟨.refl, by simpa using h⟩, fun h => h.2 a (by simp)⟩

theorem NoMore.trans {X Y Z : Type} (h : NoMore X Y) (h' : NoMore Y Z) : NoMore X Z := by
  obtain ⟨f, hf⟩ := h
  obtain ⟨f', hf'⟩ := h'
  exact ⟨fun x => f' (f x), fun x x' e => hf _ _ (hf' _ _ e)⟩

theorem SameNumber.noMore {X Y : Type} (h : SameNumber X Y) : NoMore X Y := by
  obtain ⟨e⟩ := h
  exact ⟨e, fun x x' h => e.injective h⟩

theorem Cfg.used_of_lang {g : Cfg} {A : Sym} {w : List Sym} (h : g.Lang A w) (hA : ∃ r ∈ g.rules, r.lhs = A) :
    g.Used A ∧ ∀ a ∈ w, g.Used a := by
  obtain ⟨r, hr, rfl⟩ := hA
  refine ⟨⟨r, hr, .inl rfl⟩, ?_⟩
  refine ((derives_iff_der.1 h.1).restrict (Q := g.prod) g.Used ?_ ?_).2
  · rintro A α ⟨q, hq, rfl, rfl⟩ _
    exact ⟨⟨q, hq, rfl, rfl⟩, fun a ha => ⟨q, hq, .inr ha⟩⟩
  · simpa using ⟨r, hr, Or.inl rfl⟩

/-- Empty trees of a cleaned grammar. -/
theorem Cleaned.empty_unique {g g' : Cfg} {roots : List Sym} (h : Cleaned g roots g') (hwf : g.WF)
    (hu : ∀ s, s < g.numSyms → Subsingleton (g.Trees s [])) (s : Sym) :
    Subsingleton (g'.Trees s []) := by
  by_cases he : ∃ r ∈ g'.rules, r.lhs = s
  · obtain ⟨r, hr, rfl⟩ := he
    obtain ⟨h1, h2⟩ := (h.rules r).1 hr
    have hp : Productive g.prod g.Term r.lhs := productive_closed ⟨r, h1, rfl, rfl⟩ h2.2
    exact (h.trees h2.1 hp []).subsingleton (hu _ (hwf r h1).1)
  · refine ⟨fun t => (he ?_).elim⟩
    have h1 := (g'.lang_iff_trees s []).2 ⟨t⟩
    rcases Der.single_iff.1 (derives_iff_der.1 h1.1) with h2 | ⟨α, ⟨r, hr, e, -⟩, -⟩
    · cases h2
    · exact ⟨r, hr, e⟩

/-- Loaded grammars have no length limit and a place for the name of each symbol. -/
theorem Basic.build_named {p : Profile} {rules : List Basic.Rule} {g : Cfg}
    (h : Basic.build p (.rules rules) = .ok (.ok g)) :
    g.rhsLenInvariant = none ∧ g.src.names.length = g.numSyms := by
  obtain ⟨st, reps, dn, e, hi, -⟩ := Basic.loadRules_spec p rules 0 LoadInv.new
  unfold Basic.build at h
  dsimp only at h
  rw [e, Res.bind_ok] at h
  cases h
  exact ⟨hi.g.limit, hi.len⟩

end Verif
