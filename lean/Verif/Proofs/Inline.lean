import Verif.Proofs.LoadBuild

/-! # Replacing auxiliary symbols by their strings, and renaming symbols -/

namespace Verif

variable {P : Productions} {T : Sym → Prop}

/-- The productions with every auxiliary symbol replaced by one of its strings. -/
def inlined (P : Productions) (T Aux : Sym → Prop) : Productions := fun A α =>
  ∃ β parts, P A β ∧ List.Forall₂ (fun s part =>
    (Aux s ∧ InLang P T s part) ∨ (¬ Aux s ∧ part = [s])) β parts ∧ α = parts.flatten

theorem inlined_syms {Aux : Sym → Prop} (hT : ∀ s, Aux s → ¬ T s) {A : Sym} {α : List Sym}
    (h : inlined P T Aux A α) : ∀ s ∈ α, ¬ Aux s := by
  obtain ⟨β, parts, -, hp, rfl⟩ := h
  intro s hs
  obtain ⟨part, hpart, hs⟩ := List.mem_flatten.1 hs
  obtain ⟨t, -, ⟨-, h2⟩ | ⟨h1, rfl⟩⟩ := forall₂_right hp hpart
  · intro ha
    exact hT s ha ((inLang_iff.1 h2).2 s hs)
  · rw [List.mem_singleton.1 hs]; exact h1

theorem inLang_inline (Aux : Sym → Prop) (hT : ∀ s, Aux s → ¬ T s) {A : Sym} (hA : ¬ Aux A)
    {w : List Sym} : InLang P T A w ↔ InLang (inlined P T Aux) T A w := by
  let Q : Productions := fun A α => inlined P T Aux A α ∨ (Aux A ∧ InLang P T A α)
  have back : ∀ {A : Sym} {w : List Sym}, InLang Q T A w → InLang P T A w := by
    intro A w h
    refine PieceInv.inLang_of_closed ?_ h
    rintro A α w (⟨β, parts, hp, hparts, rfl⟩ | ⟨-, h1⟩) hw
    · have key : StrLang P T β w := by
        clear hp
        induction hparts generalizing w with
        | nil => exact hw
        | @cons s part β parts h1 _ ih =>
          rw [List.flatten_cons, strLang_append] at hw
          obtain ⟨u, v, rfl, hu, hv⟩ := hw
          rw [strLang_cons]
          refine ⟨u, v, rfl, ?_, ih _ hv⟩
          rcases h1 with ⟨-, h1⟩ | ⟨-, rfl⟩
          · rw [inLang_iff] at h1 ⊢
            exact ⟨h1.1.trans hu.1, hu.2⟩
          · exact strLang_single.1 hu
      rw [inLang_iff]
      exact ⟨(Der.prod hp).trans key.1, key.2⟩
    · rw [inLang_iff] at h1 ⊢
      exact ⟨h1.1.trans hw.1, hw.2⟩
  have fwd : ∀ {A : Sym} {w : List Sym}, InLang P T A w → InLang Q T A w := by
    intro A w h
    refine PieceInv.inLang_of_closed ?_ h
    intro A α w hp hw
    by_cases ha : Aux A
    · have hw' : StrLang P T α w := by
        clear hp
        induction α generalizing w with
        | nil => rw [strLang_nil] at hw ⊢; exact hw
        | cons s α ih =>
          rw [strLang_cons] at hw ⊢
          obtain ⟨u, v, rfl, hu, hv⟩ := hw
          exact ⟨u, v, rfl, back hu, ih _ hv⟩
      have h1 : InLang P T A w := by
        rw [inLang_iff]
        exact ⟨(Der.prod hp).trans hw'.1, hw'.2⟩
      rw [inLang_iff]
      exact ⟨.prod (.inr ⟨ha, h1⟩), hw.2⟩
    · have key : ∃ parts, List.Forall₂ (fun s part =>
          (Aux s ∧ InLang P T s part) ∨ (¬ Aux s ∧ part = [s])) α parts ∧
          StrLang Q T parts.flatten w := by
        clear hp
        induction α generalizing w with
        | nil => exact ⟨[], .nil, hw⟩
        | cons s α ih =>
          rw [strLang_cons] at hw
          obtain ⟨u, v, rfl, hu, hv⟩ := hw
          obtain ⟨parts, h1, h2⟩ := ih _ hv
          by_cases hs : Aux s
          · refine ⟨u :: parts, .cons (.inl ⟨hs, back hu⟩) h1, ?_⟩
            rw [List.flatten_cons, strLang_append]
            exact ⟨u, v, rfl, ⟨.refl _, (inLang_iff.1 hu).2⟩, h2⟩
          · refine ⟨[s] :: parts, .cons (.inr ⟨hs, rfl⟩) h1, ?_⟩
            rw [List.flatten_cons, strLang_append]
            exact ⟨u, v, rfl, strLang_single.2 hu, h2⟩
      obtain ⟨parts, h1, h2⟩ := key
      rw [inLang_iff]
      exact ⟨(Der.prod (.inl ⟨α, parts, hp, h1, rfl⟩)).trans h2.1, h2.2⟩
  refine Iff.trans ⟨fwd, back⟩ ?_
  refine inLang_congr (fun s => ¬ Aux s) ?_ ?_ (fun _ _ => Iff.rfl) hA
  · intro B α hB
    exact ⟨fun h => h.resolve_right fun h => hB h.1, .inl⟩
  · rintro B α hB (h | h)
    · exact inlined_syms hT h
    · exact absurd h.1 hB

/-- Renaming symbols. `U` are the symbols that occur. -/
theorem inLang_rename {P' : Productions} {T' : Sym → Prop} (U : Sym → Prop) (φ : Sym → Sym)
    (hU : ∀ A α, U A → P A α → ∀ s ∈ α, U s)
    (hP : ∀ A β, U A → (P' (φ A) β ↔ ∃ α, P A α ∧ β = α.map φ))
    (hT : ∀ a, U a → (T' (φ a) ↔ T a)) {A : Sym} (hA : U A) {w : List Sym} :
    InLang P' T' (φ A) w ↔ ∃ v, InLang P T A v ∧ w = v.map φ ∧ ∀ s ∈ v, U s := by
  have fwd : ∀ {u v : List Sym}, Der P u v → (∀ s ∈ u, U s) →
      Der P' (u.map φ) (v.map φ) ∧ ∀ s ∈ v, U s := by
    intro u v d
    induction d with
    | nil => exact fun _ => ⟨.nil, by simp⟩
    | keep a _ ih =>
      intro h
      obtain ⟨h1, h2⟩ := ih fun s hs => h s (by simp [hs])
      refine ⟨.keep _ h1, ?_⟩
      intro s hs
      rcases List.mem_cons.1 hs with rfl | hs
      · exact h s (by simp)
      · exact h2 s hs
    | @expand B α v₁ u v₂ hp _ _ ih₁ ih₂ =>
      intro h
      have hB := h B (by simp)
      obtain ⟨h1, h2⟩ := ih₁ (hU B α hB hp)
      obtain ⟨h3, h4⟩ := ih₂ fun s hs => h s (by simp [hs])
      refine ⟨?_, ?_⟩
      · rw [List.map_append]
        exact .expand ((hP B _ hB).2 ⟨α, hp, rfl⟩) h1 h3
      · intro s hs
        rcases List.mem_append.1 hs with hs | hs
        · exact h2 s hs
        · exact h4 s hs
  have back : ∀ {u' w : List Sym}, Der P' u' w → ∀ u, u' = u.map φ → (∀ s ∈ u, U s) →
      ∃ v, w = v.map φ ∧ Der P u v ∧ ∀ s ∈ v, U s := by
    intro u' w d
    induction d with
    | nil =>
      intro u e _
      rw [List.map_eq_nil_iff.1 e.symm]
      exact ⟨[], rfl, .nil, by simp⟩
    | keep a _ ih =>
      intro u e h
      obtain ⟨b, u, rfl, rfl, rfl⟩ := List.map_eq_cons_iff.1 e.symm
      obtain ⟨v, h1, h2, h3⟩ := ih u rfl fun s hs => h s (by simp [hs])
      refine ⟨b :: v, by rw [h1]; rfl, .keep b h2, ?_⟩
      intro s hs
      rcases List.mem_cons.1 hs with rfl | hs
      · exact h s (by simp)
      · exact h3 s hs
    | @expand B β v₁ u₀ v₂ hp _ _ ih₁ ih₂ =>
      intro u e h
      obtain ⟨b, u, rfl, rfl, rfl⟩ := List.map_eq_cons_iff.1 e.symm
      have hb := h b (by simp)
      obtain ⟨α, hq, rfl⟩ := (hP b _ hb).1 hp
      obtain ⟨x, rfl, h2, h3⟩ := ih₁ α rfl (hU b α hb hq)
      obtain ⟨y, rfl, h5, h6⟩ := ih₂ u rfl fun s hs => h s (by simp [hs])
      refine ⟨x ++ y, by rw [List.map_append], .expand hq h2 h5, ?_⟩
      intro s hs
      rcases List.mem_append.1 hs with hs | hs
      · exact h3 s hs
      · exact h6 s hs
  rw [inLang_iff]
  constructor
  · rintro ⟨d, hw⟩
    obtain ⟨v, rfl, h2, h3⟩ := back d [A] rfl (by simpa using hA)
    refine ⟨v, inLang_iff.2 ⟨h2, ?_⟩, rfl, h3⟩
    intro a ha
    exact (hT a (h3 a ha)).1 (hw _ (List.mem_map_of_mem ha))
  · rintro ⟨v, hv, rfl, h3⟩
    rw [inLang_iff] at hv
    refine ⟨(fwd hv.1 (by simpa using hA)).1, ?_⟩
    intro a ha
    obtain ⟨b, hb, rfl⟩ := List.mem_map.1 ha
    exact (hT b (h3 b hb)).2 (hv.2 b hb)

end Verif
