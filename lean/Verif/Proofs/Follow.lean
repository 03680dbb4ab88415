import Verif.Proofs.First

/-! # Lemmas about FOLLOW sets -/

namespace Verif

section Abstract

variable {P : Productions} {T : Sym → Prop}

theorem der_terminal_cons (hT : ∀ A α, P A α → ¬ T A) {s : Sym} (hs : T s) {u v : List Sym}
    (h : Der P (s :: u) v) : ∃ w, v = s :: w ∧ Der P u w := by
  obtain ⟨w₁, w₂, rfl, h₁, h₂⟩ := Der.split (u₁ := [s]) (u₂ := u) h
  rcases Der.single_iff.1 h₁ with rfl | ⟨α, hp, -⟩
  · exact ⟨w₂, rfl, h₂⟩
  · exact absurd hs (hT s α hp)

theorem firstOf_terminal_cons (hT : ∀ A α, P A α → ¬ T A) {s a : Sym} (hs : T s)
    {u : List Sym} : FirstOf P T (s :: u) a ↔ a = s := by
  constructor
  · rintro ⟨-, γ, hd⟩
    obtain ⟨w, e, -⟩ := der_terminal_cons hT hs (derives_iff_der.1 hd)
    simp only [List.cons.injEq] at e
    exact e.1
  · rintro rfl
    exact ⟨hs, u, derives_iff_der.2 (Der.refl _)⟩

theorem firstOf_append {a : Sym} {u v : List Sym} :
    FirstOf P T (u ++ v) a ↔ FirstOf P T u a ∨ (Der P u [] ∧ FirstOf P T v a) := by
  constructor
  · rintro ⟨hTa, γ, hd⟩
    obtain ⟨w₁, w₂, e, h₁, h₂⟩ := Der.split (derives_iff_der.1 hd)
    cases w₁ with
    | nil => exact .inr ⟨h₁, hTa, γ, derives_iff_der.2 (by simpa [e] using h₂)⟩
    | cons b w₁ =>
      simp only [List.cons_append, List.cons.injEq] at e
      obtain ⟨rfl, -⟩ := e
      exact .inl ⟨hTa, w₁, derives_iff_der.2 h₁⟩
  · rintro (⟨hTa, γ, hd⟩ | ⟨hn, hTa, γ, hd⟩)
    · exact ⟨hTa, γ ++ v, derives_iff_der.2
        (by simpa using (derives_iff_der.1 hd).append (Der.refl v))⟩
    · exact ⟨hTa, γ, derives_iff_der.2 (by simpa using hn.append (derives_iff_der.1 hd))⟩

theorem firstOf_cons {s a : Sym} {u : List Sym} :
    FirstOf P T (s :: u) a ↔ FirstOf P T [s] a ∨ (Nullable P s ∧ FirstOf P T u a) := by
  have h := firstOf_append (P := P) (T := T) (a := a) (u := [s]) (v := u)
  rw [← derives_iff_der] at h
  exact h

/-- Sets closed under the rules contain all FOLLOW terminals. -/
theorem follow_complete {F : Sym → Sym → Prop} (hT : ∀ A α, P A α → ¬ T A)
    (h1 : ∀ A α pre B post a, P A α → α = pre ++ B :: post → ¬ T B → FirstOf P T post a → F B a)
    (h2 : ∀ A α pre B post a, P A α → α = pre ++ B :: post → ¬ T B → Der P post [] → F A a →
      F B a) {C : Sym} {v : List Sym} (h : Derives P [C] v) :
    ∀ pre B post a, v = pre ++ B :: post → ¬ T B → FirstOf P T post a → F B a := by
  induction h with
  | refl =>
    intro pre B post a e _ hf
    have : post = [] := by
      cases pre with
      | nil => simp only [List.nil_append, List.cons.injEq] at e; exact e.2.symm
      | cons b pre => simp at e
    subst this
    obtain ⟨-, γ, hd⟩ := hf
    rw [derives_iff_der, Der.nil_iff] at hd
    simp at hd
  | tail _ hstep ih =>
    obtain ⟨A, α, p, s, hp, rfl, rfl⟩ := hstep
    intro pre B post a e hB hf
    rw [List.append_assoc] at e
    rcases List.append_eq_append_iff.1 e with ⟨q, e1, e2⟩ | ⟨q, e1, e2⟩
    · -- `B` is in `α` or in `s`
      rcases List.append_eq_append_iff.1 e2 with ⟨q', e3, e4⟩ | ⟨q', e3, e4⟩
      · -- in `s`
        exact ih (p ++ A :: q') B post a (by rw [e4]; simp) hB hf
      · cases q' with
        | nil =>
          simp only [List.nil_append] at e4
          exact ih (p ++ [A]) B post a (by rw [← e4]; simp) hB hf
        | cons b q' =>
          simp only [List.cons_append, List.cons.injEq] at e4
          obtain ⟨rfl, rfl⟩ := e4
          rcases firstOf_append.1 hf with h | ⟨hn, h⟩
          · exact h1 A α q B q' a hp e3 hB h
          · exact h2 A α q B q' a hp e3 hB hn (ih p A s a rfl (hT A α hp) h)
    · cases q with
      | nil =>
        simp only [List.nil_append] at e2
        rw [List.append_nil] at e1
        subst e1
        cases α with
        | nil =>
          simp only [List.nil_append] at e2
          exact ih (p ++ [A]) B post a (by rw [← e2]; simp) hB hf
        | cons b α =>
          simp only [List.cons_append, List.cons.injEq] at e2
          obtain ⟨rfl, rfl⟩ := e2
          rcases firstOf_append.1 hf with h | ⟨hn, h⟩
          · exact h1 A _ [] B α a hp rfl hB h
          · exact h2 A _ [] B α a hp rfl hB hn (ih p A s a rfl (hT A _ hp) h)
      | cons b q =>
        simp only [List.cons_append, List.cons.injEq] at e2
        obtain ⟨rfl, rfl⟩ := e2
        refine ih pre B (q ++ A :: s) a (by rw [e1]; simp) hB ?_
        obtain ⟨hTa, γ, hd⟩ := hf
        refine ⟨hTa, γ, ?_⟩
        have hs : Derives P (q ++ A :: s) (q ++ (α ++ s)) :=
          Relation.ReflTransGen.single ⟨A, α, q, s, hp, rfl, by simp⟩
        exact hs.trans hd

theorem followOf_first {A B a : Sym} {pre post : List Sym} (hp : P A (pre ++ B :: post))
    (h : FirstOf P T post a) : FollowOf P T B a := by
  obtain ⟨hTa, γ, hd⟩ := h
  refine ⟨hTa, A, pre, γ, derives_iff_der.2 ?_⟩
  have h1 : Der P [A] (pre ++ B :: post) := Der.prod hp
  have h2 : Der P (pre ++ ([B] ++ post)) (pre ++ ([B] ++ a :: γ)) :=
    (Der.refl pre).append ((Der.refl [B]).append (derives_iff_der.1 hd))
  exact h1.trans (by simpa using h2)

theorem followOf_null {A B a : Sym} {pre post : List Sym} (hp : P A (pre ++ B :: post))
    (hn : Der P post []) (h : FollowOf P T A a) : FollowOf P T B a := by
  obtain ⟨hTa, C, α, γ, hd⟩ := h
  refine ⟨hTa, C, α ++ pre, γ, derives_iff_der.2 ?_⟩
  have h1 : Der P [A] (pre ++ [B]) :=
    (Der.prod hp).trans (by simpa using (Der.refl pre).append ((Der.refl [B]).append hn))
  have h2 : Der P (α ++ ([A] ++ a :: γ)) (α ++ ((pre ++ [B]) ++ a :: γ)) :=
    (Der.refl α).append (h1.append (Der.refl (a :: γ)))
  exact (derives_iff_der.1 hd).trans (by simpa using h2)

end Abstract

/-- Invariant of the computation of FOLLOW sets. -/
structure WInv (g : Cfg) (m : SetMap) : Prop where
  keys : ∀ s, (m s).isSome ↔ ∃ r ∈ g.rules, r.lhs = s
  sorted : ∀ s, (m.val s).list.Pairwise (· < ·)
  sound : ∀ s a, m.F s a → FollowOf g.prod g.Term s a
  root : ∀ s, (m.val s).hasNone = true ↔ s ∈ g.roots ∧ ∃ r ∈ g.rules, r.lhs = s

theorem nonterm_iff {g : Cfg} {s : Sym} (hs : s < g.numSyms) :
    ¬ g.Term s ↔ ∃ r ∈ g.rules, r.lhs = s := by
  constructor
  · intro h
    by_contra hno
    exact h ⟨hs, fun r hr e => hno ⟨r, hr, e⟩⟩
  · rintro ⟨r, hr, e⟩ ht
    exact ht.2 r hr e

theorem followFold_spec {g : Cfg} (hwf : g.WF) {terminal : BitSet}
    (hlen : terminal.length = g.numSyms) (hT : ∀ s, Has terminal s ↔ g.Term s) {fs : FirstSets}
    (hfs : FirstInfo g fs) {r : CfgRule} (hr : r ∈ g.rules) (fs₀ : Sym → Prop)
    (h₀ : ∀ a, fs₀ a → FollowOf g.prod g.Term r.lhs a) (l : List Sym) :
    ∀ (ρ : List Sym) (m : SetMap) (f : SetVal) (ch : Bool), r.rhs = l.reverse ++ ρ → WInv g m →
    (∀ a, a ∈ f.list ↔ FirstOf g.prod g.Term ρ a ∨ (Der g.prod ρ [] ∧ fs₀ a)) →
    ∃ m' f' ch', l.foldlM (followSym terminal fs.map) (m, f, ch) = .ok (m', f', ch') ∧
      WInv g m' ∧ m.size g.numSyms ≤ m'.size g.numSyms ∧
      (ch' = true → ch = true ∨ m.size g.numSyms < m'.size g.numSyms) ∧
      (ch' = false → ch = false ∧ m'.val = m.val ∧
        ∀ pre B post, l.reverse = pre ++ B :: post → ¬ g.Term B → ∀ a,
          (FirstOf g.prod g.Term (post ++ ρ) a ∨ (Der g.prod (post ++ ρ) [] ∧ fs₀ a)) →
            m.F B a) := by
  have hnt : ∀ A α, g.prod A α → ¬ g.Term A := fun A α ⟨r, hr, e, _⟩ ht => ht.2 r hr e
  induction l with
  | nil =>
    intro ρ m f ch _ hm _
    exact ⟨m, f, ch, rfl, hm, Nat.le_refl _, fun h => .inl h, fun h => ⟨h, rfl, by simp⟩⟩
  | cons s l ih =>
    intro ρ m f ch hrhs hm hf
    have hrhs' : r.rhs = l.reverse ++ s :: ρ := by simpa using hrhs
    have hs : s < g.numSyms := (hwf r hr).2 s (by rw [hrhs']; simp)
    have hp : g.prod r.lhs (l.reverse ++ s :: ρ) := ⟨r, hr, rfl, hrhs'⟩
    by_cases hTs : g.Term s
    · obtain ⟨m', f', ch', e, h1, h2, h3, h4⟩ := ih (s :: ρ) m ⟨false, [s]⟩ ch hrhs' hm (by
        intro a
        rw [firstOf_terminal_cons hnt hTs]
        simp only [List.mem_singleton]
        constructor
        · exact .inl
        · rintro (h | ⟨h, -⟩)
          · exact h
          · obtain ⟨w, e, -⟩ := der_terminal_cons hnt hTs h
            simp at e)
      refine ⟨m', f', ch', ?_, h1, h2, h3, fun h => ?_⟩
      · have e1 : followSym terminal fs.map (m, f, ch) s = .ok (m, ⟨false, [s]⟩, ch) := by
          simp only [followSym, get_has (show s < terminal.length by rw [hlen]; exact hs),
            Res.bind_ok]
          rw [if_pos (by simpa using (hT s).2 hTs)]
        simp only [List.foldlM_cons, e1, Res.bind_ok]
        exact e
      · obtain ⟨h5, h6, h7⟩ := h4 h
        refine ⟨h5, h6, fun pre B post e hB a ha => ?_⟩
        rw [List.reverse_cons] at e
        rcases List.eq_nil_or_concat post with rfl | ⟨post', x, rfl⟩
        · have e' : l.reverse ++ [s] = pre ++ [B] := e
          obtain ⟨-, e3⟩ := List.append_inj' e' rfl
          simp only [List.cons.injEq, and_true] at e3
          subst e3
          exact absurd hTs hB
        · have e' : l.reverse ++ [s] = (pre ++ B :: post') ++ [x] := by simpa using e
          obtain ⟨e2, e3⟩ := List.append_inj' e' rfl
          simp only [List.cons.injEq, and_true] at e3
          subst e3
          exact h7 pre B post' e2 hB a (by simpa using ha)
    · obtain ⟨followed, hfo⟩ := Option.isSome_iff_exists.1 ((hm.keys s).2 ((nonterm_iff hs).1 hTs))
      obtain ⟨first, hfi⟩ := Option.isSome_iff_exists.1 ((hfs.keys s).2 ((nonterm_iff hs).1 hTs))
      have hval : m.val s = followed := by simp [SetMap.val, hfo]
      have hfval : fs.map.val s = first := by simp [SetMap.val, hfi]
      obtain ⟨new, hnew⟩ : ∃ new : SetVal,
        new = { followed with list := sortDedup (followed.list ++ f.list) } := ⟨_, rfl⟩
      have hnl : ∀ a, a ∈ new.list ↔ m.F s a ∨ a ∈ f.list := by
        intro a; rw [hnew]; simp [mem_sortDedup, SetMap.F, hval]
      have hns : new.list.Pairwise (· < ·) := by rw [hnew]; exact sortDedup_sorted _
      have hnn : new.hasNone = (m.val s).hasNone := by rw [hnew, hval]
      have hsize := size_insert (n := g.numSyms) (m := m) (k := s) (v := new) hs (hm.sorted _)
        (fun a ha => (hnl a).2 (.inl ha)) (fun h => by rw [hnn]; exact h)
      have hm' : WInv g (m.insert s new) := by
        refine ⟨fun t => ?_, fun t => ?_, fun t a ha => ?_, fun t => ?_⟩
        · by_cases e : t = s
          · subst e
            rw [← hm.keys, SetMap.insert, if_pos rfl, hfo]; rfl
          · rw [SetMap.insert, if_neg e]; exact hm.keys t
        · rw [SetMap.val_insert]
          split
          · exact hns
          · exact hm.sorted t
        · rw [SetMap.F, SetMap.val_insert] at ha
          split at ha
          · rename_i e; subst e
            rcases (hnl a).1 ha with h | h
            · exact hm.sound _ a h
            · rcases (hf a).1 h with h | ⟨hn, h⟩
              · exact followOf_first hp h
              · exact followOf_null hp hn (h₀ a h)
          · exact hm.sound t a ha
        · rw [SetMap.val_insert]
          split
          · rename_i e; subst e; rw [hnn]; exact hm.root t
          · exact hm.root t
      obtain ⟨m', f', ch', e, h1, h2, h3, h4⟩ := ih (s :: ρ) (m.insert s new)
        { (if first.hasNone then f else {}) with
          list := (if first.hasNone then f else {}).list ++ first.list }
        (ch || followed.len != new.len) hrhs' hm' (by
          intro a
          have hfirst : a ∈ first.list ↔ FirstOf g.prod g.Term [s] a := by
            rw [← hfval]; exact hfs.first s hTs a
          have hnull : first.hasNone = true ↔ Nullable g.prod s := by
            rw [← hfval]; exact hfs.null s
          rw [firstOf_cons]
          have hdn : Der g.prod (s :: ρ) [] ↔ Nullable g.prod s ∧ Der g.prod ρ [] := by
            rw [der_nil_iff, der_nil_iff]; simp
          rw [hdn]
          simp only [List.mem_append, hfirst]
          by_cases hn : first.hasNone = true
          · rw [if_pos hn, hf a]
            have := hnull.1 hn
            simp only [this, true_and]
            constructor
            · rintro ((h | h) | h)
              · exact .inl (.inr h)
              · exact .inr h
              · exact .inl (.inl h)
            · rintro ((h | h) | h)
              · exact .inr h
              · exact .inl (.inl h)
              · exact .inl (.inr h)
          · rw [if_neg hn]
            have : ¬ Nullable g.prod s := fun h => hn (hnull.2 h)
            simp [this])
      refine ⟨m', f', ch', ?_, h1, Nat.le_trans hsize.1 h2, fun h => ?_, fun h => ?_⟩
      · have e1 : followSym terminal fs.map (m, f, ch) s = .ok (m.insert s new,
            { (if first.hasNone then f else {}) with
              list := (if first.hasNone then f else {}).list ++ first.list },
            ch || followed.len != new.len) := by
          simp only [followSym, get_has (show s < terminal.length by rw [hlen]; exact hs),
            Res.bind_ok]
          rw [if_neg (by simpa using fun h => hTs ((hT s).1 h))]
          simp only [hfo, hfi, Res.ofOption, Res.bind_ok, hnew]
        simp only [List.foldlM_cons, e1, Res.bind_ok]
        exact e
      · rcases h3 h with h | h
        · rw [Bool.or_eq_true] at h
          rcases h with h | h
          · exact .inl h
          · right
            have := hsize.2 (by rw [hval]; simpa using h)
            omega
        · right; omega
      · obtain ⟨h5, h6, h7⟩ := h4 h
        rw [Bool.or_eq_false_iff] at h5
        have hve : m.val s = new := eq_of_len (hm.sorted _) hns
          (fun a ha => (hnl a).2 (.inl ha)) (fun h => by rw [hnn]; exact h)
          (by rw [hval]; simpa using h5.2)
        have hv : (m.insert s new).val = m.val := by
          funext t
          rw [SetMap.val_insert]
          split
          · rename_i e; subst e; exact hve.symm
          · rfl
        have hF : (m.insert s new).F = m.F := by funext t a; rw [SetMap.F, hv]; rfl
        refine ⟨h5.1, h6.trans hv, fun pre B post e hB a ha => ?_⟩
        rw [List.reverse_cons] at e
        rcases List.eq_nil_or_concat post with rfl | ⟨post', x, rfl⟩
        · have e' : l.reverse ++ [s] = pre ++ [B] := e
          obtain ⟨-, e3⟩ := List.append_inj' e' rfl
          simp only [List.cons.injEq, and_true] at e3
          subst e3
          have : a ∈ new.list := (hnl a).2 (.inr ((hf a).2 (by simpa using ha)))
          rw [← hve] at this
          exact this
        · have e' : l.reverse ++ [s] = (pre ++ B :: post') ++ [x] := by simpa using e
          obtain ⟨e2, e3⟩ := List.append_inj' e' rfl
          simp only [List.cons.injEq, and_true] at e3
          subst e3
          rw [← hF]
          exact h7 pre B post' e2 hB a (by simpa using ha)

/-- The rule is taken account of. -/
def FollowDone (g : Cfg) (m : SetMap) (r : CfgRule) : Prop :=
  ∀ pre B post, r.rhs = pre ++ B :: post → ¬ g.Term B → ∀ a,
    (FirstOf g.prod g.Term post a ∨ (Der g.prod post [] ∧ m.F r.lhs a)) → m.F B a

theorem followRound_spec {g : Cfg} (hwf : g.WF) {terminal : BitSet}
    (hlen : terminal.length = g.numSyms) (hT : ∀ s, Has terminal s ↔ g.Term s) {fs : FirstSets}
    (hfs : FirstInfo g fs) (rules : List CfgRule) (hr : ∀ r ∈ rules, r ∈ g.rules) :
    ∀ (m : SetMap) (ch : Bool), WInv g m →
    ∃ m' ch', followRound terminal fs.map rules (m, ch) = .ok (m', ch') ∧ WInv g m' ∧
      m.size g.numSyms ≤ m'.size g.numSyms ∧
      (ch' = true → ch = true ∨ m.size g.numSyms < m'.size g.numSyms) ∧
      (ch' = false → ch = false ∧ m'.val = m.val ∧ ∀ r ∈ rules, FollowDone g m' r) := by
  induction rules with
  | nil =>
    intro m ch hi
    exact ⟨m, ch, rfl, hi, Nat.le_refl _, fun h => .inl h, fun h => ⟨h, rfl, by simp⟩⟩
  | cons r rules ih =>
    intro m ch hi
    have hr' := hr r (by simp)
    obtain ⟨f, hf⟩ := Option.isSome_iff_exists.1 ((hi.keys r.lhs).2 ⟨r, hr', rfl⟩)
    have hval : m.val r.lhs = f := by simp [SetMap.val, hf]
    obtain ⟨m₁, f₁, c₁, e₁, hi₁, hs₁, ht₁, hf₁⟩ := followFold_spec hwf hlen hT hfs hr'
      (m.F r.lhs) (hi.sound r.lhs) r.rhs.reverse [] m f ch (by simp) hi (by
        intro a
        constructor
        · intro h
          exact .inr ⟨Der.nil, by rw [SetMap.F, hval]; exact h⟩
        · rintro (⟨-, γ, hd⟩ | ⟨-, h⟩)
          · rw [derives_iff_der, Der.nil_iff] at hd; simp at hd
          · rw [SetMap.F, hval] at h; exact h)
    obtain ⟨m₂, c₂, e₂, hi₂, hs₂, ht₂, hf₂⟩ := ih (fun r' h => hr r' (by simp [h])) m₁ c₁ hi₁
    refine ⟨m₂, c₂, ?_, hi₂, by omega, fun h => ?_, fun h => ?_⟩
    · simp only [followRound, hf, Res.ofOption, Res.bind_ok, e₁]
      exact e₂
    · rcases ht₂ h with h | h
      · rcases ht₁ h with h | h
        · exact .inl h
        · right; omega
      · right; omega
    · obtain ⟨h1, h2, h3⟩ := hf₂ h
      obtain ⟨h4, h5, h6⟩ := hf₁ h1
      refine ⟨h4, h2.trans h5, fun r' hr' => ?_⟩
      rcases List.mem_cons.1 hr' with rfl | hr'
      · have hF : m₂.F = m.F := by funext t a; rw [SetMap.F, h2, h5]; rfl
        intro pre B post e hB a ha
        rw [hF] at ha ⊢
        exact h6 pre B post (by simpa using e) hB a (by simpa using ha)
      · exact h3 r' hr'

theorem followInit_spec (g : Cfg) : WInv g (followInit g.roots g.rules) := by
  have key : ∀ (rules : List CfgRule) (m : SetMap),
      let m' := rules.foldl (fun map rule =>
        let v := (map rule.lhs).getD {}
        map.insert rule.lhs
          (if g.roots.contains rule.lhs then { v with hasNone := true } else v)) m
      (∀ s, (m' s).isSome ↔ (m s).isSome ∨ ∃ r ∈ rules, r.lhs = s) ∧
      (∀ s, (m'.val s).list = (m.val s).list) ∧
      (∀ s, (m'.val s).hasNone = true ↔
        (m.val s).hasNone = true ∨ (s ∈ g.roots ∧ ∃ r ∈ rules, r.lhs = s)) := by
    intro rules
    induction rules with
    | nil => intro m; simp
    | cons r rules ih =>
      intro m
      obtain ⟨h1, h2, h3⟩ := ih (m.insert r.lhs (if g.roots.contains r.lhs then
        { (m r.lhs).getD {} with hasNone := true } else (m r.lhs).getD {}))
      refine ⟨fun s => ?_, fun s => ?_, fun s => ?_⟩
      · rw [List.foldl_cons, h1]
        by_cases e : s = r.lhs
        · subst e; simp [SetMap.insert]
        · simp [SetMap.insert, e, Ne.symm e]
      · rw [List.foldl_cons, h2, SetMap.val_insert]
        by_cases e : s = r.lhs
        · subst e
          rw [if_pos rfl]
          split <;> rfl
        · rw [if_neg e]
      · rw [List.foldl_cons, h3, SetMap.val_insert]
        by_cases e : s = r.lhs
        · subst e
          rw [if_pos rfl]
          by_cases hc : r.lhs ∈ g.roots
          · simp [hc]
          · simp [hc, SetMap.val]
        · rw [if_neg e]
          simp [Ne.symm e]
  obtain ⟨h1, h2, h3⟩ := key g.rules (fun _ => none)
  refine ⟨fun s => ?_, fun s => ?_, fun s a ha => ?_, fun s => ?_⟩
  · rw [followInit, h1]; simp
  · rw [followInit, h2]; simp [SetMap.val]
  · rw [SetMap.F, followInit, h2] at ha; simp [SetMap.val] at ha
  · rw [followInit, h3]; simp [SetMap.val]

/-- What the computed FOLLOW sets are. -/
structure FollowInfo (g : Cfg) (m : SetMap) : Prop where
  keys : ∀ s, (m s).isSome ↔ ∃ r ∈ g.rules, r.lhs = s
  sorted : ∀ s, (m.val s).list.Pairwise (· < ·)
  follow : ∀ s, (∃ r ∈ g.rules, r.lhs = s) → ∀ a,
    a ∈ (m.val s).list ↔ FollowOf g.prod g.Term s a
  root : ∀ s, (m.val s).hasNone = true ↔ s ∈ g.roots ∧ ∃ r ∈ g.rules, r.lhs = s

theorem followSets_spec {g : Cfg} (hwf : g.WF) {fs : FirstSets} (hfs : FirstInfo g fs) :
    ∃ m, g.followSetsWithFirst fs.map = .ok m ∧ FollowInfo g m := by
  obtain ⟨terminal, e, hlen, hT⟩ := terminalSymbols_term hwf
  obtain ⟨m, em, hi, hd⟩ := whileChanged_spec
    (round := fun map => followRound terminal fs.map g.rules (map, false)) (Inv := WInv g)
    (Done := fun m => ∀ r ∈ g.rules, FollowDone g m r)
    (M := SetMap.size g.numSyms) (B := g.numSyms * (g.numSyms + 1))
    (fun m hm => size_le_bound hm.sorted fun s a ha => (hm.sound s a ha).1.1)
    (fun m hm => by
      obtain ⟨m', ch, e, h1, h2, h4, h5⟩ :=
        followRound_spec hwf hlen hT hfs g.rules (fun _ h => h) m false hm
      exact ⟨m', ch, e, h1, fun h => (h4 h).resolve_left (by simp), fun h => (h5 h).2.2⟩)
    (g.numSyms * (g.numSyms + 1) + 1) (followInit g.roots g.rules) (followInit_spec g)
    (by omega)
  have hnt : ∀ A α, g.prod A α → ¬ g.Term A := fun A α ⟨r, hr, e, _⟩ ht => ht.2 r hr e
  refine ⟨m, by simp only [Cfg.followSetsWithFirst, e, Res.bind_ok]; exact em, hi.keys,
    hi.sorted, fun s hs a => ⟨hi.sound s a, ?_⟩, hi.root⟩
  rintro ⟨hTa, B, α, γ, hd'⟩
  have hst : ¬ g.Term s := by
    obtain ⟨r, hr, e⟩ := hs
    exact fun ht => ht.2 r hr e
  refine follow_complete (T := g.Term) (F := m.F) hnt ?_ ?_ hd' α s (a :: γ) a rfl hst
    ⟨hTa, γ, derives_iff_der.2 (Der.refl _)⟩
  · rintro A α pre B post a ⟨r, hr, rfl, rfl⟩ e hB hf
    exact hd r hr pre B post e hB a (.inl hf)
  · rintro A α pre B post a ⟨r, hr, rfl, rfl⟩ e hB hn hf
    exact hd r hr pre B post e hB a (.inr ⟨hn, hf⟩)

end Verif
