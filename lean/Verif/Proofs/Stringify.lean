import Verif.Model.Stringify
import Verif.Spec.Trees
import Mathlib.Data.List.Induction
import Verif.Proofs.LoadAdvText

/-! # The text of a grammar is read from its end -/

namespace Verif

/-- The text ends with a blank or a line end, or is empty. -/
def EndsBlank (u : Text) : Prop := u = [] ∨ ∃ v c, u = v ++ [c] ∧ (c = ' ' ∨ c = '\n')

/-- Texts of symbols of two grammars that can be read from the end. -/
structure ReadBack (f f' : Sym → Text) : Prop where
  inj : ∀ u u' s s', EndsBlank u → EndsBlank u' → u ++ f s = u' ++ f' s' →
    u = u' ∧ s = s' ∧ f s = f' s
  left : ∀ u v s, EndsBlank u → u ++ f s ≠ v ++ ['(', ')']
  right : ∀ u v s, EndsBlank u → u ++ f' s ≠ v ++ ['(', ')']

theorem endsBlank_arrow (u : Text) : EndsBlank (u ++ [' ', ':', ':', '=', ' ']) :=
  .inr ⟨u ++ [' ', ':', ':', '='], ' ', by simp, .inl rfl⟩

theorem endsBlank_tilde (u : Text) : EndsBlank (u ++ [' ', '~', ' ']) :=
  .inr ⟨u ++ [' ', '~'], ' ', by simp, .inl rfl⟩

theorem endsBlank_line (u : Text) : EndsBlank (u ++ [';', '\n']) :=
  .inr ⟨u ++ [';'], '\n', by simp, .inr rfl⟩

theorem endsBlank_rules (f : Sym → Text) (rules : List CfgRule) :
    EndsBlank (rules.flatMap (stringifyRule f)) := by
  rcases List.eq_nil_or_concat rules with rfl | ⟨l, r, rfl⟩
  · exact .inl rfl
  · rw [List.concat_eq_append, List.flatMap_append, List.flatMap_singleton, stringifyRule,
      ← List.append_assoc]
    exact endsBlank_line _

theorem stringifyRhs_concat (f : Sym → Text) (a : Sym) (α : List Sym) (s : Sym) :
    stringifyRhs f (a :: α ++ [s]) = stringifyRhs f (a :: α) ++ [' ', '~', ' '] ++ f s := by
  simp [stringifyRhs]

theorem arrow_ne_tilde (u v : Text) :
    u ++ [' ', ':', ':', '=', ' '] ≠ v ++ [' ', '~', ' '] := by
  intro h
  have h : (u ++ [' ', ':']) ++ [':', '=', ' '] = v ++ [' ', '~', ' '] := by
    rw [← h, List.append_assoc]; rfl
  exact absurd (List.append_inj' h rfl).2 (by decide)

theorem read_rhs {f f' : Sym → Text} (H : ReadBack f f') {p p' : Text} :
    ∀ α α' : List Sym,
      p ++ [' ', ':', ':', '=', ' '] ++ stringifyRhs f α =
        p' ++ [' ', ':', ':', '=', ' '] ++ stringifyRhs f' α' →
      p = p' ∧ α = α' ∧ ∀ s ∈ α, f s = f' s := by
  intro α
  induction α using List.reverseRecOn with
  | nil =>
    intro α' h
    rcases List.eq_nil_or_concat α' with rfl | ⟨β, s, rfl⟩
    · exact ⟨List.append_cancel_right (List.append_cancel_right h), rfl, by simp⟩
    · rw [List.concat_eq_append] at h
      exfalso
      rcases β with _ | ⟨b, β⟩
      · exact H.right _ _ s (endsBlank_arrow p') (by
          rw [show stringifyRhs f' ([] ++ [s]) = f' s by simp [stringifyRhs]] at h
          exact h.symm)
      · rw [stringifyRhs_concat, ← List.append_assoc, ← List.append_assoc] at h
        exact H.right _ _ s (endsBlank_tilde _) h.symm
  | append_singleton β s ih =>
    intro α' h
    rcases List.eq_nil_or_concat α' with rfl | ⟨β', s', rfl⟩
    · exfalso
      rcases β with _ | ⟨b, β⟩
      · exact H.left _ _ s (endsBlank_arrow p) (by
          rw [show stringifyRhs f ([] ++ [s]) = f s by simp [stringifyRhs]] at h
          exact h)
      · rw [stringifyRhs_concat, ← List.append_assoc, ← List.append_assoc] at h
        exact H.left _ _ s (endsBlank_tilde _) h
    · rw [List.concat_eq_append] at h ⊢
      rcases β with _ | ⟨b, β⟩ <;> rcases β' with _ | ⟨b', β'⟩
      · rw [show stringifyRhs f ([] ++ [s]) = f s by simp [stringifyRhs],
          show stringifyRhs f' ([] ++ [s']) = f' s' by simp [stringifyRhs]] at h
        obtain ⟨h1, rfl, h3⟩ := H.inj _ _ _ _ (endsBlank_arrow p) (endsBlank_arrow p') h
        exact ⟨List.append_cancel_right h1, rfl, by simpa using h3⟩
      · rw [stringifyRhs_concat, ← List.append_assoc, ← List.append_assoc,
          show stringifyRhs f ([] ++ [s]) = f s by simp [stringifyRhs]] at h
        obtain ⟨h1, -⟩ := H.inj _ _ _ _ (endsBlank_arrow p) (endsBlank_tilde _) h
        exact absurd h1 (arrow_ne_tilde _ _)
      · rw [stringifyRhs_concat, ← List.append_assoc, ← List.append_assoc,
          show stringifyRhs f' ([] ++ [s']) = f' s' by simp [stringifyRhs]] at h
        obtain ⟨h1, -⟩ := H.inj _ _ _ _ (endsBlank_tilde _) (endsBlank_arrow p') h
        exact absurd h1.symm (arrow_ne_tilde _ _)
      · rw [stringifyRhs_concat, stringifyRhs_concat, ← List.append_assoc, ← List.append_assoc,
          ← List.append_assoc, ← List.append_assoc] at h
        obtain ⟨h1, rfl, h3⟩ := H.inj _ _ _ _ (endsBlank_tilde _) (endsBlank_tilde _) h
        obtain ⟨rfl, h2, h4⟩ := ih _ (List.append_cancel_right h1)
        refine ⟨rfl, by rw [h2], fun x hx => ?_⟩
        rcases List.mem_append.1 hx with hx | hx
        · exact h4 x hx
        · rw [List.mem_singleton.1 hx]
          exact h3

theorem read_rules {f f' : Sym → Text} (H : ReadBack f f') : ∀ rules rules' : List CfgRule,
    rules.flatMap (stringifyRule f) = rules'.flatMap (stringifyRule f') →
    rules.map (fun r => (r.lhs, r.rhs)) = rules'.map (fun r => (r.lhs, r.rhs)) ∧
      ∀ r ∈ rules, f r.lhs = f' r.lhs ∧ ∀ s ∈ r.rhs, f s = f' s := by
  have ne : ∀ (f : Sym → Text) r, stringifyRule f r ≠ [] := by
    intro f r; simp [stringifyRule]
  intro rules
  induction rules using List.reverseRecOn with
  | nil =>
    intro rules' h
    rcases rules' with _ | ⟨r, rules'⟩
    · exact ⟨rfl, by simp⟩
    · rw [List.flatMap_nil, List.flatMap_cons] at h
      exact absurd (List.append_eq_nil_iff.1 h.symm).1 (ne _ _)
  | append_singleton l r ih =>
    intro rules' h
    rcases List.eq_nil_or_concat rules' with rfl | ⟨l', r', rfl⟩
    · rw [List.flatMap_nil, List.flatMap_append, List.flatMap_singleton] at h
      exact absurd (List.append_eq_nil_iff.1 h).2 (ne _ _)
    · rw [List.concat_eq_append] at h ⊢
      rw [List.flatMap_append, List.flatMap_append, List.flatMap_singleton, List.flatMap_singleton,
        stringifyRule, stringifyRule] at h
      simp only [← List.append_assoc] at h
      have h := List.append_cancel_right h
      obtain ⟨h1, h2, h5⟩ := read_rhs H _ _ h
      obtain ⟨h3, h4, h6⟩ := H.inj _ _ _ _ (endsBlank_rules _ _) (endsBlank_rules _ _) h1
      obtain ⟨h7, h8⟩ := ih _ h3
      refine ⟨?_, fun x hx => ?_⟩
      · rw [List.map_append, List.map_append, h7, List.map_singleton, List.map_singleton, h2, h4]
      · rcases List.mem_append.1 hx with hx | hx
        · exact h8 x hx
        · rw [List.mem_singleton.1 hx]
          exact ⟨h6, h5⟩

/-! ## Texts of symbols -/

theorem dec_digits (n : Nat) : (toString n).toList = Nat.toDigits 10 n := by
  show (Nat.repr n).toList = _
  unfold Nat.repr
  rw [String.toList_ofList]

theorem dec_inj {n m : Nat} (h : (toString n).toList = (toString m).toList) : n = m := by
  rw [dec_digits, dec_digits] at h
  rw [← Nat.ofDigitChars_toDigits (b := 10) (n := n) (by decide) (by decide), h,
    Nat.ofDigitChars_toDigits (by decide) (by decide)]

theorem dec_isDigit {n : Nat} {c : Char} (h : c ∈ (toString n).toList) : c.isDigit = true := by
  rw [dec_digits] at h
  exact Nat.isDigit_of_mem_toDigits (by decide) (by decide) h

theorem dec_ne_nil (n : Nat) : (toString n).toList ≠ [] := by
  rw [dec_digits]
  exact Nat.toDigits_ne_nil

/-- Texts with an end free of `p` behind a last `p` are cut at the same place. -/
theorem cut_last {p : Char → Prop} : ∀ {d d' u u' : Text},
    (∀ c ∈ d, ¬ p c) → (∀ c ∈ d', ¬ p c) → (u = [] ∨ ∃ v c, u = v ++ [c] ∧ p c) →
    (u' = [] ∨ ∃ v c, u' = v ++ [c] ∧ p c) → u ++ d = u' ++ d' → u = u' ∧ d = d' := by
  intro d
  induction d using List.reverseRecOn with
  | nil =>
    intro d' u u' h1 h2 h3 h4 h
    rcases List.eq_nil_or_concat d' with rfl | ⟨l, c, rfl⟩
    · simpa using h
    · rw [List.concat_eq_append] at h h2
      rw [List.append_nil, ← List.append_assoc] at h
      rcases h3 with rfl | ⟨v, c', rfl, hp⟩
      · simp at h
      · have := (List.append_inj' h rfl).2
        have e : c' = c := by simpa using this
        exact absurd (e ▸ hp) (h2 c (by simp))
  | append_singleton d c ih =>
    intro d' u u' h1 h2 h3 h4 h
    rcases List.eq_nil_or_concat d' with rfl | ⟨l, c', rfl⟩
    · rw [List.append_nil, ← List.append_assoc] at h
      rcases h4 with rfl | ⟨v, c', rfl, hp⟩
      · simp at h
      · have := (List.append_inj' h rfl).2
        have e : c = c' := by simpa using this
        exact absurd (e ▸ hp) (h1 c (by simp))
    · rw [List.concat_eq_append] at h h2 ⊢
      rw [← List.append_assoc, ← List.append_assoc] at h
      obtain ⟨h5, h6⟩ := List.append_inj' h rfl
      obtain ⟨h7, h8⟩ := ih (fun x hx => h1 x (by simp [hx])) (fun x hx => h2 x (by simp [hx]))
        h3 h4 h5
      exact ⟨h7, by rw [h8, h6]⟩

theorem digit_not_blank {c : Char} (h : c.isDigit = true) : ¬ (c = ' ' ∨ c = '\n') := by
  rintro (rfl | rfl) <;> exact absurd h (by decide)

theorem digit_not_paren {c : Char} (h : c.isDigit = true) : c ≠ '(' ∧ c ≠ ')' := by
  constructor <;> (rintro rfl; exact absurd h (by decide))

theorem ends_paren_ne (u v : Text) (n : Nat) :
    u ++ '(' :: ((toString n).toList ++ [')']) ≠ v ++ ['(', ')'] := by
  intro h
  have h : (u ++ '(' :: (toString n).toList) ++ [')'] = (v ++ ['(']) ++ [')'] := by simpa using h
  have h := (List.append_inj' h rfl).1
  rcases List.eq_nil_or_concat (toString n).toList with e | ⟨l, c, e⟩
  · exact dec_ne_nil n e
  · rw [e, List.concat_eq_append] at h
    have h : (u ++ '(' :: l) ++ [c] = v ++ ['('] := by simpa using h
    have e' : c = '(' := by simpa using (List.append_inj' h rfl).2
    exact (digit_not_paren (dec_isDigit (n := n) (c := c) (by rw [e]; simp))).1 e'

theorem ends_dec_ne (u v : Text) (n : Nat) : u ++ (toString n).toList ≠ v ++ [')'] := by
  intro h
  rcases List.eq_nil_or_concat (toString n).toList with e | ⟨l, c, e⟩
  · exact dec_ne_nil n e
  · rw [e, List.concat_eq_append, ← List.append_assoc] at h
    have e' : c = ')' := by simpa using (List.append_inj' h rfl).2
    exact (digit_not_paren (dec_isDigit (n := n) (c := c) (by rw [e]; simp))).2 e'

theorem sym_not_unit (g : Cfg) (u v : Text) (s : Sym) :
    u ++ g.stringifySym s ≠ v ++ ['(', ')'] := by
  unfold Cfg.stringifySym
  split
  · intro h
    exact ends_dec_ne u (v ++ ['(']) s (by simpa using h)
  · intro h
    exact ends_paren_ne (u ++ g.symText s) v s (by simpa using h)

/-- The number of a named symbol. -/
theorem read_named {x x' : Text} {n n' : Nat}
    (h : x ++ '(' :: ((toString n).toList ++ [')']) = x' ++ '(' :: ((toString n').toList ++ [')'])) :
    x = x' ∧ n = n' := by
  have h : (x ++ ['(']) ++ (toString n).toList ++ [')'] =
      (x' ++ ['(']) ++ (toString n').toList ++ [')'] := by simpa using h
  have h := List.append_cancel_right h
  obtain ⟨h1, h2⟩ := cut_last (p := (· = '('))
    (fun c hc => (digit_not_paren (dec_isDigit hc)).1) (fun c hc => (digit_not_paren (dec_isDigit hc)).1)
    (.inr ⟨x, _, rfl, rfl⟩) (.inr ⟨x', _, rfl, rfl⟩) h
  exact ⟨List.append_cancel_right h1, dec_inj h2⟩

theorem read_sym {g g' : Cfg} {u u' : Text} {s s' : Sym} (hu : EndsBlank u) (hu' : EndsBlank u')
    (hn : ∀ x x', g.noNames = false → g'.noNames = false → EndsBlank x → EndsBlank x' →
      x ++ g.symText s = x' ++ g'.symText s → x = x')
    (h : u ++ g.stringifySym s = u' ++ g'.stringifySym s') :
    u = u' ∧ s = s' := by
  unfold Cfg.stringifySym at h
  by_cases h1 : g.noNames = true <;> by_cases h2 : g'.noNames = true
  · rw [if_pos h1, if_pos h2] at h
    obtain ⟨h3, h4⟩ := cut_last (p := fun c => c = ' ' ∨ c = '\n')
      (fun c hc => digit_not_blank (dec_isDigit hc)) (fun c hc => digit_not_blank (dec_isDigit hc))
      hu hu' h
    exact ⟨h3, dec_inj h4⟩
  · rw [if_pos h1, if_neg h2] at h
    exact absurd (show u ++ _ = (u' ++ g'.symText s' ++ '(' :: (toString s').toList) ++ [')'] by
      simpa using h) (ends_dec_ne _ _ _)
  · rw [if_neg h1, if_pos h2] at h
    exact absurd (show u' ++ _ = (u ++ g.symText s ++ '(' :: (toString s).toList) ++ [')'] by
      simpa using h.symm) (ends_dec_ne _ _ _)
  · rw [if_neg h1, if_neg h2, ← List.append_assoc, ← List.append_assoc] at h
    obtain ⟨h3, rfl⟩ := read_named h
    simp only [Bool.not_eq_true] at h1 h2
    exact ⟨hn _ _ h1 h2 hu hu' h3, rfl⟩

theorem readBack_same {g g' : Cfg} (h : g.src.names = g'.src.names) :
    ReadBack g.stringifySym g'.stringifySym where
  inj u u' s s' hu hu' e := by
    have := read_sym hu hu' (fun x x' _ _ _ _ e => by
      have : g.symText s = g'.symText s := by
        unfold Cfg.symText SymbolSource.nameOf
        rw [h]
      rw [this] at e
      exact List.append_cancel_right e) e
    obtain ⟨rfl, rfl⟩ := this
    exact ⟨rfl, rfl, List.append_cancel_left e⟩
  left u v s _ := sym_not_unit g u v s
  right u v s _ := sym_not_unit g' u v s

/-- No name has a blank or a line end. -/
def Cfg.PlainNames (g : Cfg) : Prop :=
  ∀ name, some name ∈ g.src.names → ∀ c ∈ name.toList, c ≠ ' ' ∧ c ≠ '\n'

theorem symText_plain {g : Cfg} (h : g.PlainNames) (s : Sym) :
    ∀ c ∈ g.symText s, ¬ (c = ' ' ∨ c = '\n') := by
  intro c hc
  unfold Cfg.symText SymbolSource.nameOf at hc
  split at hc
  · rename_i name e
    have := h name (List.mem_of_getElem? e) c hc
    rintro (rfl | rfl)
    · exact this.1 rfl
    · exact this.2 rfl
  · rw [String.toList_append, List.mem_append] at hc
    rcases hc with hc | hc
    · have e : c = 'g' := by simpa using hc
      subst e
      decide
    · exact digit_not_blank (dec_isDigit hc)

theorem readBack_plain {g g' : Cfg} (h : g.PlainNames) (h' : g'.PlainNames) :
    ReadBack g.stringifySym g'.stringifySym where
  inj u u' s s' hu hu' e := by
    have := read_sym hu hu' (fun x x' _ _ hx hx' e =>
      (cut_last (p := fun c => c = ' ' ∨ c = '\n') (symText_plain h s) (symText_plain h' s)
        hx hx' e).1) e
    obtain ⟨rfl, rfl⟩ := this
    exact ⟨rfl, rfl, List.append_cancel_left e⟩
  left u v s _ := sym_not_unit g u v s
  right u v s _ := sym_not_unit g' u v s

theorem names_of_text {g g' : Cfg} {s : Sym} (h : g.stringifySym s = g'.stringifySym s) :
    g.noNames = g'.noNames ∧ g.src.nameOf s = g'.src.nameOf s := by
  have none_of : ∀ g : Cfg, g.noNames = true → g.src.nameOf s = "g" ++ toString s := by
    intro g hg
    unfold SymbolSource.nameOf
    split
    · rename_i name e
      have := List.all_eq_true.1 hg _ (List.mem_of_getElem? e)
      exact absurd this (by simp)
    · rfl
  unfold Cfg.stringifySym at h
  by_cases h1 : g.noNames = true <;> by_cases h2 : g'.noNames = true
  · exact ⟨by rw [h1, h2], by rw [none_of g h1, none_of g' h2]⟩
  · rw [if_pos h1, if_neg h2] at h
    exact absurd (show [] ++ _ = (g'.symText s ++ '(' :: (toString s).toList) ++ [')'] by
      simpa using h) (ends_dec_ne _ _ _)
  · rw [if_neg h1, if_pos h2] at h
    exact absurd (show [] ++ _ = (g.symText s ++ '(' :: (toString s).toList) ++ [')'] by
      simpa using h.symm) (ends_dec_ne _ _ _)
  · rw [if_neg h1, if_neg h2] at h
    simp only [Bool.not_eq_true] at h1 h2
    exact ⟨by rw [h1, h2], String.toList_inj.1 (read_named h).1⟩

end Verif
