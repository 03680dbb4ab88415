import Verif.Model.ValuesRelease
import Verif.Proofs.Values

/-! # Helper lemmas on weights that wrap around -/

namespace Verif

/-- What the debug profile returns, the release profile returns. -/
theorem sumValuesWrap_agrees {value : List (Option Nat)} {acc : Nat} {rhs : List Sym} {o : Option Nat}
    (h : sumValues value acc rhs = .ok o) : sumValuesWrap value acc rhs = .ok o := by
  induction rhs generalizing acc with
  | nil => exact h
  | cons a rhs ih =>
    unfold sumValues at h
    unfold sumValuesWrap
    obtain ⟨v, h1, h2⟩ := Res.bind_eq_ok.1 h
    rw [h1, Res.bind_ok]
    cases v with
    | none => exact h2
    | some v =>
      dsimp only at h2 ⊢
      split at h2
      · cases h2
      · rw [Nat.mod_eq_of_lt (by omega)]
        exact ih h2

theorem valuesBodyWrap_agrees {rules : List CfgRule} {st st' : List (Option Nat) × List Sym} {i : Nat}
    (h : valuesBody rules st i = .ok st') : valuesBodyWrap rules st i = .ok st' := by
  unfold valuesBody at h
  unfold valuesBodyWrap
  obtain ⟨r, h1, h⟩ := Res.bind_eq_ok.1 h
  obtain ⟨o, h2, h⟩ := Res.bind_eq_ok.1 h
  dsimp only at h ⊢
  rw [h1, Res.bind_ok, sumValuesWrap_agrees h2, Res.bind_ok]
  exact h

theorem valuesFoldWrap_agrees {rules : List CfgRule} {ids : List Nat} {st st' : List (Option Nat) × List Sym}
    (h : ids.foldlM (valuesBody rules) st = .ok st') : ids.foldlM (valuesBodyWrap rules) st = .ok st' := by
  induction ids generalizing st with
  | nil => exact h
  | cons i ids ih =>
    rw [List.foldlM_cons] at h ⊢
    obtain ⟨s, h1, h2⟩ := Res.bind_eq_ok.1 h
    rw [valuesBodyWrap_agrees h1, Res.bind_ok]
    exact ih h2

theorem valuesLoopWrap_agrees {rules : List CfgRule} {occ : OccurenceMap} {fuel : Nat}
    {value value' : List (Option Nat)} {stack : List Sym}
    (h : valuesLoop rules occ fuel value stack = .ok value') :
    valuesLoopWrap rules occ fuel value stack = .ok value' := by
  induction fuel generalizing value stack with
  | zero =>
    cases stack with
    | nil => exact h
    | cons a stack => cases h
  | succ fuel ih =>
    cases stack with
    | nil => exact h
    | cons a stack =>
      unfold valuesLoop at h
      unfold valuesLoopWrap
      obtain ⟨s, h1, h2⟩ := Res.bind_eq_ok.1 h
      rw [valuesFoldWrap_agrees h1, Res.bind_ok]
      exact ih h2

/-! ## Totality and the meaning of the result -/

theorem sumValuesWrap_spec (value : List (Option Nat)) (acc : Nat) (hacc : acc < 2 ^ 32) (rhs : List Sym)
    (h : ∀ s ∈ rhs, s < value.length) :
    sumValuesWrap value acc rhs = .ok ((weight (tbl value) rhs).map fun c => (acc + c) % 2 ^ 32) := by
  induction rhs generalizing acc with
  | nil => simp [sumValuesWrap, weight, Nat.mod_eq_of_lt hacc]
  | cons a rhs ih =>
    have ha : value[a]? = some (tbl value a) := tbl_eq (h a (by simp))
    unfold sumValuesWrap
    rw [Res.index_ok.2 ha]
    simp only [Res.bind_ok, weight]
    cases e : tbl value a with
    | none => simp
    | some v =>
      simp only
      rw [ih _ (Nat.mod_lt _ (by decide)) (fun s hs => h s (by simp [hs]))]
      cases e2 : weight (tbl value) rhs with
      | none => simp
      | some c =>
        simp only [Option.map_some]
        rw [Nat.mod_add_mod, Nat.add_assoc]

/-- Weights up to wrapping, put together. -/
theorem weight_mod {P : Productions} {init f : Sym → Option Nat}
    (h : ∀ s v, f s = some v → ∃ w c, Der P [s] w ∧ weight init w = some c ∧ v % 2 ^ 32 = c % 2 ^ 32)
    {u : List Sym} {c : Nat} (hu : weight f u = some c) :
    ∃ w c', Der P u w ∧ weight init w = some c' ∧ c % 2 ^ 32 = c' % 2 ^ 32 := by
  induction u generalizing c with
  | nil => exact ⟨[], c, .nil, hu, rfl⟩
  | cons a u ih =>
    simp only [weight] at hu
    cases ha : f a with
    | none => simp [ha] at hu
    | some x =>
      cases hb : weight f u with
      | none => simp [ha, hb] at hu
      | some y =>
        simp only [ha, hb, Option.some.injEq] at hu
        obtain ⟨w₁, c₁, h1, h2, h3⟩ := h a x ha
        obtain ⟨w₂, c₂, h4, h5, h6⟩ := ih hb
        refine ⟨w₁ ++ w₂, c₁ + c₂, h1.append h4, by rw [weight_append, h2, h5], ?_⟩
        rw [← hu, Nat.add_mod, h3, h6, ← Nat.add_mod]

/-- Invariant of the worklist. -/
structure WrapValues (rules : List CfgRule) (n : Nat) (P : Productions) (init : Sym → Option Nat)
    (todo : Nat → Prop) (value : List (Option Nat)) (stack : List Sym) : Prop where
  len : value.length = n
  ext : ∀ s v, init s = some v → ∃ v', tbl value s = some v'
  sound : ∀ s v, tbl value s = some v →
    ∃ w c, Der P [s] w ∧ weight init w = some c ∧ v % 2 ^ 32 = c % 2 ^ 32
  small : ∀ s v, tbl value s = some v → v < 2 ^ 32
  work : ∀ (i : Nat) r c, rules[i]? = some r → r.rhs ≠ [] → weight (tbl value) r.rhs = some c →
    (∃ v, tbl value r.lhs = some v) ∨ (∃ s ∈ r.rhs, s ∈ stack) ∨ todo i

theorem valuesBodyWrap_fold {rules : List CfgRule} {n : Nat} {P : Productions}
    {init : Sym → Option Nat} (hwf : ∀ r ∈ rules, r.lhs < n ∧ ∀ s ∈ r.rhs, s < n)
    (hP : ∀ r ∈ rules, r.rhs ≠ [] → P r.lhs r.rhs)
    (ids : List Nat) (hids : ∀ i ∈ ids, ∃ r, rules[i]? = some r ∧ r.rhs ≠ [])
    (value : List (Option Nat)) (stack : List Sym)
    (hinv : WrapValues rules n P init (· ∈ ids) value stack) :
    ∃ value' stack', ids.foldlM (valuesBodyWrap rules) (value, stack) = .ok (value', stack') ∧
      WrapValues rules n P init (fun _ => False) value' stack' ∧
      potential value' + stack'.length ≤ potential value + stack.length := by
  induction ids generalizing value stack with
  | nil =>
    refine ⟨value, stack, rfl, ⟨hinv.len, hinv.ext, hinv.sound, hinv.small,
      fun i r c h1 h2 h3 => ?_⟩, Nat.le_refl _⟩
    rcases hinv.work i r c h1 h2 h3 with h | h | h
    · exact .inl h
    · exact .inr (.inl h)
    · simp at h
  | cons i ids ih =>
    obtain ⟨r, hr, hne⟩ := hids i (by simp)
    have hmem : r ∈ rules := List.mem_of_getElem? hr
    obtain ⟨hl, hrhs⟩ := hwf r hmem
    have hl' : r.lhs < value.length := by rw [hinv.len]; exact hl
    have hrhs' : ∀ s ∈ r.rhs, s < value.length := by rw [hinv.len]; exact hrhs
    have hidx : Res.index rules i = .ok r := Res.index_ok.2 hr
    have hids' : ∀ j ∈ ids, ∃ r, rules[j]? = some r ∧ r.rhs ≠ [] :=
      fun j hj => hids j (by simp [hj])
    have hidl : Res.index value r.lhs = .ok (tbl value r.lhs) := Res.index_ok.2 (tbl_eq hl')
    have hs := sumValuesWrap_spec value 0 (by decide) r.rhs hrhs'
    simp only [Nat.zero_add] at hs
    rw [List.foldlM_cons]
    have skip : valuesBodyWrap rules (value, stack) i = .ok (value, stack) →
        (∀ c, weight (tbl value) r.rhs = some c → ∃ v, tbl value r.lhs = some v) →
        ∃ value' stack', (valuesBodyWrap rules (value, stack) i >>= fun s =>
            ids.foldlM (valuesBodyWrap rules) s) = .ok (value', stack') ∧
          WrapValues rules n P init (fun _ => False) value' stack' ∧
          potential value' + stack'.length ≤ potential value + stack.length := fun e hdone => by
      rw [e]
      exact ih hids' value stack ⟨hinv.len, hinv.ext, hinv.sound, hinv.small,
        fun j r' c h1 h2 h3 => by
          rcases hinv.work j r' c h1 h2 h3 with h | h | h
          · exact .inl h
          · exact .inr (.inl h)
          · rcases List.mem_cons.1 h with rfl | h
            · rw [hr] at h1; cases h1; exact .inl (hdone c h3)
            · exact .inr (.inr h)⟩
    cases hw : weight (tbl value) r.rhs with
    | none =>
      refine skip ?_ (by simp [hw])
      simp [valuesBodyWrap, hidx, hs, hw]
    | some c₀ =>
      generalize hc : c₀ % 2 ^ 32 = c
      have hcs : c < 2 ^ 32 := hc ▸ Nat.mod_lt _ (by decide)
      rw [hw, Option.map_some, hc] at hs
      by_cases hdone : ∃ v, tbl value r.lhs = some v ∧ v ≤ c
      · obtain ⟨v, hv, hvc⟩ := hdone
        refine skip ?_ (fun c' hc' => ⟨v, hv⟩)
        simp [valuesBodyWrap, hidx, hs, hidl, hv, hvc]
      · have e : valuesBodyWrap rules (value, stack) i =
            .ok (value.set r.lhs (some c), r.lhs :: stack) := by
          cases hv : tbl value r.lhs with
          | none => simp [valuesBodyWrap, hidx, hs, hidl, hv]
          | some v =>
            have : ¬ v ≤ c := fun h => hdone ⟨v, hv, h⟩
            simp [valuesBodyWrap, hidx, hs, hidl, hv, this]
        rw [e]
        simp only [Res.bind_ok]
        have hlow : ∀ v, tbl value r.lhs = some v → c < v := by
          intro v hv
          by_contra h
          exact hdone ⟨v, hv, by omega⟩
        have hpot := potential_set hl' hlow hcs
        have hset := tbl_set hl' (some c)
        have hdec : ∀ s v, tbl value s = some v →
            ∃ v', tbl (value.set r.lhs (some c)) s = some v' := by
          intro s v hv
          rw [hset]
          by_cases e : s = r.lhs
          · rw [if_pos e]; exact ⟨c, rfl⟩
          · rw [if_neg e]; exact ⟨v, hv⟩
        have hinv' : WrapValues rules n P init (· ∈ ids) (value.set r.lhs (some c))
            (r.lhs :: stack) := by
          refine ⟨by rw [List.length_set]; exact hinv.len, fun s v hv => ?_, fun s v hv => ?_,
            fun s v hv => ?_, fun j r' c' h1 h2 h3 => ?_⟩
          · obtain ⟨v', h1⟩ := hinv.ext s v hv
            exact hdec s v' h1
          · rw [hset] at hv
            by_cases e : s = r.lhs
            · rw [if_pos e] at hv; cases hv; subst e
              obtain ⟨w, c', h1, h2, h3⟩ := weight_mod hinv.sound hw
              exact ⟨w, c', Der.single_iff.2 (.inr ⟨r.rhs, hP r hmem hne, h1⟩), h2, by
                rw [← hc, Nat.mod_mod, h3]⟩
            · rw [if_neg e] at hv; exact hinv.sound s v hv
          · rw [hset] at hv
            by_cases e : s = r.lhs
            · rw [if_pos e] at hv; cases hv; exact hcs
            · rw [if_neg e] at hv; exact hinv.small s v hv
          · by_cases hin : r.lhs ∈ r'.rhs
            · exact .inr (.inl ⟨r.lhs, hin, by simp⟩)
            · have h3' : weight (tbl value) r'.rhs = some c' := by
                rw [← h3]
                clear h3 h1 h2
                generalize r'.rhs = l at hin
                induction l with
                | nil => rfl
                | cons a l ihl =>
                  rw [List.mem_cons, not_or] at hin
                  simp only [weight]
                  rw [ihl hin.2, hset, if_neg (fun h => hin.1 h.symm)]
              rcases hinv.work j r' c' h1 h2 h3' with ⟨v, hv⟩ | ⟨s, hs, hs'⟩ | h
              · exact .inl (hdec _ v hv)
              · exact .inr (.inl ⟨s, hs, by simp [hs']⟩)
              · rcases List.mem_cons.1 h with rfl | h
                · rw [hr] at h1; cases h1
                  exact .inl ⟨c, by rw [hset, if_pos rfl]⟩
                · exact .inr (.inr h)
        obtain ⟨value', stack', h1, h2, h3⟩ := ih hids' _ _ hinv'
        refine ⟨value', stack', h1, h2, ?_⟩
        simp only [List.length_cons] at h3
        omega

theorem valuesLoopWrap_spec {rules : List CfgRule} {n : Nat} {P : Productions}
    {init : Sym → Option Nat} (hwf : ∀ r ∈ rules, r.lhs < n ∧ ∀ s ∈ r.rhs, s < n)
    (hP : ∀ r ∈ rules, r.rhs ≠ [] → P r.lhs r.rhs) (fuel : Nat)
    (value : List (Option Nat)) (stack : List Sym)
    (hinv : WrapValues rules n P init (fun _ => False) value stack)
    (hf : potential value + stack.length ≤ fuel) :
    ∃ value', valuesLoopWrap rules (OccurenceMap.fromRules rules) fuel value stack = .ok value' ∧
      WrapValues rules n P init (fun _ => False) value' [] := by
  induction fuel generalizing value stack with
  | zero =>
    have : stack = [] := List.length_eq_zero_iff.1 (by omega)
    subst this
    exact ⟨value, rfl, hinv⟩
  | succ fuel ih =>
    cases stack with
    | nil => exact ⟨value, rfl, hinv⟩
    | cons a stack =>
      have hids : ∀ i ∈ (OccurenceMap.fromRules rules a).rhs, ∃ r, rules[i]? = some r ∧
          r.rhs ≠ [] := by
        intro i hi
        obtain ⟨r, h1, h2⟩ := mem_occ.1 hi
        exact ⟨r, h1, List.ne_nil_of_mem h2⟩
      obtain ⟨value', stack', h1, h2, h3⟩ := valuesBodyWrap_fold hwf hP _ hids value stack
        ⟨hinv.len, hinv.ext, hinv.sound, hinv.small, fun i r c h1 h2 h3 => by
          rcases hinv.work i r c h1 h2 h3 with h | ⟨s, hs, hs'⟩ | h
          · exact .inl h
          · rcases List.mem_cons.1 hs' with rfl | hs'
            · exact .inr (.inr (mem_occ.2 ⟨r, h1, hs⟩))
            · exact .inr (.inl ⟨s, hs, hs'⟩)
          · exact h.elim⟩
      simp only [List.length_cons] at hf
      simp only [valuesLoopWrap, h1, Res.bind_ok]
      exact ih value' stack' h2 (by omega)

/-- In a closed table everything that derives a string with a weight has one. -/
theorem closed_some {P : Productions} {init f : Sym → Option Nat}
    (hext : ∀ s v, init s = some v → ∃ v', f s = some v')
    (hcl : ∀ A α c, P A α → weight f α = some c → ∃ v, f A = some v)
    {u w : List Sym} (d : Der P u w) {c : Nat} (hw : weight init w = some c) :
    ∃ c', weight f u = some c' := by
  induction d generalizing c with
  | nil => exact ⟨0, rfl⟩
  | @keep a u v' d ih =>
    simp only [weight] at hw
    cases ha : init a with
    | none => simp [ha] at hw
    | some x =>
      cases hb : weight init v' with
      | none => simp [ha, hb] at hw
      | some y =>
        obtain ⟨x', h1⟩ := hext a x ha
        obtain ⟨y', h2⟩ := ih hb
        exact ⟨x' + y', by simp [weight, h1, h2]⟩
  | @expand A α x u y hp _ _ ih₁ ih₂ =>
    rw [weight_append] at hw
    cases ha : weight init x with
    | none => simp [ha] at hw
    | some a =>
      cases hb : weight init y with
      | none => simp [ha, hb] at hw
      | some b =>
        obtain ⟨a', h1⟩ := ih₁ ha
        obtain ⟨b', h2⟩ := ih₂ hb
        obtain ⟨v, h3⟩ := hcl _ _ _ hp h1
        exact ⟨v + b', by simp [weight, h3, h2]⟩

theorem rhsClosureWithValuesRelease_spec {g : Cfg} (hwf : g.WF) (value : List (Option Nat))
    (hlen : value.length = g.numSyms) (hsmall : ∀ s v, tbl value s = some v → v < 2 ^ 32) :
    ∃ value', g.rhsClosureWithValuesRelease value = .ok value' ∧ value'.length = g.numSyms ∧
      (∀ s v, tbl value' s = some v → v < 2 ^ 32 ∧
        ∃ c, HasWeight (NonEmptyProds g.prod) (tbl value) s c ∧ v = c % 2 ^ 32) ∧
      ∀ s c, HasWeight (NonEmptyProds g.prod) (tbl value) s c → ∃ v, tbl value' s = some v := by
  have hst : ∀ s, s ∈ (value.zipIdx.filterMap fun (v, sym) =>
      if v.isSome then some sym else none).reverse ↔ ∃ v, tbl value s = some v := by
    intro s
    rw [List.mem_reverse, List.mem_filterMap]
    constructor
    · rintro ⟨⟨o, i⟩, hm, e⟩
      rw [List.mk_mem_zipIdx_iff_getElem?] at hm
      cases o with
      | none => simp at e
      | some v => simp at e; subst e; exact ⟨v, by simp [tbl, hm]⟩
    · rintro ⟨v, hv⟩
      refine ⟨(some v, s), ?_, by simp⟩
      rw [List.mk_mem_zipIdx_iff_getElem?]
      unfold tbl at hv
      cases e : value[s]? with
      | none => simp [e] at hv
      | some o => simp [e] at hv; rw [hv]
  have hfuel : potential value + (value.zipIdx.filterMap fun (v, sym) =>
      if v.isSome then some sym else none).reverse.length ≤ valuesFuel value := by
    have h1 := potential_le hsmall
    have h2 := List.length_filterMap_le (fun ((v, sym) : Option Nat × Nat) =>
      if v.isSome then some sym else none) value.zipIdx
    rw [List.length_zipIdx] at h2
    rw [List.length_reverse]
    unfold valuesFuel
    have : value.length * (2 ^ 32 + 2) = value.length * 2 ^ 32 + value.length * 2 :=
      Nat.mul_add _ _ _
    omega
  obtain ⟨value', h1, h2⟩ := valuesLoopWrap_spec (P := NonEmptyProds g.prod) (init := tbl value)
    (n := g.numSyms) hwf (fun r hr hne => ⟨⟨r, hr, rfl, rfl⟩, hne⟩) (valuesFuel value) value _
    ⟨hlen, fun s v h => ⟨v, h⟩,
      fun s v h => ⟨[s], v, .refl _, by simp [weight, h], rfl⟩, hsmall, fun i r c _ hne hw => by
        refine .inr (.inl ?_)
        obtain ⟨s, hs⟩ := List.exists_mem_of_ne_nil _ hne
        obtain ⟨v, hv, -⟩ := weight_isSome hw s hs
        exact ⟨s, hs, (hst s).2 ⟨v, hv⟩⟩⟩ hfuel
  refine ⟨value', h1, h2.len, fun s v hv => ?_, fun s c hc => ?_⟩
  · have hlt := h2.small s v hv
    obtain ⟨w, c, h3, h4, h5⟩ := h2.sound s v hv
    exact ⟨hlt, c, ⟨w, derives_iff_der.2 h3, h4⟩, by rw [← h5, Nat.mod_eq_of_lt hlt]⟩
  · obtain ⟨w, d, hw⟩ := hc
    obtain ⟨c', h3⟩ := closed_some (f := tbl value') h2.ext (fun A α c hp hw => by
      obtain ⟨⟨r, hr, rfl, rfl⟩, hne⟩ := hp
      obtain ⟨i, hi⟩ := List.getElem?_of_mem hr
      rcases h2.work i r c hi hne hw with h | ⟨s, _, h⟩ | h
      · exact h
      · simp at h
      · exact h.elim) (derives_iff_der.1 d) hw
    obtain ⟨v, hv, -⟩ := weight_isSome h3 s (by simp)
    exact ⟨v, hv⟩

end Verif
