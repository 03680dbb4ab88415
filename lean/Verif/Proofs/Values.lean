import Verif.Proofs.Closure
import Verif.Proofs.Basic
import Verif.Spec.Weight

/-! # Helper lemmas on `rhs_closure_with_values` -/

namespace Verif

/-- The weight table read as a function. -/
def tbl (value : List (Option Nat)) (s : Sym) : Option Nat := value[s]?.join

theorem tbl_eq {value : List (Option Nat)} {s : Sym} (h : s < value.length) :
    value[s]? = some (tbl value s) := by
  simp [tbl, List.getElem?_eq_getElem h]

theorem tbl_set {value : List (Option Nat)} {t : Sym} (h : t < value.length) (v : Option Nat)
    (s : Sym) : tbl (value.set t v) s = if s = t then v else tbl value s := by
  unfold tbl
  by_cases e : s = t
  · subst e; simp [h]
  · have : ¬ t = s := fun h => e h.symm
    simp [this, e]

theorem weight_append (f : Sym → Option Nat) (u v : List Sym) :
    weight f (u ++ v) = match weight f u, weight f v with
      | some a, some b => some (a + b)
      | _, _ => none := by
  induction u with
  | nil => cases h : weight f v <;> simp [weight, h]
  | cons a u ih =>
    simp only [List.cons_append, weight, ih]
    cases f a <;> cases weight f u <;> cases weight f v <;> simp [Nat.add_assoc]

/-- A smaller table gives a smaller weight. -/
theorem weight_le {f f' : Sym → Option Nat} {w : List Sym} {c : Nat}
    (h : ∀ s ∈ w, ∀ v, f s = some v → ∃ v', f' s = some v' ∧ v' ≤ v)
    (hw : weight f w = some c) : ∃ c', weight f' w = some c' ∧ c' ≤ c := by
  induction w generalizing c with
  | nil => simp [weight] at hw; exact ⟨0, rfl, by omega⟩
  | cons a w ih =>
    simp only [weight] at hw
    cases ha : f a with
    | none => simp [ha] at hw
    | some x =>
      cases hb : weight f w with
      | none => simp [ha, hb] at hw
      | some y =>
        simp only [ha, hb, Option.some.injEq] at hw
        obtain ⟨x', h1, h2⟩ := h a (by simp) x ha
        obtain ⟨y', h3, h4⟩ := ih (fun s hs => h s (by simp [hs])) hb
        exact ⟨x' + y', by simp [weight, h1, h3], by omega⟩

theorem weight_isSome {f : Sym → Option Nat} {w : List Sym} {c : Nat}
    (hw : weight f w = some c) : ∀ s ∈ w, ∃ v, f s = some v ∧ v ≤ c := by
  induction w generalizing c with
  | nil => simp
  | cons a w ih =>
    simp only [weight] at hw
    cases ha : f a with
    | none => simp [ha] at hw
    | some x =>
      cases hb : weight f w with
      | none => simp [ha, hb] at hw
      | some y =>
        simp only [ha, hb, Option.some.injEq] at hw
        intro s hs
        rcases List.mem_cons.1 hs with rfl | hs
        · exact ⟨x, ha, by omega⟩
        · obtain ⟨v, h1, h2⟩ := ih hb s hs
          exact ⟨v, h1, by omega⟩

theorem weight_bound {f : Sym → Option Nat} {w : List Sym} {c M : Nat}
    (hf : ∀ s ∈ w, ∀ v, f s = some v → v ≤ M) (hw : weight f w = some c) :
    c ≤ w.length * M := by
  induction w generalizing c with
  | nil => simp [weight] at hw; omega
  | cons a w ih =>
    simp only [weight] at hw
    cases ha : f a with
    | none => simp [ha] at hw
    | some x =>
      cases hb : weight f w with
      | none => simp [ha, hb] at hw
      | some y =>
        simp only [ha, hb, Option.some.injEq] at hw
        have h1 := hf a (by simp) x ha
        have h2 := ih (fun s hs => hf s (by simp [hs])) hb
        rw [List.length_cons, Nat.succ_mul]
        omega

/-- `sumValues` returns the weight, unless it overflows. -/
theorem sumValues_spec (value : List (Option Nat)) (acc : Nat) (rhs : List Sym)
    (h : ∀ s ∈ rhs, s < value.length) :
    sumValues value acc rhs = .panic ∨
    (sumValues value acc rhs = .ok ((weight (tbl value) rhs).map (acc + ·)) ∧
      (acc < 2 ^ 32 → ∀ c, weight (tbl value) rhs = some c → acc + c < 2 ^ 32)) := by
  induction rhs generalizing acc with
  | nil => right; simp [sumValues, weight]
  | cons a rhs ih =>
    have ha : value[a]? = some (tbl value a) := tbl_eq (h a (by simp))
    unfold sumValues
    rw [Res.index_ok.2 ha]
    simp only [Res.bind_ok, weight]
    cases e : tbl value a with
    | none => right; simp
    | some v =>
      simp only
      by_cases ho : 2 ^ 32 ≤ acc + v
      · left; rw [if_pos ho]
      · rw [if_neg ho]
        rcases ih (acc + v) (fun s hs => h s (by simp [hs])) with h1 | ⟨h1, h2⟩
        · exact .inl h1
        · right
          rw [h1]
          cases e2 : weight (tbl value) rhs with
          | none => simp
          | some c =>
            have := h2 (by omega) c e2
            simp only [Option.map_some, Res.ok.injEq, Option.some.injEq]
            refine ⟨by omega, fun _ c' hc' => by omega⟩

/-- `sumValues` does not overflow when all values are small. -/
theorem sumValues_no_panic (value : List (Option Nat)) (M acc : Nat) (rhs : List Sym)
    (h : ∀ s ∈ rhs, s < value.length) (hM : ∀ s v, tbl value s = some v → v ≤ M)
    (hb : acc + rhs.length * M < 2 ^ 32) : sumValues value acc rhs ≠ .panic := by
  induction rhs generalizing acc with
  | nil => simp [sumValues]
  | cons a rhs ih =>
    have ha : value[a]? = some (tbl value a) := tbl_eq (h a (by simp))
    unfold sumValues
    rw [Res.index_ok.2 ha]
    simp only [Res.bind_ok]
    cases e : tbl value a with
    | none => simp
    | some v =>
      have hv := hM a v e
      rw [List.length_cons, Nat.succ_mul] at hb
      simp only
      rw [if_neg (by omega)]
      exact ih _ (fun s hs => h s (by simp [hs])) (by omega)

/-- Potential of a table: bounds the number of further improvements. -/
def potential (value : List (Option Nat)) : Nat :=
  (value.map fun o => o.getD (2 ^ 32)).sum

theorem potential_set {value : List (Option Nat)} {t : Sym} (ht : t < value.length) {w : Nat}
    (hw : ∀ v, tbl value t = some v → w < v) (hw' : w < 2 ^ 32) :
    potential (value.set t (some w)) + 1 ≤ potential value := by
  unfold potential
  induction value generalizing t with
  | nil => simp at ht
  | cons a value ih =>
    cases t with
    | zero =>
      simp only [List.set_cons_zero, List.map_cons, List.sum_cons, Option.getD_some]
      cases a with
      | none => simp only [Option.getD_none]; omega
      | some v =>
        have := hw v (by simp [tbl])
        simp only [Option.getD_some]; omega
    | succ t =>
      have := ih (t := t) (by simpa using ht) (fun v hv => hw v (by simpa [tbl] using hv))
      simp only [List.set_cons_succ, List.map_cons, List.sum_cons]
      omega

/-- Invariant of the worklist; `todo` lists rule numbers still to be looked at. -/
structure VInv (rules : List CfgRule) (n : Nat) (P : Productions) (init : Sym → Option Nat)
    (todo : Nat → Prop) (value : List (Option Nat)) (stack : List Sym) : Prop where
  len : value.length = n
  ext : ∀ s v, init s = some v → ∃ v', tbl value s = some v' ∧ v' ≤ v
  sound : ∀ s v, tbl value s = some v → ∃ w, Der P [s] w ∧ weight init w = some v
  small : ∀ s v, tbl value s = some v → v < 2 ^ 32
  work : ∀ (i : Nat) r c, rules[i]? = some r → r.rhs ≠ [] → weight (tbl value) r.rhs = some c →
    (∃ v, tbl value r.lhs = some v ∧ v ≤ c) ∨ (∃ s ∈ r.rhs, s ∈ stack) ∨ todo i

/-- The values stay below a geometric bound; used to show that nothing overflows. -/
def VBound (V K : Nat) (value : List (Option Nat)) : Prop :=
  ∀ s v, tbl value s = some v → v ≤ V * K ^ (value.countP (·.isSome))

theorem weight_of_sound {P : Productions} {init f : Sym → Option Nat}
    (h : ∀ s v, f s = some v → ∃ w, Der P [s] w ∧ weight init w = some v) {u : List Sym} {c : Nat}
    (hu : weight f u = some c) : ∃ w, Der P u w ∧ weight init w = some c := by
  induction u generalizing c with
  | nil => exact ⟨[], .nil, hu⟩
  | cons a u ih =>
    simp only [weight] at hu
    cases ha : f a with
    | none => simp [ha] at hu
    | some x =>
      cases hb : weight f u with
      | none => simp [ha, hb] at hu
      | some y =>
        simp only [ha, hb, Option.some.injEq] at hu
        obtain ⟨w₁, h1, h2⟩ := h a x ha
        obtain ⟨w₂, h3, h4⟩ := ih hb
        exact ⟨w₁ ++ w₂, h1.append h3, by rw [weight_append, h2, h4]; simp [hu]⟩

theorem valuesBody_fold {rules : List CfgRule} {n : Nat} {P : Productions}
    {init : Sym → Option Nat} (hwf : ∀ r ∈ rules, r.lhs < n ∧ ∀ s ∈ r.rhs, s < n)
    (hP : ∀ r ∈ rules, r.rhs ≠ [] → P r.lhs r.rhs) (V K : Nat) (hK1 : 1 ≤ K)
    (hK : ∀ r ∈ rules, r.rhs.length ≤ K)
    (ids : List Nat) (hids : ∀ i ∈ ids, ∃ r, rules[i]? = some r ∧ r.rhs ≠ [])
    (value : List (Option Nat)) (stack : List Sym)
    (hinv : VInv rules n P init (· ∈ ids) value stack) :
    (ids.foldlM (valuesBody rules) (value, stack) = .panic ∧
      (V * K ^ (n + 1) < 2 ^ 32 → ¬ VBound V K value)) ∨
    ∃ value' stack', ids.foldlM (valuesBody rules) (value, stack) = .ok (value', stack') ∧
      VInv rules n P init (fun _ => False) value' stack' ∧
      potential value' + stack'.length ≤ potential value + stack.length ∧
      (V * K ^ (n + 1) < 2 ^ 32 → VBound V K value → VBound V K value') := by
  induction ids generalizing value stack with
  | nil =>
    right
    refine ⟨value, stack, rfl, ⟨hinv.len, hinv.ext, hinv.sound, hinv.small,
      fun i r c h1 h2 h3 => ?_⟩, Nat.le_refl _, fun _ h => h⟩
    rcases hinv.work i r c h1 h2 h3 with h | h | h
    · exact .inl h
    · exact .inr (.inl h)
    · simp at h
  | cons i ids ih =>
    obtain ⟨r, hr, hne⟩ := hids i (by simp)
    have hmem : r ∈ rules := List.mem_of_getElem? hr
    obtain ⟨hl, hrhs⟩ := hwf r hmem
    have hl' : r.lhs < value.length := by rw [hinv.len]; exact hl
    have hrhs' : ∀ s ∈ r.rhs, s < value.length := by rw [hinv.len]; exact hrhs
    have hcnt : value.countP (·.isSome) ≤ n := by rw [← hinv.len]; exact List.countP_le_length
    have hidx : Res.index rules i = .ok r := Res.index_ok.2 hr
    have hids' : ∀ j ∈ ids, ∃ r, rules[j]? = some r ∧ r.rhs ≠ [] :=
      fun j hj => hids j (by simp [hj])
    rw [List.foldlM_cons]
    -- the case in which nothing happens
    have skip : valuesBody rules (value, stack) i = .ok (value, stack) →
        (∀ c, weight (tbl value) r.rhs = some c → ∃ v, tbl value r.lhs = some v ∧ v ≤ c) →
        (((valuesBody rules (value, stack) i >>= fun s => ids.foldlM (valuesBody rules) s) = .panic
          ∧ (V * K ^ (n + 1) < 2 ^ 32 → ¬ VBound V K value)) ∨
        ∃ value' stack', (valuesBody rules (value, stack) i >>= fun s =>
            ids.foldlM (valuesBody rules) s) = .ok (value', stack') ∧
          VInv rules n P init (fun _ => False) value' stack' ∧
          potential value' + stack'.length ≤ potential value + stack.length ∧
          (V * K ^ (n + 1) < 2 ^ 32 → VBound V K value → VBound V K value')) := fun e hdone => by
      rw [e]
      exact ih hids' value stack ⟨hinv.len, hinv.ext, hinv.sound, hinv.small,
        fun j r' c h1 h2 h3 => by
          rcases hinv.work j r' c h1 h2 h3 with h | h | h
          · exact .inl h
          · exact .inr (.inl h)
          · rcases List.mem_cons.1 h with rfl | h
            · rw [hr] at h1; cases h1; exact .inl (hdone c h3)
            · exact .inr (.inr h)⟩
    rcases sumValues_spec value 0 r.rhs hrhs' with hp | ⟨hs, hlt⟩
    · left
      refine ⟨by simp [valuesBody, hidx, hp], fun hb hvb => ?_⟩
      refine sumValues_no_panic value _ 0 r.rhs hrhs' hvb ?_ hp
      rw [Nat.zero_add]
      refine Nat.lt_of_le_of_lt ?_ hb
      calc r.rhs.length * (V * K ^ (value.countP (·.isSome)))
          ≤ K * (V * K ^ n) := Nat.mul_le_mul (hK r hmem)
            (Nat.mul_le_mul (Nat.le_refl _) (Nat.pow_le_pow_right hK1 hcnt))
        _ = V * K ^ (n + 1) := by rw [Nat.pow_succ]; ac_rfl
    · simp only [Nat.zero_add] at hs hlt
      have hidl : Res.index value r.lhs = .ok (tbl value r.lhs) := Res.index_ok.2 (tbl_eq hl')
      cases hw : weight (tbl value) r.rhs with
      | none =>
        refine skip ?_ (by simp [hw])
        simp [valuesBody, hidx, hs, hw]
      | some c =>
        have hc := hlt (by omega) c hw
        by_cases hdone : ∃ v, tbl value r.lhs = some v ∧ v ≤ c
        · refine skip ?_ (fun c' hc' => by rw [hw] at hc'; cases hc'; exact hdone)
          obtain ⟨v, hv, hvc⟩ := hdone
          simp [valuesBody, hidx, hs, hw, hidl, hv, hvc]
        · have e : valuesBody rules (value, stack) i =
              .ok (value.set r.lhs (some c), r.lhs :: stack) := by
            cases hv : tbl value r.lhs with
            | none => simp [valuesBody, hidx, hs, hw, hidl, hv]
            | some v =>
              have : ¬ v ≤ c := fun h => hdone ⟨v, hv, h⟩
              simp [valuesBody, hidx, hs, hw, hidl, hv, this]
          rw [e]
          simp only [Res.bind_ok]
          have hlow : ∀ v, tbl value r.lhs = some v → c < v := by
            intro v hv
            by_contra h
            exact hdone ⟨v, hv, by omega⟩
          have hpot := potential_set hl' hlow hc
          have hset := tbl_set hl' (some c)
          have hdec : ∀ s v, tbl value s = some v →
              ∃ v', tbl (value.set r.lhs (some c)) s = some v' ∧ v' ≤ v := by
            intro s v hv
            rw [hset]
            by_cases e : s = r.lhs
            · rw [if_pos e]; subst e; exact ⟨c, rfl, by have := hlow v hv; omega⟩
            · rw [if_neg e]; exact ⟨v, hv, Nat.le_refl _⟩
          have hinv' : VInv rules n P init (· ∈ ids) (value.set r.lhs (some c))
              (r.lhs :: stack) := by
            refine ⟨by rw [List.length_set]; exact hinv.len, fun s v hv => ?_, fun s v hv => ?_,
              fun s v hv => ?_, fun j r' c' h1 h2 h3 => ?_⟩
            · obtain ⟨v', h1, h2⟩ := hinv.ext s v hv
              obtain ⟨v'', h3, h4⟩ := hdec s v' h1
              exact ⟨v'', h3, by omega⟩
            · rw [hset] at hv
              by_cases e : s = r.lhs
              · rw [if_pos e] at hv; cases hv; subst e
                obtain ⟨w, h1, h2⟩ := weight_of_sound hinv.sound hw
                exact ⟨w, Der.single_iff.2 (.inr ⟨r.rhs, hP r hmem hne, h1⟩), h2⟩
              · rw [if_neg e] at hv; exact hinv.sound s v hv
            · rw [hset] at hv
              by_cases e : s = r.lhs
              · rw [if_pos e] at hv; cases hv; exact hc
              · rw [if_neg e] at hv; exact hinv.small s v hv
            · by_cases hin : r.lhs ∈ r'.rhs
              · exact .inr (.inl ⟨r.lhs, hin, by simp⟩)
              · have h3' : weight (tbl value) r'.rhs = some c' := by
                  rw [← h3]
                  clear h3 h1 h2
                  generalize r'.rhs = l at hin
                  induction l with
                  | nil => rfl
                  | cons a l ihl =>
                    rw [List.mem_cons, not_or] at hin
                    simp only [weight]
                    rw [ihl hin.2, hset, if_neg (fun h => hin.1 h.symm)]
                rcases hinv.work j r' c' h1 h2 h3' with ⟨v, hv, hvc⟩ | ⟨s, hs, hs'⟩ | h
                · obtain ⟨v', h4, h5⟩ := hdec _ v hv
                  exact .inl ⟨v', h4, by omega⟩
                · exact .inr (.inl ⟨s, hs, by simp [hs']⟩)
                · rcases List.mem_cons.1 h with rfl | h
                  · rw [hr] at h1; cases h1
                    rw [hw] at h3'; cases h3'
                    exact .inl ⟨c, by rw [hset, if_pos rfl], Nat.le_refl _⟩
                  · exact .inr (.inr h)
          have hbd : V * K ^ (n + 1) < 2 ^ 32 → VBound V K value →
              VBound V K (value.set r.lhs (some c)) := by
            intro hb hvb s v hv
            have hwb : c ≤ K * (V * K ^ (value.countP (·.isSome))) :=
              Nat.le_trans (weight_bound (fun s _ v => hvb s v) hw)
                (Nat.mul_le_mul (hK r hmem) (Nat.le_refl _))
            rw [hset] at hv
            cases ho : tbl value r.lhs with
            | none =>
              have hcs : (value.set r.lhs (some c)).countP (·.isSome) =
                  value.countP (·.isSome) + 1 := by
                have hg : value[r.lhs] = none := by
                  have := tbl_eq hl'
                  rw [ho, List.getElem?_eq_getElem hl'] at this
                  simpa using this
                rw [List.countP_set hl']
                simp [hg]
              rw [hcs, Nat.pow_succ]
              by_cases e : s = r.lhs
              · rw [if_pos e] at hv; cases hv
                calc c ≤ K * (V * K ^ (value.countP (·.isSome))) := hwb
                  _ = _ := by ac_rfl
              · rw [if_neg e] at hv
                refine Nat.le_trans (hvb s v hv) (Nat.mul_le_mul (Nat.le_refl _) ?_)
                exact Nat.le_mul_of_pos_right _ hK1
            | some v₀ =>
              have hcs : (value.set r.lhs (some c)).countP (·.isSome) =
                  value.countP (·.isSome) := by
                have hg : value[r.lhs] = some v₀ := by
                  have := tbl_eq hl'
                  rw [ho, List.getElem?_eq_getElem hl'] at this
                  simpa using this
                have hpos : 0 < value.countP (·.isSome) := by
                  rw [List.countP_pos_iff]
                  exact ⟨_, List.getElem_mem hl', by simp [hg]⟩
                rw [List.countP_set hl']
                simp [hg]
                omega
              rw [hcs]
              by_cases e : s = r.lhs
              · rw [if_pos e] at hv; cases hv
                exact Nat.le_trans (Nat.le_of_lt (hlow v₀ ho)) (hvb _ v₀ ho)
              · rw [if_neg e] at hv; exact hvb s v hv
          rcases ih hids' _ _ hinv' with ⟨h1, h2⟩ | ⟨value', stack', h1, h2, h3, h4⟩
          · exact .inl ⟨h1, fun hb hv => h2 hb (hbd hb hv)⟩
          · refine .inr ⟨value', stack', h1, h2, ?_, fun hb hv => h4 hb (hbd hb hv)⟩
            simp only [List.length_cons] at h3
            omega

theorem valuesLoop_spec {rules : List CfgRule} {n : Nat} {P : Productions}
    {init : Sym → Option Nat} (hwf : ∀ r ∈ rules, r.lhs < n ∧ ∀ s ∈ r.rhs, s < n)
    (hP : ∀ r ∈ rules, r.rhs ≠ [] → P r.lhs r.rhs) (V K : Nat) (hK1 : 1 ≤ K)
    (hK : ∀ r ∈ rules, r.rhs.length ≤ K) (fuel : Nat)
    (value : List (Option Nat)) (stack : List Sym)
    (hinv : VInv rules n P init (fun _ => False) value stack)
    (hf : potential value + stack.length ≤ fuel) :
    (valuesLoop rules (OccurenceMap.fromRules rules) fuel value stack = .panic ∧
      (V * K ^ (n + 1) < 2 ^ 32 → ¬ VBound V K value)) ∨
    ∃ value', valuesLoop rules (OccurenceMap.fromRules rules) fuel value stack = .ok value' ∧
      VInv rules n P init (fun _ => False) value' [] := by
  induction fuel generalizing value stack with
  | zero =>
    have : stack = [] := List.length_eq_zero_iff.1 (by omega)
    subst this
    exact .inr ⟨value, rfl, hinv⟩
  | succ fuel ih =>
    cases stack with
    | nil => exact .inr ⟨value, rfl, hinv⟩
    | cons a stack =>
      have hids : ∀ i ∈ (OccurenceMap.fromRules rules a).rhs, ∃ r, rules[i]? = some r ∧
          r.rhs ≠ [] := by
        intro i hi
        obtain ⟨r, h1, h2⟩ := mem_occ.1 hi
        exact ⟨r, h1, List.ne_nil_of_mem h2⟩
      rcases valuesBody_fold hwf hP V K hK1 hK _ hids value stack
        ⟨hinv.len, hinv.ext, hinv.sound, hinv.small, fun i r c h1 h2 h3 => by
          rcases hinv.work i r c h1 h2 h3 with h | ⟨s, hs, hs'⟩ | h
          · exact .inl h
          · rcases List.mem_cons.1 hs' with rfl | hs'
            · exact .inr (.inr (mem_occ.2 ⟨r, h1, hs⟩))
            · exact .inr (.inl ⟨s, hs, hs'⟩)
          · exact h.elim⟩ with ⟨h1, h2⟩ | ⟨value', stack', h1, h2, h3, h4⟩
      · left
        exact ⟨by simp only [valuesLoop, h1, Res.bind_panic], h2⟩
      · simp only [List.length_cons] at hf
        simp only [valuesLoop, h1, Res.bind_ok]
        rcases ih value' stack' h2 (by omega) with ⟨h5, h6⟩ | h5
        · exact .inl ⟨h5, fun hb hv => h6 hb (h4 hb hv)⟩
        · exact .inr h5

/-- A closed table bounds the weight of every derivation. -/
theorem closed_le {P : Productions} {init f : Sym → Option Nat}
    (hext : ∀ s v, init s = some v → ∃ v', f s = some v' ∧ v' ≤ v)
    (hcl : ∀ A α c, P A α → weight f α = some c → ∃ v, f A = some v ∧ v ≤ c)
    {u w : List Sym} (d : Der P u w) {c : Nat} (hw : weight init w = some c) :
    ∃ c', weight f u = some c' ∧ c' ≤ c := by
  induction d generalizing c with
  | nil => exact ⟨c, hw, Nat.le_refl _⟩
  | @keep a u v d ih =>
    simp only [weight] at hw
    cases ha : init a with
    | none => simp [ha] at hw
    | some x =>
      cases hb : weight init v with
      | none => simp [ha, hb] at hw
      | some y =>
        simp only [ha, hb, Option.some.injEq] at hw
        obtain ⟨x', h1, h2⟩ := hext a x ha
        obtain ⟨y', h3, h4⟩ := ih hb
        exact ⟨x' + y', by simp [weight, h1, h3], by omega⟩
  | @expand A α x u v hp _ _ ihx ihu =>
    rw [weight_append] at hw
    cases ha : weight init x with
    | none => simp [ha] at hw
    | some cx =>
      cases hb : weight init v with
      | none => simp [ha, hb] at hw
      | some cv =>
        simp only [ha, hb, Option.some.injEq] at hw
        obtain ⟨x', h1, h2⟩ := ihx ha
        obtain ⟨y', h3, h4⟩ := ihu hb
        obtain ⟨v', h5, h6⟩ := hcl A α x' hp h1
        exact ⟨v' + y', by simp [weight, h5, h3], by omega⟩

theorem potential_le {value : List (Option Nat)} (h : ∀ s v, tbl value s = some v → v < 2 ^ 32) :
    potential value ≤ value.length * 2 ^ 32 := by
  unfold potential
  have : ∀ o ∈ value, o.getD (2 ^ 32) ≤ 2 ^ 32 := by
    intro o ho
    cases o with
    | none => exact Nat.le_refl _
    | some v =>
      obtain ⟨i, hi⟩ := List.getElem?_of_mem ho
      have := h i v (by simp [tbl, hi])
      simp only [Option.getD_some]; omega
  clear h
  induction value with
  | nil => simp
  | cons a value ih =>
    have h1 := this a (by simp)
    have h2 := ih (fun o ho => this o (by simp [ho]))
    simp only [List.map_cons, List.sum_cons, List.length_cons, Nat.succ_mul]
    omega

/-- Main lemma on `rhs_closure_with_values`. -/
theorem rhsClosureWithValues_spec {g : Cfg} (hwf : g.WF) (value : List (Option Nat))
    (hlen : value.length = g.numSyms) (hsmall : ∀ s v, tbl value s = some v → v < 2 ^ 32)
    (V K : Nat) (hK1 : 1 ≤ K) (hK : ∀ r ∈ g.rules, r.rhs.length ≤ K)
    (hV : ∀ s v, tbl value s = some v → v ≤ V) :
    (g.rhsClosureWithValues value = .panic ∧ ¬ V * K ^ (g.numSyms + 1) < 2 ^ 32) ∨
    ∃ value', g.rhsClosureWithValues value = .ok value' ∧ value'.length = g.numSyms ∧
      ∀ s v, tbl value' s = some v ↔
        HasWeight (NonEmptyProds g.prod) (tbl value) s v ∧
        ∀ c, HasWeight (NonEmptyProds g.prod) (tbl value) s c → v ≤ c := by
  have hst : ∀ s, s ∈ (value.zipIdx.filterMap fun (v, sym) =>
      if v.isSome then some sym else none).reverse ↔ ∃ v, tbl value s = some v := by
    intro s
    rw [List.mem_reverse, List.mem_filterMap]
    constructor
    · rintro ⟨⟨o, i⟩, hm, e⟩
      rw [List.mk_mem_zipIdx_iff_getElem?] at hm
      cases o with
      | none => simp at e
      | some v => simp at e; subst e; exact ⟨v, by simp [tbl, hm]⟩
    · rintro ⟨v, hv⟩
      refine ⟨(some v, s), ?_, by simp⟩
      rw [List.mk_mem_zipIdx_iff_getElem?]
      unfold tbl at hv
      cases e : value[s]? with
      | none => simp [e] at hv
      | some o => simp [e] at hv; rw [hv]
  have hfuel : potential value + (value.zipIdx.filterMap fun (v, sym) =>
      if v.isSome then some sym else none).reverse.length ≤ valuesFuel value := by
    have h1 := potential_le hsmall
    have h2 := List.length_filterMap_le (fun ((v, sym) : Option Nat × Nat) =>
      if v.isSome then some sym else none) value.zipIdx
    rw [List.length_zipIdx] at h2
    rw [List.length_reverse]
    unfold valuesFuel
    have : value.length * (2 ^ 32 + 2) = value.length * 2 ^ 32 + value.length * 2 :=
      Nat.mul_add _ _ _
    omega
  rcases valuesLoop_spec (P := NonEmptyProds g.prod) (init := tbl value) (n := g.numSyms) hwf
    (fun r hr hne => ⟨⟨r, hr, rfl, rfl⟩, hne⟩) V K hK1 hK (valuesFuel value) value _
    ⟨hlen, fun s v h => ⟨v, h, Nat.le_refl _⟩,
      fun s v h => ⟨[s], .refl _, by simp [weight, h]⟩, hsmall, fun i r c _ hne hw => by
        refine .inr (.inl ?_)
        obtain ⟨s, hs⟩ := List.exists_mem_of_ne_nil _ hne
        obtain ⟨v, hv, -⟩ := weight_isSome hw s hs
        exact ⟨s, hs, (hst s).2 ⟨v, hv⟩⟩⟩ hfuel with ⟨h1, h2⟩ | ⟨value', h1, h2⟩
  · refine .inl ⟨h1, fun hb => h2 hb fun s v hv => ?_⟩
    exact Nat.le_trans (hV s v hv) (Nat.le_mul_of_pos_right _ (Nat.pow_pos hK1))
  · refine .inr ⟨value', h1, h2.len, ?_⟩
    have low : ∀ s c, HasWeight (NonEmptyProds g.prod) (tbl value) s c →
        ∃ v, tbl value' s = some v ∧ v ≤ c := by
      rintro s c ⟨w, d, hw⟩
      obtain ⟨c', h3, h4⟩ := closed_le (f := tbl value') h2.ext (fun A α c hp hw => by
        obtain ⟨⟨r, hr, rfl, rfl⟩, hne⟩ := hp
        obtain ⟨i, hi⟩ := List.getElem?_of_mem hr
        rcases h2.work i r c hi hne hw with h | ⟨s, _, h⟩ | h
        · exact h
        · simp at h
        · exact h.elim) (derives_iff_der.1 d) hw
      simp only [weight] at h3
      cases e : tbl value' s with
      | none => simp [e] at h3
      | some v => simp [e] at h3; exact ⟨v, rfl, by omega⟩
    intro s v
    constructor
    · intro hv
      obtain ⟨w, h3, h4⟩ := h2.sound s v hv
      refine ⟨⟨w, derives_iff_der.2 h3, h4⟩, fun c hc => ?_⟩
      obtain ⟨v', h5, h6⟩ := low s c hc
      rw [hv] at h5; cases h5; exact h6
    · rintro ⟨h3, h4⟩
      obtain ⟨v', h5, h6⟩ := low s v h3
      obtain ⟨w, h7, h8⟩ := h2.sound s v' h5
      have := h4 v' ⟨w, derives_iff_der.2 h7, h8⟩
      rw [h5]; congr 1; omega

end Verif
