import Verif.Model.Classify
import Verif.Proofs.Useful

/-! # Helper lemmas on recursive rules -/

namespace Verif

open BitMatrix

theorem anyDerives_spec {n : Nat} {m : BitMatrix} (h : Square n m) {lhs : Sym} (hl : lhs < n)
    (l : List Sym) (hr : ∀ s ∈ l, s < n) :
    ∃ b, anyDerives m lhs l = .ok b ∧ (b = true ↔ ∃ s ∈ l, Bit m s lhs) := by
  induction l with
  | nil => exact ⟨false, rfl, by simp⟩
  | cons s l ih =>
    obtain ⟨b, h1, h2⟩ := ih fun s hs => hr s (by simp [hs])
    obtain ⟨x, h3, h4⟩ := get_spec h (hr s (by simp)) hl
    unfold anyDerives
    rw [h3]
    cases x
    · have : ¬ Bit m s lhs := by simpa using h4
      refine ⟨b, by simpa using h1, ?_⟩
      simp [h2, this]
    · exact ⟨true, by simp, by simp [h4.1 rfl]⟩

theorem mem_three {l : List Sym} {p : Sym → Prop} {a b : Sym} (ha : l.head? = some a)
    (hb : l.getLast? = some b) :
    (∃ s ∈ l, p s) ↔ p a ∨ (∃ s ∈ (l.drop 1).take (l.length - 2), p s) ∨ p b := by
  cases l with
  | nil => simp at ha
  | cons x l =>
    obtain rfl : x = a := by simpa using ha
    rcases List.eq_nil_or_concat l with rfl | ⟨l, y, rfl⟩
    · obtain rfl : x = b := by simpa using hb
      simp
    · have hb' : y = b := by
        rw [List.concat_eq_append, ← List.cons_append, List.getLast?_append] at hb
        simpa using hb
      subst hb'
      simp only [List.concat_eq_append, List.drop_succ_cons, List.drop_zero, List.length_cons,
        List.length_append, List.length_nil]
      rw [show l.length + (0 + 1) + 1 - 2 = l.length by omega, List.take_left' rfl]
      simp only [List.mem_cons, List.mem_append, List.not_mem_nil, or_false]
      constructor
      · rintro ⟨s, rfl | h | rfl, hp⟩
        · exact .inl hp
        · exact .inr (.inl ⟨s, h, hp⟩)
        · exact .inr (.inr hp)
      · rintro (h | ⟨s, hs, h⟩ | h)
        · exact ⟨x, .inl rfl, h⟩
        · exact ⟨s, .inr (.inl hs), h⟩
        · exact ⟨y, .inr (.inr rfl), h⟩

/-- What a recursion kind says about a rule. -/
structure KindOk (P : Productions) (r : CfgRule) (k : RecursionKind) : Prop where
  left : k.left = true ↔ ∃ s, r.rhs.head? = some s ∧ Reaches P s r.lhs
  right : k.right = true ↔ ∃ s, r.rhs.getLast? = some s ∧ Reaches P s r.lhs
  middle : k.middle = true ↔ ∃ s ∈ (r.rhs.drop 1).take (r.rhs.length - 2), Reaches P s r.lhs

theorem reaches_lhs_iff {P : Productions} {A s : Sym} {α : List Sym} (hp : P A α) (hs : s ∈ α) :
    ReachesPlus P s A ↔ Reaches P s A := by
  rw [reaches_iff_plus]
  constructor
  · exact .inl
  · rintro (h | rfl)
    · exact h
    · exact reachesPlus_iff.2 (.single ⟨α, hp, hs⟩)

theorem ruleRecursion_spec {g : Cfg} (hwf : g.WF) {m : BitMatrix} (hm : Square g.numSyms m)
    (hb : ∀ a b, Bit m a b ↔ ReachesPlus g.prod a b) {r : CfgRule} (hr : r ∈ g.rules) :
    ∃ o, ruleRecursion r m = .ok o ∧ (o.isSome = true ↔ ∃ s ∈ r.rhs, Reaches g.prod s r.lhs) ∧
      ∀ k, o = some k → KindOk g.prod r k := by
  obtain ⟨h1, h2⟩ := hwf r hr
  have hR : ∀ s ∈ r.rhs, (Bit m s r.lhs ↔ Reaches g.prod s r.lhs) := fun s hs => by
    rw [hb, reaches_lhs_iff ⟨r, hr, rfl, rfl⟩ hs]
  unfold ruleRecursion
  cases e1 : r.rhs.head? with
  | none =>
    have : r.rhs = [] := by simpa using e1
    exact ⟨none, by simp, by simp [this], by simp⟩
  | some a =>
    have ha : a ∈ r.rhs := List.mem_of_mem_head? e1
    cases e2 : r.rhs.getLast? with
    | none =>
      have : r.rhs = [] := by simpa using e2
      rw [this] at ha; simp at ha
    | some b =>
      have hb' : b ∈ r.rhs := List.mem_of_getLast? e2
      obtain ⟨x, h3, h4⟩ := get_spec hm (h2 a ha) h1
      obtain ⟨y, h5, h6⟩ := get_spec hm (h2 b hb') h1
      have hsub : ∀ s ∈ (r.rhs.drop 1).take (r.rhs.length - 2), s ∈ r.rhs := fun s hs =>
        List.mem_of_mem_drop (List.mem_of_mem_take hs)
      obtain ⟨z, h7, h8⟩ := anyDerives_spec hm h1 ((r.rhs.drop 1).take (r.rhs.length - 2))
        (fun s hs => h2 s (hsub s hs))
      rw [hR a ha] at h4
      rw [hR b hb'] at h6
      have h8 : z = true ↔ ∃ s ∈ (r.rhs.drop 1).take (r.rhs.length - 2), Reaches g.prod s r.lhs := by
        rw [h8]
        constructor
        · rintro ⟨s, hs, h⟩; exact ⟨s, hs, (hR s (hsub s hs)).1 h⟩
        · rintro ⟨s, hs, h⟩; exact ⟨s, hs, (hR s (hsub s hs)).2 h⟩
      have hk : KindOk g.prod r ⟨x, z, y⟩ :=
        ⟨by simpa [e1] using h4, by simpa [e2] using h6, h8⟩
      refine ⟨if RecursionKind.any ⟨x, z, y⟩ then some ⟨x, z, y⟩ else none, ?_, ?_, ?_⟩
      · simp only [h3, h5, h7, Res.bind_ok]
      · have : RecursionKind.any ⟨x, z, y⟩ = true ↔ ∃ s ∈ r.rhs, Reaches g.prod s r.lhs := by
          rw [mem_three e1 e2, ← h4, ← h6, ← h8]
          simp [RecursionKind.any, or_assoc]
        rw [← this]
        cases RecursionKind.any ⟨x, z, y⟩ <;> simp
      · intro k hk'
        split at hk'
        · simp only [Option.some.injEq] at hk'
          subst hk'; exact hk
        · simp at hk'

open Classical in
theorem recursiveRules_spec {g : Cfg} (hwf : g.WF) :
    ∃ l, g.recursiveRules = .ok l ∧
      l.map (·.1) = (g.rules.filter fun r => ∃ s ∈ r.rhs, Reaches g.prod s r.lhs) ∧
      ∀ p ∈ l, p.1 ∈ g.rules ∧ KindOk g.prod p.1 p.2 := by
  obtain ⟨m, h1, h2, h3⟩ := Cfg.reachability_spec hwf
  have key : ∀ rules : List CfgRule, (∀ r ∈ rules, r ∈ g.rules) →
      ∃ kinds : List (CfgRule × Option RecursionKind),
        (rules.mapM fun rule => do .ok (rule, ← ruleRecursion rule m) : Res _) = .ok kinds ∧
        (kinds.filterMap fun (rule, kind) => kind.map fun k => (rule, k)).map (·.1) =
          (rules.filter fun r => ∃ s ∈ r.rhs, Reaches g.prod s r.lhs) ∧
        ∀ p ∈ kinds.filterMap fun (rule, kind) => kind.map fun k => (rule, k),
          p.1 ∈ g.rules ∧ KindOk g.prod p.1 p.2 := by
    intro rules
    induction rules with
    | nil => intro _; exact ⟨[], rfl, rfl, by simp⟩
    | cons r rules ih =>
      intro hr
      obtain ⟨kinds, h4, h5, h6⟩ := ih fun r h => hr r (by simp [h])
      obtain ⟨o, h7, h8, h9⟩ := ruleRecursion_spec hwf h2 h3 (hr r (by simp))
      refine ⟨(r, o) :: kinds, by rw [List.mapM_cons, h7, h4]; rfl, ?_, ?_⟩
      · rw [List.filterMap_cons, List.filter_cons]
        cases o with
        | none =>
          have : ¬ ∃ s ∈ r.rhs, Reaches g.prod s r.lhs := by rw [← h8]; simp
          simp only [Option.map_none, this, decide_false, Bool.false_eq_true, if_false]
          exact h5
        | some k =>
          have : ∃ s ∈ r.rhs, Reaches g.prod s r.lhs := h8.1 rfl
          simp only [Option.map_some, this, decide_true, if_true, List.map_cons]
          rw [← h5]
      · intro p hp
        rw [List.filterMap_cons] at hp
        cases o with
        | none => exact h6 p hp
        | some k =>
          simp only [Option.map_some, List.mem_cons] at hp
          rcases hp with rfl | hp
          · exact ⟨hr r (by simp), h9 k rfl⟩
          · exact h6 p hp
  obtain ⟨kinds, h4, h5, h6⟩ := key g.rules fun _ h => h
  refine ⟨_, ?_, h5, h6⟩
  rw [Cfg.recursiveRules, h1]
  simp only [Res.bind_ok]
  rw [h4]
  rfl

/-- Without nullable symbols, the first symbol of a derived string stems from the first symbol. -/
theorem der_first {P : Productions} (hn : ∀ A, ¬ Nullable P A) {a b : Sym} {u v : List Sym}
    (d : Der P (a :: u) (b :: v)) : ∃ v', Der P [a] (b :: v') := by
  obtain ⟨w₁, w₂, e, d1, -⟩ := Der.cons_iff.1 d
  cases w₁ with
  | nil => exact (hn a (derives_iff_der.2 d1)).elim
  | cons c w₁ =>
    simp only [List.cons_append, List.cons.injEq] at e
    obtain ⟨rfl, rfl⟩ := e
    exact ⟨w₁, d1⟩

end Verif
