import Verif.Spec.Language
import Mathlib.Data.List.Basic

/-! # Helper lemmas on derivations -/

namespace Verif

variable {P Q : Productions}

/-- Derivation forests: a structural presentation of `Derives`. -/
inductive Der (P : Productions) : List Sym → List Sym → Prop
  | nil : Der P [] []
  | keep (a : Sym) {u v : List Sym} : Der P u v → Der P (a :: u) (a :: v)
  | expand {A : Sym} {α x u v : List Sym} :
      P A α → Der P α x → Der P u v → Der P (A :: u) (x ++ v)

theorem Der.refl (u : List Sym) : Der P u u := by
  induction u with
  | nil => exact .nil
  | cons a u ih => exact .keep a ih

theorem Der.append {u₁ u₂ v₁ v₂ : List Sym} (h₁ : Der P u₁ v₁) (h₂ : Der P u₂ v₂) :
    Der P (u₁ ++ u₂) (v₁ ++ v₂) := by
  induction h₁ with
  | nil => exact h₂
  | keep a _ ih => exact .keep a ih
  | expand hp hx _ _ ih =>
    rw [List.append_assoc]
    exact .expand hp hx ih

theorem Der.split {u₁ u₂ w : List Sym} (h : Der P (u₁ ++ u₂) w) :
    ∃ w₁ w₂, w = w₁ ++ w₂ ∧ Der P u₁ w₁ ∧ Der P u₂ w₂ := by
  induction u₁ generalizing w with
  | nil => exact ⟨[], w, rfl, .nil, h⟩
  | cons a u ih =>
    cases h with
    | keep _ h =>
      obtain ⟨w₁, w₂, rfl, h₁, h₂⟩ := ih h
      exact ⟨a :: w₁, w₂, rfl, .keep a h₁, h₂⟩
    | expand hp hx h =>
      obtain ⟨w₁, w₂, rfl, h₁, h₂⟩ := ih h
      exact ⟨_ ++ w₁, w₂, by rw [List.append_assoc], .expand hp hx h₁, h₂⟩

theorem Der.append_iff {u₁ u₂ w : List Sym} :
    Der P (u₁ ++ u₂) w ↔ ∃ w₁ w₂, w = w₁ ++ w₂ ∧ Der P u₁ w₁ ∧ Der P u₂ w₂ :=
  ⟨Der.split, fun ⟨_, _, e, h₁, h₂⟩ => e ▸ h₁.append h₂⟩

theorem Der.cons_iff {a : Sym} {u w : List Sym} :
    Der P (a :: u) w ↔ ∃ w₁ w₂, w = w₁ ++ w₂ ∧ Der P [a] w₁ ∧ Der P u w₂ :=
  Der.append_iff (u₁ := [a])

theorem Der.nil_iff {w : List Sym} : Der P [] w ↔ w = [] := by
  constructor
  · intro h; cases h; rfl
  · rintro rfl; exact .nil

theorem Der.single_iff {A : Sym} {w : List Sym} :
    Der P [A] w ↔ w = [A] ∨ ∃ α, P A α ∧ Der P α w := by
  constructor
  · intro h
    cases h with
    | keep _ h => cases h; exact .inl rfl
    | expand hp hx h => cases h; exact .inr ⟨_, hp, by simpa using hx⟩
  · rintro (rfl | ⟨α, hp, h⟩)
    · exact .refl _
    · simpa using Der.expand hp h .nil

theorem Der.step {u v w : List Sym} (h : Der P u v) (hs : Step P v w) : Der P u w := by
  obtain ⟨A, α, p, s, hp, rfl, rfl⟩ := hs
  generalize hv : p ++ A :: s = v at h
  induction h generalizing p s with
  | nil => simp at hv
  | @keep a u v h ih =>
    cases p with
    | nil =>
      simp only [List.nil_append, List.cons.injEq] at hv ⊢
      obtain ⟨rfl, rfl⟩ := hv
      exact .expand hp (.refl _) h
    | cons b p =>
      simp only [List.cons_append, List.cons.injEq] at hv ⊢
      obtain ⟨rfl, e⟩ := hv
      exact .keep _ (ih p s e)
  | @expand B β x u v hB hx hu ihx ihu =>
    -- the rewritten occurrence is either inside `x` or inside `v`
    rcases List.append_eq_append_iff.1 hv with ⟨t, rfl, e⟩ | ⟨t, rfl, e⟩
    · cases t with
      | nil =>
        simp only [List.append_nil] at hx ihx ⊢
        simp only [List.nil_append] at e
        rw [List.append_assoc]
        exact .expand hB hx (ihu [] s e)
      | cons c t =>
        simp only [List.cons_append, List.cons.injEq] at e
        obtain ⟨rfl, rfl⟩ := e
        have := Der.expand hB (ihx p t rfl) hu
        simpa using this
    · have := Der.expand hB hx (ihu t s e.symm)
      simpa using this

theorem derives_iff_der {u v : List Sym} : Derives P u v ↔ Der P u v := by
  constructor
  · intro h
    induction h with
    | refl => exact .refl _
    | tail _ hs ih => exact ih.step hs
  · intro h
    induction h with
    | nil => exact .refl
    | keep a _ ih =>
      refine Relation.ReflTransGen.lift (a :: ·) ?_ _ _ ih
      rintro x y ⟨A, α, p, s, hp, rfl, rfl⟩
      exact ⟨A, α, a :: p, s, hp, rfl, rfl⟩
    | @expand A α x u v hp _ _ ihx ihu =>
      refine .trans (.single (b := α ++ u) ⟨A, α, [], u, hp, rfl, rfl⟩) ?_
      refine .trans (Relation.ReflTransGen.lift (· ++ u) ?_ _ _ ihx)
        (Relation.ReflTransGen.lift (x ++ ·) ?_ _ _ ihu)
      · rintro y z ⟨A, α, p, s, hp, rfl, rfl⟩
        exact ⟨A, α, p, s ++ u, hp, by simp, by simp⟩
      · rintro y z ⟨A, α, p, s, hp, rfl, rfl⟩
        exact ⟨A, α, x ++ p, s, hp, by simp, by simp⟩

theorem Der.trans {u v w : List Sym} (h₁ : Der P u v) (h₂ : Der P v w) : Der P u w :=
  derives_iff_der.1 ((derives_iff_der.2 h₁).trans (derives_iff_der.2 h₂))

theorem Der.prod {A : Sym} {α : List Sym} (h : P A α) : Der P [A] α :=
  Der.single_iff.2 (.inr ⟨α, h, .refl _⟩)

/-- Homomorphism lemma: if `h` maps every production of `P` to a derivation of `Q`, it maps
every derivation. -/
theorem Der.map (h : Sym → List Sym)
    (H : ∀ A α, P A α → Der Q (h A) (α.flatMap h)) {u v : List Sym} (d : Der P u v) :
    Der Q (u.flatMap h) (v.flatMap h) := by
  induction d with
  | nil => exact .nil
  | keep a _ ih => exact (Der.refl _).append ih
  | expand hp _ _ ihx ihu =>
    simp only [List.flatMap_cons, List.flatMap_append]
    exact ((H _ _ hp).trans ihx).append ihu

theorem Der.mono' (H : ∀ A α, P A α → Der Q [A] α) {u v : List Sym} (d : Der P u v) :
    Der Q u v := by
  have := Der.map (Q := Q) (fun a => [a]) (fun A α hp => by simpa using H A α hp) d
  simpa using this

theorem Der.mono (H : ∀ A α, P A α → Q A α) {u v : List Sym} (d : Der P u v) : Der Q u v :=
  d.mono' fun A α hp => .prod (H A α hp)

theorem Der.congr (H : ∀ A α, P A α ↔ Q A α) {u v : List Sym} : Der P u v ↔ Der Q u v :=
  ⟨.mono fun A α => (H A α).1, .mono fun A α => (H A α).2⟩

theorem Derives.map (h : Sym → List Sym)
    (H : ∀ A α, P A α → Derives Q (h A) (α.flatMap h)) {u v : List Sym} (d : Derives P u v) :
    Derives Q (u.flatMap h) (v.flatMap h) :=
  derives_iff_der.2 (Der.map h (fun A α hp => derives_iff_der.1 (H A α hp))
    (derives_iff_der.1 d))

theorem Derives.mono' (H : ∀ A α, P A α → Derives Q [A] α) {u v : List Sym}
    (d : Derives P u v) : Derives Q u v :=
  derives_iff_der.2 (Der.mono' (fun A α hp => derives_iff_der.1 (H A α hp))
    (derives_iff_der.1 d))

theorem Derives.mono (H : ∀ A α, P A α → Q A α) {u v : List Sym} (d : Derives P u v) :
    Derives Q u v :=
  derives_iff_der.2 ((derives_iff_der.1 d).mono H)

theorem Derives.append {u₁ u₂ v₁ v₂ : List Sym} (h₁ : Derives P u₁ v₁)
    (h₂ : Derives P u₂ v₂) : Derives P (u₁ ++ u₂) (v₁ ++ v₂) :=
  derives_iff_der.2 ((derives_iff_der.1 h₁).append (derives_iff_der.1 h₂))

theorem Derives.prod {A : Sym} {α : List Sym} (h : P A α) : Derives P [A] α :=
  derives_iff_der.2 (.prod h)

theorem inLang_iff {T : Sym → Prop} {A : Sym} {w : List Sym} :
    InLang P T A w ↔ Der P [A] w ∧ ∀ a ∈ w, T a := by
  rw [InLang, derives_iff_der]

theorem inLang_mono' {T : Sym → Prop} (H : ∀ A α, P A α → Der Q [A] α) {A : Sym}
    {w : List Sym} (h : InLang P T A w) : InLang Q T A w :=
  inLang_iff.2 ⟨(inLang_iff.1 h).1.mono' H, h.2⟩

/-- `Reaches` is the reflexive transitive closure of "occurs in a production of". -/
theorem reaches_iff {A B : Sym} :
    Reaches P A B ↔ Relation.ReflTransGen (fun a b => ∃ α, P a α ∧ b ∈ α) A B := by
  constructor
  · rintro ⟨p, s, d⟩
    have key : ∀ {u v}, Der P u v → ∀ b ∈ v, ∃ a ∈ u,
        Relation.ReflTransGen (fun a b => ∃ α, P a α ∧ b ∈ α) a b := by
      intro u v d
      induction d with
      | nil => simp
      | keep a _ ih =>
        intro b hb
        rcases List.mem_cons.1 hb with rfl | hb
        · exact ⟨_, by simp, .refl⟩
        · obtain ⟨a', ha', h⟩ := ih b hb
          exact ⟨a', by simp [ha'], h⟩
      | @expand A α x u v hp _ _ ihx ihu =>
        intro b hb
        rcases List.mem_append.1 hb with hb | hb
        · obtain ⟨a', ha', h⟩ := ihx b hb
          exact ⟨A, by simp, .head ⟨α, hp, ha'⟩ h⟩
        · obtain ⟨a', ha', h⟩ := ihu b hb
          exact ⟨a', by simp [ha'], h⟩
    obtain ⟨a, ha, h⟩ := key (derives_iff_der.1 d) B (by simp)
    simp only [List.mem_singleton] at ha
    exact ha ▸ h
  · intro h
    induction h with
    | refl => exact ⟨[], [], .refl⟩
    | @tail b c _ hs ih =>
      obtain ⟨α, hp, hc⟩ := hs
      obtain ⟨p, s, d⟩ := ih
      obtain ⟨p', s', rfl⟩ := List.append_of_mem hc
      refine ⟨p ++ p', s' ++ s, d.tail ⟨b, _, p, s, hp, rfl, ?_⟩⟩
      simp

theorem reachesPlus_iff {A B : Sym} :
    ReachesPlus P A B ↔ Relation.TransGen (fun a b => ∃ α, P a α ∧ b ∈ α) A B := by
  constructor
  · rintro ⟨p, s, d⟩
    obtain ⟨v, hs, d⟩ := Relation.TransGen.head'_iff.1 d
    obtain ⟨A', α, p', s', hp, e, rfl⟩ := hs
    have : p' = [] ∧ A' = A ∧ s' = [] := by
      rcases p' with _ | ⟨x, p'⟩ <;> simp_all
    obtain ⟨rfl, rfl, rfl⟩ := this
    simp only [List.nil_append, List.append_nil] at d
    obtain ⟨x₁, x₂, hx⟩ : ∃ b ∈ α, Reaches P b B := by
      have key : ∀ {u v}, Der P u v → ∀ b ∈ v, ∃ a ∈ u, Reaches P a b := by
        intro u v d
        induction d with
        | nil => simp
        | keep a _ ih =>
          intro b hb
          rcases List.mem_cons.1 hb with rfl | hb
          · exact ⟨_, by simp, [], [], .refl⟩
          · obtain ⟨a', ha', h⟩ := ih b hb
            exact ⟨a', by simp [ha'], h⟩
        | @expand A α x u v hp _ _ ihx ihu =>
          intro b hb
          rcases List.mem_append.1 hb with hb | hb
          · obtain ⟨a', ha', h⟩ := ihx b hb
            exact ⟨A, by simp, reaches_iff.2 (.head ⟨α, hp, ha'⟩ (reaches_iff.1 h))⟩
          · obtain ⟨a', ha', h⟩ := ihu b hb
            exact ⟨a', by simp [ha'], h⟩
      exact key (derives_iff_der.1 d) B (by simp)
    exact Relation.TransGen.head' ⟨α, hp, x₂⟩ (reaches_iff.1 hx)
  · intro h
    obtain ⟨b, ⟨α, hp, hb⟩, h⟩ := Relation.TransGen.head'_iff.1 h
    obtain ⟨p, s, d⟩ := reaches_iff.2 h
    obtain ⟨p', s', rfl⟩ := List.append_of_mem hb
    refine ⟨p' ++ p, s ++ s', Relation.TransGen.head'
      (b := p' ++ b :: s') ⟨A, _, [], [], hp, rfl, by simp⟩ ?_⟩
    have := (Derives.append (P := P) (u₁ := p') .refl d).append
      (Relation.ReflTransGen.refl (a := s'))
    simpa [Derives] using this

end Verif
