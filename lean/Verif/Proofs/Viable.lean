import Verif.Spec.Viable
import Verif.Spec.Lr0
import Verif.Proofs.Lr0
import Verif.Proofs.Derivation

/-! # Proofs about viable prefixes -/

namespace Verif

/-- The items reached from the item `(q, 0)` by moving dots over a string and predicting rules. -/
inductive NItem (rules : List CfgRule) (q : Nat) : List Sym → Nat → Nat → Prop
  | start : NItem rules q [] q 0
  | predict {γ i d r j s} : NItem rules q γ i d → rules[i]? = some r → rules[j]? = some s →
      r.rhs[d]? = some s.lhs → NItem rules q γ j 0
  | move {γ i d r a} : NItem rules q γ i d → rules[i]? = some r → r.rhs[d]? = some a →
      NItem rules q (γ ++ [a]) i (d + 1)

theorem nItem_nil {rules : List CfgRule} {q i d : Nat} :
    NItem rules q [] i d ↔ ItemClosure rules (fun i d => i = q ∧ d = 0) i d := by
  constructor
  · intro h
    generalize hγ : ([] : List Nat) = γ at h
    induction h with
    | start => exact .kernel ⟨rfl, rfl⟩
    | predict _ h1 h2 h3 ih => exact .predict (ih hγ) h1 h2 h3
    | move => simp at hγ
  · intro h
    induction h with
    | kernel h => obtain ⟨rfl, rfl⟩ := h; exact .start
    | predict _ h1 h2 h3 ih => exact .predict ih h1 h2 h3

theorem nItem_snoc {rules : List CfgRule} {q i d : Nat} {γ : List Sym} {a : Sym} :
    NItem rules q (γ ++ [a]) i d ↔ ItemClosure rules (Moved rules (NItem rules q γ) a) i d := by
  constructor
  · intro h
    generalize hγ : γ ++ [a] = γ' at h
    induction h with
    | start => simp at hγ
    | predict _ h1 h2 h3 ih => exact .predict (ih hγ) h1 h2 h3
    | move h h1 h2 =>
      obtain ⟨e1, e2⟩ := List.append_inj' hγ rfl
      obtain rfl := (List.cons.inj e2).1
      subst e1
      exact .kernel ⟨_, _, rfl, h, h1, h2⟩
  · intro h
    induction h with
    | kernel h => obtain ⟨e, r, rfl, h1, h2, h3⟩ := h; exact .move h1 h2 h3
    | predict _ h1 h2 h3 ih => exact .predict ih h1 h2 h3

theorem ItemClosure.mono {rules : List CfgRule} {K L : Nat → Nat → Prop}
    (h : ∀ i d, K i d → L i d) {i d : Nat} (hi : ItemClosure rules K i d) :
    ItemClosure rules L i d := by
  induction hi with
  | kernel hk => exact .kernel (h _ _ hk)
  | predict _ h1 h2 h3 ih => exact .predict ih h1 h2 h3

theorem Moved.mono {rules : List CfgRule} {K L : Nat → Nat → Prop}
    (h : ∀ i d, K i d → L i d) {a : Sym} {i d : Nat} (hi : Moved rules K a i d) :
    Moved rules L a i d := by
  obtain ⟨e, r, h1, h2, h3⟩ := hi
  exact ⟨e, r, h1, h _ _ h2, h3⟩

theorem OneItemClosure.sub {rules : List CfgRule} {K : Nat → Nat → Prop} {i d : Nat}
    (h : OneItemClosure rules K i d) : ItemClosure rules K i d := by
  obtain ⟨r, hr, ⟨h1, rfl⟩ | ⟨-, h1⟩⟩ := h
  · obtain ⟨j, e, s, h2, h3, h4⟩ := h1.item
    exact .predict h2 h3 hr h4
  · exact .kernel h1

theorem RightDerives.of_der {P : Productions} {T : Sym → Prop} {δ w : List Sym} (h : Der P δ w) :
    (∀ s ∈ w, T s) → ∀ ζ z : List Sym, (∀ s ∈ z, T s) →
      RightDerives P T (ζ ++ δ ++ z) (ζ ++ w ++ z) := by
  induction h with
  | nil => intro _ ζ z _; exact .refl
  | keep a h ih =>
    intro hw ζ z hz
    have := ih (fun s hs => hw s (by simp [hs])) (ζ ++ [a]) z hz
    simpa using this
  | @expand A α x u v hp h1 h2 ih1 ih2 =>
    intro hw ζ z hz
    have hv : ∀ s ∈ v, T s := fun s hs => hw s (by simp [hs])
    have hx : ∀ s ∈ x, T s := fun s hs => hw s (by simp [hs])
    have k1 := ih2 hv (ζ ++ [A]) z hz
    have k2 := ih1 hx ζ (v ++ z) (fun s hs => by
      rcases List.mem_append.1 hs with hs | hs
      · exact hv s hs
      · exact hz s hs)
    have k3 : RightStep P T (ζ ++ [A] ++ v ++ z) (ζ ++ α ++ (v ++ z)) :=
      ⟨A, α, ζ, v ++ z, hp, fun s hs => by
        rcases List.mem_append.1 hs with hs | hs
        · exact hv s hs
        · exact hz s hs, by simp, rfl⟩
    have : RightDerives P T _ _ := (k1.tail k3).trans k2
    simpa using this

theorem der_list {P : Productions} {T : Sym → Prop} (l : List Sym)
    (h : ∀ s ∈ l, Productive P T s) : ∃ w, Der P l w ∧ ∀ s ∈ w, T s := by
  induction l with
  | nil => exact ⟨[], .nil, by simp⟩
  | cons a l ih =>
    obtain ⟨w, h1, h2⟩ := ih fun s hs => h s (by simp [hs])
    obtain ⟨v, h3, h4⟩ := h a (by simp)
    refine ⟨v ++ w, Der.append (derives_iff_der.1 h3) h1, fun s hs => ?_⟩
    rcases List.mem_append.1 hs with hs | hs
    · exact h4 s hs
    · exact h2 s hs

/-- The productions of a list of rules. -/
abbrev rulesProd (rules : List CfgRule) : Productions := fun A ω => ∃ r ∈ rules, r.lhs = A ∧ r.rhs = ω

theorem NItem.valid {rules : List CfgRule} {T : Sym → Prop} {q : Nat} {r₀ : CfgRule}
    (hq : rules[q]? = some r₀)
    (hp : ∀ r ∈ rules, ∀ s ∈ r.rhs, Productive (rulesProd rules) T s)
    {γ : List Sym} {i d : Nat} (h : NItem rules q γ i d) :
    ValidItem rules T r₀.lhs γ i d := by
  induction h with
  | start => exact ⟨r₀, [], [], hq, by omega, by simp, .refl, by simp⟩
  | @predict γ i d r j s _ h1 h2 h3 ih =>
    obtain ⟨r', α, z, k1, k2, k3, k4, rfl⟩ := ih
    obtain rfl := Option.some.inj (h1.symm.trans k1)
    obtain ⟨hd, h3'⟩ := List.getElem?_eq_some_iff.1 h3
    have hr := List.mem_of_getElem? h1
    obtain ⟨w, w1, w2⟩ := der_list (P := rulesProd rules) (T := T) (r.rhs.drop (d + 1))
      fun x hx => hp r hr x (List.mem_of_mem_drop hx)
    refine ⟨s, α ++ r.rhs.take d, w ++ z, h2, by omega, ?_, ?_, by simp⟩
    · intro x hx
      rcases List.mem_append.1 hx with hx | hx
      · exact w2 x hx
      · exact k3 x hx
    · refine (k4.tail ⟨r.lhs, r.rhs, α, z, ⟨r, hr, rfl, rfl⟩, k3, rfl, rfl⟩).trans ?_
      have := RightDerives.of_der w1 w2 (α ++ r.rhs.take d ++ [s.lhs]) z k3
      have e : r.rhs = r.rhs.take d ++ s.lhs :: r.rhs.drop (d + 1) := by
        rw [← h3', ← List.drop_eq_getElem_cons hd, List.take_append_drop]
      have e' : α ++ r.rhs ++ z = α ++ r.rhs.take d ++ [s.lhs] ++ r.rhs.drop (d + 1) ++ z := by
        conv_lhs => rw [e]
        simp
      have e'' : α ++ r.rhs.take d ++ s.lhs :: (w ++ z) =
        α ++ r.rhs.take d ++ [s.lhs] ++ w ++ z := by simp
      rw [e', e'']
      exact this
  | @move γ i d r a _ h1 h2 ih =>
    obtain ⟨r', α, z, k1, k2, k3, k4, rfl⟩ := ih
    obtain rfl := Option.some.inj (h1.symm.trans k1)
    obtain ⟨hd, h2'⟩ := List.getElem?_eq_some_iff.1 h2
    refine ⟨r, α, z, k1, by omega, k3, k4, ?_⟩
    rw [List.append_assoc, List.take_add_one, h2]
    rfl

theorem NItem.moves {rules : List CfgRule} {q : Nat} {γ : List Sym} {i : Nat} {r : CfgRule}
    (h : NItem rules q γ i 0) (hr : rules[i]? = some r) (d : Nat) (hd : d ≤ r.rhs.length) :
    NItem rules q (γ ++ r.rhs.take d) i d := by
  induction d with
  | zero => simpa using h
  | succ d ih =>
    have hlt : d < r.rhs.length := by omega
    have := (ih (by omega)).move hr (List.getElem?_eq_getElem hlt)
    rw [List.append_assoc] at this
    rw [List.take_add_one, List.getElem?_eq_getElem hlt]
    exact this

/-- The symbols in a rightmost derivation are predicted after what precedes them. -/
theorem RightDerives.predicted {rules : List CfgRule} {T : Sym → Prop} {q : Nat} {r₀ : CfgRule}
    (hone : ∀ i r, rules[i]? = some r → r.lhs = r₀.lhs → i = q)
    (hT : ∀ r ∈ rules, ¬ T r.lhs) {φ : List Sym}
    (h : RightDerives (rulesProd rules) T [r₀.lhs] φ) :
    ∀ α A z, φ = α ++ A :: z → ∀ j s, rules[j]? = some s → s.lhs = A → NItem rules q α j 0 := by
  induction h with
  | refl =>
    intro α A z e j s hj hs
    cases α with
    | nil =>
      obtain rfl := (List.cons.inj e).1
      obtain rfl := hone j s hj hs
      exact .start
    | cons b α => simp at e
  | tail _ h ih =>
    obtain ⟨B, ω, α', z', ⟨r, hr, rfl, rfl⟩, hz, rfl, rfl⟩ := h
    intro α A z e j s hj hs
    rw [List.append_assoc] at e
    rcases List.append_eq_append_iff.1 e with ⟨t, rfl, e'⟩ | ⟨t, e1, e2⟩
    · -- after `α'`
      rcases List.append_eq_append_iff.1 e' with ⟨t', rfl, e3⟩ | ⟨t', e1, e2⟩
      · exfalso
        exact hT s (List.mem_of_getElem? hj) (hz _ (by rw [e3, hs]; simp))
      · obtain ⟨k, hk⟩ := List.getElem?_of_mem hr
        have h0 := ih α' r.lhs z' rfl k r hk rfl
        cases t' with
        | nil =>
          exfalso
          exact hT s (List.mem_of_getElem? hj) (hz _ (by
            simp only [List.nil_append] at e2
            rw [← e2, hs]; simp))
        | cons b t' =>
          obtain rfl := (List.cons.inj e2).1
          have hlt : t.length < r.rhs.length := by rw [e1]; simp
          have h1 := h0.moves hk t.length (by omega)
          have h2 : r.rhs.take t.length = t := by rw [e1]; simp
          rw [h2] at h1
          refine h1.predict hk hj ?_
          rw [e1, hs]
          simp
    · -- inside `α'`
      cases t with
      | nil =>
        simp only [List.nil_append, List.append_nil] at e1 e2
        subst e1
        -- `A` is the first symbol after `α'`
        obtain ⟨k, hk⟩ := List.getElem?_of_mem hr
        have h0 := ih α' r.lhs z' rfl k r hk rfl
        cases e3 : r.rhs with
        | nil =>
          rw [e3] at e2
          simp only [List.nil_append] at e2
          exfalso
          exact hT s (List.mem_of_getElem? hj) (hz _ (by rw [← e2, hs]; simp))
        | cons b l =>
          rw [e3] at e2
          obtain rfl := (List.cons.inj e2).1
          exact h0.predict hk hj (by rw [e3, hs]; rfl)
      | cons b t =>
        obtain rfl := (List.cons.inj e2).1
        exact ih α A (t ++ r.lhs :: z') (by rw [e1]; simp) j s hj hs

theorem ValidItem.nItem {rules : List CfgRule} {T : Sym → Prop} {q : Nat} {r₀ : CfgRule}
    (hone : ∀ i r, rules[i]? = some r → r.lhs = r₀.lhs → i = q)
    (hT : ∀ r ∈ rules, ¬ T r.lhs) {γ : List Sym} {i d : Nat}
    (h : ValidItem rules T r₀.lhs γ i d) : NItem rules q γ i d := by
  obtain ⟨r, α, z, h1, h2, h3, h4, rfl⟩ := h
  exact (RightDerives.predicted hone hT h4 α r.lhs z rfl i r h1 rfl).moves h1 d h2

end Verif
