import Verif.Proofs.Ll
import Verif.Proofs.Trees

/-! # One symbol of lookahead decides the rule of every node -/

namespace Verif

section

variable {rules : List (Sym × List Sym)} {T : Sym → Prop}

local notation "𝓟" => fun A β => (A, β) ∈ rules

/-- The string `x` can stand after `α`. -/
def Before (rules : List (Sym × List Sym)) (T : Sym → Prop) (α x : List Sym) : Prop :=
  (∃ B p q, Der (fun A β => (A, β) ∈ rules) [B] (p ++ α ++ q)) ∧
  ∀ α1 B α2 a x', α = α1 ++ B :: α2 → Der (fun A β => (A, β) ∈ rules) α2 [] → x = a :: x' →
    FollowOf (fun A β => (A, β) ∈ rules) T B a

theorem Before.head {A : Sym} {α x v : List Sym} {f : Forest} (h : Before rules T (A :: α) x)
    (hf : IsForest rules T α f v) {a : Sym} {s : List Sym} (e : v ++ x = a :: s) :
    FollowOf 𝓟 T A a := by
  obtain ⟨hd, hT⟩ := hf.der
  cases v with
  | nil => exact h.2 [] A α a s rfl hd e
  | cons b v =>
    obtain ⟨rfl, -⟩ := List.cons.inj e
    obtain ⟨B, p, q, hB⟩ := h.1
    refine ⟨hT b (by simp), B, p, v ++ q, derives_iff_der.2 ?_⟩
    refine hB.trans ?_
    have := ((Der.refl (P := 𝓟) (p ++ [A])).append hd).append (Der.refl q)
    simpa using this

theorem Before.children {A : Sym} {α β x v : List Sym} {f : Forest}
    (h : Before rules T (A :: α) x) (hr : (A, β) ∈ rules) (hf : IsForest rules T α f v) :
    Before rules T β (v ++ x) := by
  refine ⟨?_, ?_⟩
  · obtain ⟨B, p, q, hB⟩ := h.1
    refine ⟨B, p, α ++ q, hB.trans ?_⟩
    have := ((Der.refl (P := 𝓟) p).append (Der.expand (P := 𝓟) hr (Der.refl β) (Der.refl α))).append
      (Der.refl q)
    simpa using this
  · intro β1 B β2 a x' e hd e'
    obtain ⟨hTa, C, p, q, hC⟩ := h.head hf e'
    refine ⟨hTa, C, p ++ β1, q, derives_iff_der.2 ((derives_iff_der.1 hC).trans ?_)⟩
    have h1 : Der 𝓟 β (β1 ++ [B] ++ []) := by
      rw [e]
      simpa using (Der.refl (P := 𝓟) (β1 ++ [B])).append hd
    have := (Der.refl (P := 𝓟) p).append (Der.expand (P := 𝓟) hr h1 (Der.refl (a :: q)))
    simpa using this

theorem Before.tail {A : Sym} {α x : List Sym} (h : Before rules T (A :: α) x) :
    Before rules T α x := by
  refine ⟨?_, fun α1 B α2 a x' e => h.2 (A :: α1) B α2 a x' (by rw [e]; rfl)⟩
  obtain ⟨B, p, q, hB⟩ := h.1
  exact ⟨B, p ++ [A], q, by simpa using hB⟩

/-- If one symbol of lookahead determines the rule, and the empty string has at most one tree or the
rest of the text is not empty, then the trees that fit in front of the rest of a text are unique. -/
theorem lookahead_unique {U : Sym → Prop} {E : Prop}
    (hU : ∀ A β, (A, β) ∈ rules → U A → ∀ B ∈ β, U B)
    (hcell : ∀ (i j : Nat) A β γ a, U A → rules[i]? = some (A, β) → rules[j]? = some (A, γ) →
      (FirstOf 𝓟 T β a ∨ (Derives 𝓟 β [] ∧ FollowOf 𝓟 T A a)) →
      (FirstOf 𝓟 T γ a ∨ (Derives 𝓟 γ [] ∧ FollowOf 𝓟 T A a)) → i = j)
    (hemp : E → ∀ A f f', U A → IsForest rules T [A] f [] → IsForest rules T [A] f' [] → f = f')
    {α u : List Sym} {f : Forest} (hf : IsForest rules T α f u) :
    ∀ {f' : Forest} {v x y : List Sym}, IsForest rules T α f' v → (∀ B ∈ α, U B) →
      Before rules T α x → Before rules T α y → (x = [] → E) → u ++ x = v ++ y → f = f' ∧ u = v := by
  induction hf with
  | nil =>
    intro f' v x y h' _ _ _ _ _
    cases h'
    exact ⟨rfl, rfl⟩
  | @leaf s α f w ht _ ih =>
    intro f' v x y h' hα hx hy hE e
    cases h' with
    | node _ hn => exact absurd ht hn
    | leaf _ h' =>
      obtain ⟨rfl, rfl⟩ := ih h' (fun B hB => hα B (by simp [hB])) hx.tail hy.tail hE
        (List.cons.inj e).2
      exact ⟨rfl, rfl⟩
  | @node i A c f β u v α hi hn hc hf ihc ih =>
    intro f' w x y h' hα hx hy hE e
    cases h' with
    | leaf ht => exact absurd ht hn
    | @node j _ c' f' β' u' v' _ hj _ hc' hf' =>
      have hA : U A := hα A (by simp)
      rw [List.append_assoc, List.append_assoc] at e
      have key : ∀ {k : Nat} {γ z t x' : List Sym} {c f : Forest} {a : Sym} {s : List Sym},
          rules[k]? = some (A, γ) → IsForest rules T γ c z → IsForest rules T α f t →
          Before rules T (A :: α) x' → z ++ (t ++ x') = a :: s →
          FirstOf 𝓟 T γ a ∨ (Derives 𝓟 γ [] ∧ FollowOf 𝓟 T A a) := by
        intro k γ z t x' c f a s hk hc hf hx' e
        cases z with
        | nil => exact .inr ⟨derives_iff_der.2 hc.der.1, hx'.head hf e⟩
        | cons b z =>
          obtain ⟨rfl, -⟩ := List.cons.inj e
          exact .inl ⟨hc.der.2 b (by simp), z, derives_iff_der.2 hc.der.1⟩
      have hcu : i = j ∧ c = c' ∧ u = u' := by
        cases hs : u ++ (v ++ x) with
        | nil =>
          rw [hs] at e
          obtain ⟨rfl, hvx⟩ := List.append_eq_nil_iff.1 hs
          have hE' := hE (List.append_eq_nil_iff.1 hvx).2
          obtain ⟨rfl, -⟩ := List.append_eq_nil_iff.1 e.symm
          have h1 := IsForest.node hi hn hc .nil
          have h2 := IsForest.node hj hn hc' .nil
          have := hemp hE' A _ _ hA h1 h2
          simp only [Forest.node.injEq, and_true] at this
          exact ⟨this.1, this.2, rfl⟩
        | cons a s =>
          obtain rfl := hcell i j A β β' a hA hi hj (key hi hc hf hx hs)
            (key hj hc' hf' hy (e.symm.trans hs))
          obtain rfl : β = β' := congrArg Prod.snd (Option.some.inj (hi.symm.trans hj))
          have hm := List.mem_of_getElem? hi
          obtain ⟨rfl, rfl⟩ := ihc hc' (hU A β hm hA) (hx.children hm hf) (hy.children hm hf')
            (fun h => hE (List.append_eq_nil_iff.1 h).2) e
          exact ⟨rfl, rfl, rfl⟩
      obtain ⟨rfl, rfl, rfl⟩ := hcu
      obtain ⟨rfl, rfl⟩ := ih hf' (fun B hB => hα B (by simp [hB])) hx.tail hy.tail hE
        (List.append_cancel_left e)
      exact ⟨rfl, rfl⟩

end

end Verif
