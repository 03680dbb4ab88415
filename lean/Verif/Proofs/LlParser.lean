import Verif.Spec.LlParser
import Verif.Spec.Predict
import Verif.Proofs.Ll
import Verif.Proofs.Basic

/-! # Runs of the table-driven parser -/

namespace Verif

variable {g : Cfg} {t : LlTable}

/-- What the cells are needed for: each rule of a symbol in `U` is found when it is needed. -/
def Finds (g : Cfg) (t : LlTable) (U : Sym → Prop) : Prop :=
  ∀ B β a, U B → g.prod B β → (FirstOf g.prod g.Term β a ∨
    (Derives g.prod β [] ∧ FollowOf g.prod g.Term B a)) →
    ∃ (i : Nat) (r : CfgRule), i ∈ (t.get? (B, a)).getD [] ∧ g.rules[i]? = some r ∧ r.rhs = β

/-- `U` is closed under the rules. -/
def ClosedU (g : Cfg) (U : Sym → Prop) : Prop :=
  ∀ B β, U B → g.prod B β → ∀ s ∈ β, U s

theorem head_of_append (x : List Sym) (b : Sym) (y : List Sym) :
    ∃ c z, x ++ b :: y = c :: z ∧ ((x = [] ∧ c = b ∧ z = y) ∨ ∃ x', x = c :: x') := by
  cases x with
  | nil => exact ⟨b, y, rfl, .inl ⟨rfl, rfl, rfl⟩⟩
  | cons c x' => exact ⟨c, x' ++ b :: y, rfl, .inr ⟨x', rfl⟩⟩

/-- Symbols that derive a string are read off the stack in front of what can follow. -/
theorem reads_word {U : Sym → Prop} (hf : Finds g t U) (hU : ClosedU g U) {β u : List Sym}
    (h : Der g.prod β u) : (∀ x ∈ u, g.Term x) → (∀ s ∈ β, U s) → ∀ {b : Sym} {v : List Sym},
    g.Term b → (∃ B p q, Derives g.prod [B] (p ++ β ++ b :: q)) → ∀ α,
    Relation.ReflTransGen (LlMove g t) (β ++ α, u ++ b :: v) (α, b :: v) := by
  induction h with
  | nil => intro _ _ b v _ _ α; exact .refl
  | @keep a β u _ ih =>
    intro hu hs b v hb ⟨B, p, q, hd⟩ α
    refine .head (.read (hu a (by simp))) (ih (fun x hx => hu x (by simp [hx]))
      (fun s h => hs s (by simp [h])) hb ⟨B, p ++ [a], q, by simpa using hd⟩ α)
  | @expand A δ x β u hp hx hβ ih₁ ih₂ =>
    intro hu hs b v hb ⟨B, p, q, hd⟩ α
    have hux : ∀ y ∈ x, g.Term y := fun y hy => hu y (by simp [hy])
    have huu : ∀ y ∈ u, g.Term y := fun y hy => hu y (by simp [hy])
    have r2 := ih₂ huu (fun s h => hs s (by simp [h])) (v := v) hb
      ⟨B, p ++ [A], q, by simpa using hd⟩ α
    obtain ⟨c, z, e, hc⟩ := head_of_append u b v
    have htc : g.Term c := by
      rcases hc with ⟨-, rfl, -⟩ | ⟨u', rfl⟩
      · exact hb
      · exact huu c (by simp)
    -- the context of `A`
    have hctx : ∃ q', Derives g.prod [B] (p ++ [A] ++ c :: q') := by
      have h1 : Derives g.prod [B] (p ++ [A] ++ (u ++ b :: q)) := by
        refine derives_iff_der.2 ((derives_iff_der.1 hd).trans ?_)
        have := (Der.refl (P := g.prod) (p ++ [A])).append (hβ.append (Der.refl (b :: q)))
        simpa using this
      rcases hc with ⟨rfl, rfl, -⟩ | ⟨u', rfl⟩
      · exact ⟨q, by simpa using h1⟩
      · exact ⟨u' ++ b :: q, by simpa using h1⟩
    obtain ⟨q', hq'⟩ := hctx
    have hctx' : Derives g.prod [B] (p ++ δ ++ c :: q') := by
      refine derives_iff_der.2 ((derives_iff_der.1 hq').trans ?_)
      exact ((Der.refl p).append (.prod hp)).append (.refl _)
    have r1 := ih₁ hux (fun s h => hU A δ (hs A (by simp)) hp s h) (v := z) htc
      ⟨B, p, q', hctx'⟩ (β ++ α)
    -- the expansion of `A`
    obtain ⟨d, y, e', hd'⟩ := head_of_append x c z
    have hcell : FirstOf g.prod g.Term δ d ∨ (Derives g.prod δ [] ∧ FollowOf g.prod g.Term A d) := by
      rcases hd' with ⟨rfl, rfl, -⟩ | ⟨x', rfl⟩
      · exact .inr ⟨derives_iff_der.2 hx, htc, B, p, q', by simpa using hq'⟩
      · exact .inl ⟨hux d (by simp), x', derives_iff_der.2 hx⟩
    obtain ⟨i, r, hi, hr, rfl⟩ := hf A δ d (hs A (by simp)) hp hcell
    rw [List.append_assoc, e, e', List.cons_append]
    refine .head (.expand hi hr) ?_
    rw [← e']
    exact r1.trans (e ▸ r2)

/-- Symbols that derive a string beginning with `b` are replaced until `b` is read. -/
theorem reads_first {U : Sym → Prop} (hf : Finds g t U) (hU : ClosedU g U) {b : Sym}
    (hb : g.Term b) {β u : List Sym} (h : Der g.prod β u) : (∀ s ∈ β, U s) → ∀ {γ : List Sym},
    u = b :: γ → (∃ B p, Derives g.prod [B] (p ++ β)) → ∀ α v, ∃ β',
    Relation.ReflTransGen (LlMove g t) (β ++ α, b :: v) (β' ++ α, v) := by
  induction h with
  | nil => intro _ γ e; cases e
  | @keep a β u _ ih =>
    intro hs γ e _ α v
    obtain ⟨rfl, rfl⟩ := List.cons.inj e
    exact ⟨β, .single (.read hb)⟩
  | @expand A δ x β u hp hx hβ ih₁ ih₂ =>
    intro hs γ e ⟨B, p, hd⟩ α v
    have hδ : ∀ s ∈ δ, U s := fun s h => hU A δ (hs A (by simp)) hp s h
    have hd₁ : Derives g.prod [B] (p ++ δ ++ β) := by
      refine derives_iff_der.2 ((derives_iff_der.1 hd).trans ?_)
      have := (Der.refl (P := g.prod) p).append ((Der.prod hp).append (Der.refl β))
      simpa using this
    cases x with
    | cons c x =>
      obtain ⟨rfl, -⟩ := List.cons.inj e
      obtain ⟨i, r, hi, hr, rfl⟩ := hf A δ c (hs A (by simp)) hp
        (.inl ⟨hb, x, derives_iff_der.2 hx⟩)
      obtain ⟨β', h'⟩ := ih₁ hδ rfl ⟨A, [], derives_iff_der.2 (by simpa using Der.prod hp)⟩ (β ++ α) v
      refine ⟨β' ++ β, ?_⟩
      rw [List.append_assoc]
      exact .head (.expand hi hr) h'
    | nil =>
      have e' : u = b :: γ := e
      have hfol : Derives g.prod [B] (p ++ A :: b :: γ) := by
        refine derives_iff_der.2 ((derives_iff_der.1 hd).trans ?_)
        rw [← e']
        exact (Der.refl p).append ((Der.refl [A]).append hβ)
      have hctx : Derives g.prod [B] (p ++ δ ++ b :: γ) := by
        refine derives_iff_der.2 ((derives_iff_der.1 hd₁).trans ?_)
        rw [← e']
        exact (Der.refl _).append hβ
      obtain ⟨i, r, hi, hr, rfl⟩ := hf A δ b (hs A (by simp)) hp
        (.inr ⟨derives_iff_der.2 hx, hb, B, p, γ, hfol⟩)
      have r1 := reads_word hf hU hx (by simp) hδ (v := v) hb ⟨B, p, γ, hctx⟩ (β ++ α)
      obtain ⟨β', h'⟩ := ih₂ (fun s h => hs s (by simp [h])) e'
        ⟨B, p ++ [A], by simpa using hd⟩ α v
      exact ⟨β', .head (.expand hi hr) (r1.trans h')⟩

/-- What the parser reads can be derived from the stack. -/
theorem LlReads.sound (ht : ∀ A a, ∀ i ∈ (t.get? (A, a)).getD [], ∃ r, g.rules[i]? = some r ∧
    r.lhs = A) {α w : List Sym} (h : LlReads g t α w) : Der g.prod α w ∧ ∀ a ∈ w, g.Term a := by
  unfold LlReads at h
  generalize e : ((α, w) : List Sym × List Sym) = s at h
  generalize e' : (([], []) : List Sym × List Sym) = s' at h
  induction h using Relation.ReflTransGen.head_induction_on generalizing α w with
  | refl =>
    cases e.trans e'.symm
    exact ⟨.nil, by simp⟩
  | head hm _ ih =>
    cases hm with
    | read ha =>
      cases e
      obtain ⟨h1, h2⟩ := ih rfl
      refine ⟨.keep _ h1, ?_⟩
      intro b hb
      rcases List.mem_cons.1 hb with rfl | hb
      · exact ha
      · exact h2 b hb
    | expand hi hr =>
      cases e
      obtain ⟨h1, h2⟩ := ih rfl
      obtain ⟨r', hr', hA⟩ := ht _ _ _ hi
      obtain rfl := Option.some.inj (hr.symm.trans hr')
      obtain ⟨x, y, exy, hx, hy⟩ := h1.split
      refine ⟨?_, h2⟩
      rw [exy]
      exact .expand ⟨_, List.mem_of_getElem? hr, hA, rfl⟩ hx hy

end Verif
