import Verif.Props.LlParser
import Verif.Props.Recursion

/-! # Property C154: nonterminals classified as LL(1) are not left recursive -/

namespace Verif

open Cfg

/-- Symbols that derive a string beginning with `B` are replaced until `B` is on top, in front of a
terminal that strings of `B` begin with. -/
theorem reads_left {g : Cfg} {t : LlTable} {U : Sym → Prop} (hf : Finds g t U) (hU : ClosedU g U)
    {B b : Sym} (hb : FirstOf g.prod g.Term [B] b) {β u : List Sym} (h : Der g.prod β u) :
    (∀ s ∈ β, U s) → ∀ {γ : List Sym}, u = B :: γ → (∃ C p, Derives g.prod [C] (p ++ β)) →
    ∀ α v, ∃ β', Relation.ReflTransGen (LlMove g t) (β ++ α, b :: v) (B :: β' ++ α, b :: v) := by
  obtain ⟨hT, ω, hω⟩ := hb
  rw [derives_iff_der] at hω
  induction h with
  | nil => intro _ γ e; cases e
  | @keep a β u _ ih =>
    intro hs γ e _ α v
    obtain ⟨rfl, rfl⟩ := List.cons.inj e
    exact ⟨β, .refl⟩
  | @expand A δ x β u hp hx hβ ih₁ ih₂ =>
    intro hs γ e ⟨C, p, hd⟩ α v
    have hδ : ∀ s ∈ δ, U s := fun s h => hU A δ (hs A (by simp)) hp s h
    have hd₁ : Derives g.prod [C] (p ++ δ ++ β) := by
      refine derives_iff_der.2 ((derives_iff_der.1 hd).trans ?_)
      have := (Der.refl (P := g.prod) p).append ((Der.prod hp).append (Der.refl β))
      simpa using this
    cases x with
    | cons c x =>
      obtain ⟨rfl, -⟩ := List.cons.inj e
      have hx' : Der g.prod δ (b :: (ω ++ x)) := hx.trans (hω.append (Der.refl x))
      obtain ⟨i, r, hi, hr, rfl⟩ := hf A δ b (hs A (by simp)) hp
        (.inl ⟨hT, _, derives_iff_der.2 hx'⟩)
      obtain ⟨β', h'⟩ := ih₁ hδ rfl ⟨A, [], derives_iff_der.2 (by simpa using Der.prod hp)⟩ (β ++ α) v
      refine ⟨β' ++ β, .head (.expand hi hr) ?_⟩
      simpa using h'
    | nil =>
      have e' : u = B :: γ := e
      have hβ' : Der g.prod β (b :: (ω ++ γ)) := by
        rw [e'] at hβ
        exact hβ.trans (hω.append (Der.refl γ))
      have hfol : Derives g.prod [C] (p ++ A :: b :: (ω ++ γ)) :=
        derives_iff_der.2 ((derives_iff_der.1 hd).trans
          ((Der.refl p).append ((Der.refl [A]).append hβ')))
      have hctx : Derives g.prod [C] (p ++ δ ++ b :: (ω ++ γ)) :=
        derives_iff_der.2 ((derives_iff_der.1 hd₁).trans ((Der.refl _).append hβ'))
      obtain ⟨i, r, hi, hr, rfl⟩ := hf A δ b (hs A (by simp)) hp
        (.inr ⟨derives_iff_der.2 hx, hT, C, p, _, hfol⟩)
      have r1 := reads_word hf hU hx (by simp) hδ (v := v) hT ⟨C, p, _, hctx⟩ (β ++ α)
      obtain ⟨β', h'⟩ := ih₂ (fun s h => hs s (by simp [h])) e'
        ⟨C, p ++ [A], by simpa using hd⟩ α v
      exact ⟨β', .head (.expand hi hr) (r1.trans h')⟩

/-- The same in front of a terminal that can follow, if everything derives the empty string. -/
theorem reads_left_empty {g : Cfg} {t : LlTable} {U : Sym → Prop} (hf : Finds g t U)
    (hU : ClosedU g U) {B b : Sym} (hT : g.Term b) {β u : List Sym} (h : Der g.prod β u) :
    (∀ s ∈ β, U s) → ∀ {γ : List Sym}, u = B :: γ → Der g.prod u [] →
    ∀ {C p q}, Derives g.prod [C] (p ++ β ++ b :: q) →
    ∀ α v, ∃ β', Relation.ReflTransGen (LlMove g t) (β ++ α, b :: v) (B :: β' ++ α, b :: v) := by
  induction h with
  | nil => intro _ γ e; cases e
  | @keep a β u _ ih =>
    intro hs γ e _ C p q _ α v
    obtain ⟨rfl, rfl⟩ := List.cons.inj e
    exact ⟨β, .refl⟩
  | @expand A δ x β u hp hx hβ ih₁ ih₂ =>
    intro hs γ e hu C p q hd α v
    have hδ : ∀ s ∈ δ, U s := fun s h => hU A δ (hs A (by simp)) hp s h
    have hx0 : Der g.prod x [] := der_nil_iff.2 fun s h => der_nil_iff.1 hu s (by simp [h])
    have hu0 : Der g.prod u [] := der_nil_iff.2 fun s h => der_nil_iff.1 hu s (by simp [h])
    have hfol : Derives g.prod [C] (p ++ A :: b :: q) := by
      refine derives_iff_der.2 ((derives_iff_der.1 hd).trans ?_)
      have := (Der.refl (P := g.prod) (p ++ [A])).append ((hβ.trans hu0).append (Der.refl (b :: q)))
      simpa using this
    have hctx : Derives g.prod [C] (p ++ δ ++ b :: q) := by
      refine derives_iff_der.2 ((derives_iff_der.1 hfol).trans ?_)
      have := (Der.refl (P := g.prod) p).append ((Der.prod hp).append (Der.refl (b :: q)))
      simpa using this
    obtain ⟨i, r, hi, hr, rfl⟩ := hf A δ b (hs A (by simp)) hp
      (.inr ⟨derives_iff_der.2 (hx.trans hx0), hT, C, p, q, hfol⟩)
    cases x with
    | cons c x =>
      obtain ⟨rfl, -⟩ := List.cons.inj e
      obtain ⟨β', h'⟩ := ih₁ hδ rfl hx0 hctx (β ++ α) v
      refine ⟨β' ++ β, .head (.expand hi hr) ?_⟩
      simpa using h'
    | nil =>
      have r1 := reads_word hf hU hx (by simp) hδ (v := v) hT ⟨C, p, q, hctx⟩ (β ++ α)
      obtain ⟨β', h'⟩ := ih₂ (fun s h => hs s (by simp [h])) e hu0 (C := C) (p := p ++ [A]) (q := q)
        (by simpa using hd) α v
      exact ⟨β', .head (.expand hi hr) (r1.trans h')⟩

/-- What holds for a string and carries over from left to right sides holds for derived strings. -/
theorem der_all {P : Productions} {Q : Sym → Prop} (hQ : ∀ B β, Q B → P B β → ∀ s ∈ β, Q s)
    {β u : List Sym} (h : Der P β u) : (∀ s ∈ β, Q s) → ∀ s ∈ u, Q s := by
  induction h with
  | nil => simp
  | keep a _ ih =>
    intro hs s hm
    rcases List.mem_cons.1 hm with rfl | hm
    · exact hs _ (by simp)
    · exact ih (fun s h => hs s (by simp [h])) s hm
  | expand hp _ _ ih1 ih2 =>
    intro hs s hm
    rcases List.mem_append.1 hm with hm | hm
    · exact ih1 (fun s h => hQ _ _ (hs _ (by simp)) hp s h) s hm
    · exact ih2 (fun s h => hs s (by simp [h])) s hm

/-- A string of productive symbols derives the empty string or one that begins with a terminal. -/
theorem productive_first {P : Productions} {T : Sym → Prop} {u : List Sym}
    (h : ∀ s ∈ u, Productive P T s) : Der P u [] ∨ ∃ b, FirstOf P T u b := by
  have : ∃ v, Der P u v ∧ ∀ a ∈ v, T a := by
    induction u with
    | nil => exact ⟨[], .nil, by simp⟩
    | cons s u ih =>
      obtain ⟨v, h1, h2⟩ := ih fun s hs => h s (by simp [hs])
      obtain ⟨w, h3, h4⟩ := h s (by simp)
      refine ⟨w ++ v, (derives_iff_der.1 h3).append h1, fun a ha => ?_⟩
      rcases List.mem_append.1 ha with ha | ha
      exacts [h4 a ha, h2 a ha]
  obtain ⟨v, h1, h2⟩ := this
  cases v with
  | nil => exact .inl h1
  | cons b v => exact .inr ⟨b, h2 b (by simp), v, derives_iff_der.2 h1⟩

/-- **C154, partial.** If `classify` gives `A` the class `Ll1`, then no rule of a symbol that `A`
reaches is left recursive, if the symbol derives a string that is not empty, or a terminal can follow
it, or the symbol is `A`; all symbols of rules that `A` reaches are productive; and nullable symbols at
the front of right sides derive only the empty string. In particular no such symbol lies on a cycle.

Missing from the full statement: it is false for unproductive symbols (`C154_violated_unproductive`) and
for symbols that derive only the empty string, at the end of all strings (`C154_violated_empty`).
Whether the condition on the front of right sides can be left out is open. -/
theorem C154_left_partial {g : Cfg} (hwf : g.WF) :
    ∃ t c, g.llParseTable = .ok t ∧ g.llClassify t = .ok c ∧ ∀ A, c A = some .ll1 →
      (∀ r ∈ g.rules, Reaches g.prod A r.lhs → LeadsEmpty g.prod g.Term r.rhs ∧
        ∀ s ∈ r.rhs, Productive g.prod g.Term s) →
      ∀ r ∈ g.rules, Reaches g.prod A r.lhs → ((∃ b, FirstOf g.prod g.Term [r.lhs] b) ∨
          (∃ b, FollowOf g.prod g.Term r.lhs b) ∨ r.lhs = A) →
        ¬ LeftRecursive g.prod r.lhs r.rhs ∧
          ¬ Relation.TransGen (fun X Y => g.prod X [Y]) r.lhs r.lhs := by
  obtain ⟨t, c, e, e', hc⟩ := C76_classes hwf
  obtain ⟨t', e'', ht⟩ := C46_cells_partial hwf
  obtain rfl := Res.ok.inj (e.symm.trans e'')
  obtain ⟨t', c', f, f', hstop⟩ := C124_stops_partial hwf
  obtain rfl := Res.ok.inj (e.symm.trans f)
  obtain rfl := Res.ok.inj (e'.symm.trans f')
  refine ⟨t, c, e, e', fun A hA hrules => ?_⟩
  have main : ∀ r ∈ g.rules, Reaches g.prod A r.lhs → ((∃ b, FirstOf g.prod g.Term [r.lhs] b) ∨
      ∃ b, FollowOf g.prod g.Term r.lhs b) → ¬ LeftRecursive g.prod r.lhs r.rhs := by
    rintro r hr hreach hlook ⟨β, hβ⟩
    rw [derives_iff_der] at hβ
    have hrules' : ∀ q ∈ g.rules, Reaches g.prod r.lhs q.lhs → LeadsEmpty g.prod g.Term q.rhs ∧
        ∀ s ∈ q.rhs, Productive g.prod g.Term s := fun q hq h => hrules q hq (hreach.trans h)
    have hf := finds_of (fun B a => (ht B a).2.2) fun q hq h => (hrules' q hq h).1
    have hU := closedU_reaches g r.lhs
    have hp : g.prod r.lhs r.rhs := ⟨r, hr, rfl, rfl⟩
    have hUr : ∀ s ∈ r.rhs, Reaches g.prod r.lhs s := hU _ _ (Reaches.refl _) hp
    -- a terminal in front of which the rule is found and leads back to its left side
    have hloop : ∃ b, g.Term b ∧ (∃ i q, i ∈ (t.get? (r.lhs, b)).getD [] ∧ g.rules[i]? = some q ∧
        q.rhs = r.rhs) ∧ ∀ α, ∃ β', Relation.ReflTransGen (LlMove g t) (r.rhs ++ α, [b])
          (r.lhs :: β' ++ α, [b]) := by
      by_cases hfst : ∃ b, FirstOf g.prod g.Term [r.lhs] b
      · obtain ⟨b, hb⟩ := hfst
        have hfirst : FirstOf g.prod g.Term r.rhs b := by
          obtain ⟨hT, ω, hω⟩ := hb
          exact ⟨hT, ω ++ β, derives_iff_der.2 (hβ.trans
            ((derives_iff_der.1 hω).append (Der.refl β)))⟩
        refine ⟨b, hb.1, hf r.lhs r.rhs b (Reaches.refl _) hp (.inl hfirst), fun α => ?_⟩
        exact reads_left hf hU hb hβ hUr rfl
          ⟨r.lhs, [], derives_iff_der.2 (by simpa using Der.prod hp)⟩ α []
      · obtain ⟨b, hT, C, p, q, hd⟩ := hlook.resolve_left hfst
        have hnull : Der g.prod (r.lhs :: β) [] := by
          have hall := der_all (Q := fun s => Reaches g.prod r.lhs s ∧ Productive g.prod g.Term s)
            (fun B δ hB hpB s hs => ⟨hU B δ hB.1 hpB s hs, by
              obtain ⟨q, hq, rfl, rfl⟩ := hpB
              exact (hrules' q hq hB.1).2 s hs⟩) hβ
            fun s hs => ⟨hUr s hs, (hrules' r hr (Reaches.refl _)).2 s hs⟩
          refine (productive_first fun s hs => (hall s hs).2).resolve_right ?_
          rintro ⟨a, ha, ω, hω⟩
          exact hfst ⟨a, ha, ω, derives_iff_der.2
            ((Der.prod hp).trans (hβ.trans (derives_iff_der.1 hω)))⟩
        have hctx : Derives g.prod [C] (p ++ r.rhs ++ b :: q) := by
          refine derives_iff_der.2 ((derives_iff_der.1 hd).trans ?_)
          have := (Der.refl (P := g.prod) p).append ((Der.prod hp).append (Der.refl (b :: q)))
          simpa using this
        refine ⟨b, hT, hf r.lhs r.rhs b (Reaches.refl _) hp
          (.inr ⟨derives_iff_der.2 (hβ.trans hnull), hT, C, p, q, hd⟩), fun α => ?_⟩
        exact reads_left_empty hf hU hT hβ hUr rfl hnull hctx α []
    obtain ⟨b, hT, ⟨i, q, hi, hq, hqr⟩, hrun⟩ := hloop
    have hll : c r.lhs = some .ll1 := by
      refine (hc r.lhs).2.2.2 ⟨⟨b, List.ne_nil_of_mem hi⟩, fun B a hB => ?_⟩
      exact ((hc A).2.2.1 hA).2 B a (hreach.trans hB)
    have hacc := (hstop r.lhs hll hrules' b [b] hT).transGen
    have loop : ∀ α, ∃ α', Relation.TransGen (LlMove g t) (r.lhs :: α, [b]) (r.lhs :: α', [b]) := by
      intro α
      obtain ⟨β', h'⟩ := hrun α
      refine ⟨β' ++ α, Relation.TransGen.head' (.expand hi hq) ?_⟩
      rw [hqr]
      exact h'
    have never : ∀ s, Acc (Relation.TransGen fun s' s => LlMove g t s s') s →
        ∀ α, s = (r.lhs :: α, [b]) → False := by
      intro s hs
      induction hs with
      | intro s _ ih =>
        rintro α rfl
        obtain ⟨α', h'⟩ := loop α
        exact ih _ (Relation.transGen_swap.2 h') α' rfl
    exact never _ hacc [b] rfl
  intro r hr hreach hlook
  have hlook' : (∃ b, FirstOf g.prod g.Term [r.lhs] b) ∨ ∃ b, FollowOf g.prod g.Term r.lhs b := by
    rcases hlook with h | h | rfl
    · exact .inl h
    · exact .inr h
    · obtain ⟨b, hb⟩ := ((hc r.lhs).2.2.1 hA).1
      obtain ⟨i, hi⟩ := List.exists_mem_of_ne_nil _ hb
      obtain ⟨q, hq, hql, hcell⟩ := (ht r.lhs b).2.1 i hi
      have hmem := List.mem_of_getElem? hq
      rcases hcell (hrules q hmem (hql ▸ hreach)).2 with ⟨hT, γ, hγ⟩ | ⟨-, h⟩
      · exact .inl ⟨b, hT, γ, derives_iff_der.2
          ((Der.prod ⟨q, hmem, hql, rfl⟩).trans (derives_iff_der.1 hγ))⟩
      · exact .inr ⟨b, h⟩
  refine ⟨main r hr hreach hlook', fun hcyc => ?_⟩
  obtain ⟨X, ⟨q, hq, e1, e2⟩, hX⟩ := Relation.TransGen.head'_iff.1 hcyc
  refine main q hq (e1 ▸ hreach) (e1 ▸ hlook') ⟨[], ?_⟩
  rw [e1, e2, derives_iff_der]
  clear hcyc e2
  induction hX using Relation.ReflTransGen.head_induction_on with
  | refl => exact Der.refl _
  | head h _ ih => exact (Der.prod h).trans ih

/-- In `exLlTrees`, which meets the other hypotheses (see `Props/LlTrees.lean` and
`Props/LlParser.lean`), the left side of each rule derives a string that begins with a terminal, and
the rule `X ::= b X` is recursive. -/
example : (∀ r ∈ exLlTrees.rules, ∃ b, FirstOf exLlTrees.prod exLlTrees.Term [r.lhs] b) ∧
    exLlTrees.prod 1 [3, 1] := by
  have h0 : FirstOf exLlTrees.prod exLlTrees.Term [0] 5 :=
    ⟨by decide, [], derives_iff_der.2 (.prod ⟨⟨0, [5], {}⟩, by decide, rfl, rfl⟩)⟩
  have hx : exLlTrees.prod 1 [3, 1] := ⟨⟨1, [3, 1], {}⟩, by decide, rfl, rfl⟩
  have h1 : FirstOf exLlTrees.prod exLlTrees.Term [1] 3 := ⟨by decide, [1], derives_iff_der.2 (.prod hx)⟩
  refine ⟨fun r hr => ?_, hx⟩
  simp only [exLlTrees, List.mem_cons, List.not_mem_nil, or_false] at hr
  rcases hr with rfl | rfl | rfl | rfl
  exacts [⟨5, h0⟩, ⟨5, h0⟩, ⟨3, h1⟩, ⟨3, h1⟩]

/-- **C154 does not hold**: in `exLlExtra` the unproductive symbol `U` with the only rule `U ::= U` gets
the class `Ll1`. -/
theorem C154_violated_unproductive : exLlExtra.WF ∧
    (do let t ← exLlExtra.llParseTable
        let c ← exLlExtra.llClassify t
        .ok ([0, 1].map c)) = .ok [some .ll1, some .ll1] ∧
    exLlExtra.prod 1 [1] ∧ LeftRecursive exLlExtra.prod 1 [1] :=
  ⟨by decide +kernel, by decide +kernel, ⟨⟨1, [1], {}⟩, by decide, rfl, rfl⟩, [], .refl⟩

/-- `S ::= b A`, `A ::= A | ε`; symbols `S A b = 0 .. 2`. -/
def exLlTail : Cfg :=
  { src := ⟨3, [none, none, none]⟩
    rules := [⟨0, [2, 1], {}⟩, ⟨1, [1], {}⟩, ⟨1, [], {}⟩]
    roots := [0] }

/-- **C154 does not hold**: in `exLlTail` all symbols are productive, `S` gets the class `Ll1`, and
reaches `A`, which has the rule `A ::= A`. -/
theorem C154_violated_empty : exLlTail.WF ∧
    (do let t ← exLlTail.llParseTable
        let c ← exLlTail.llClassify t
        .ok ([0, 1].map c)) = .ok [some .ll1, none] ∧
    (∀ s < 3, Productive exLlTail.prod exLlTail.Term s) ∧ Reaches exLlTail.prod 0 1 ∧
    exLlTail.prod 1 [1] ∧ LeftRecursive exLlTail.prod 1 [1] := by
  have h1 : Der exLlTail.prod [1] [] := .prod ⟨⟨1, [], {}⟩, by decide, rfl, rfl⟩
  have h0 : Der exLlTail.prod [0] [2, 1] := .prod ⟨⟨0, [2, 1], {}⟩, by decide, rfl, rfl⟩
  refine ⟨by decide +kernel, by decide +kernel, fun s hs => ?_, ?_,
    ⟨⟨1, [1], {}⟩, by decide, rfl, rfl⟩, [], .refl⟩
  · rcases s with _ | _ | _ | s
    · exact ⟨[2], derives_iff_der.2 (h0.trans ((Der.refl [2]).append h1)), by decide⟩
    · exact ⟨[], derives_iff_der.2 h1, by simp⟩
    · exact ⟨[2], .refl, by decide⟩
    · omega
  · exact ⟨[2], [], derives_iff_der.2 h0⟩

end Verif
