import Verif.Proofs.Viable
import Verif.Props.Lr0
import Mathlib.Data.List.Induction

/-!
# Property C119: the LR(0) machine reads viable prefixes

Full statement: a string of symbols leads from the first node of the machine to another node exactly
if some item is valid for it, and the items of the node are the items valid for the string.
-/

namespace Verif

/-- The machine and its items as `NItem`. -/
theorem fsm_items {g : Cfg} (hwf : g.WF) (hlim : g.LimitOk) {start : Sym}
    (hs : start < g.numSyms) :
    ∃ g' nodes, g.makeLr0Fsm start = .ok (g', nodes) ∧
      g'.rules = g.rules ++ [⟨g.numSyms, [start], History.ofRoot .noOp⟩] ∧
      (∀ γ k, Walk nodes γ k → ∃ n, nodes[k]? = some n ∧
        (∃ i d, ItemSet n.items i d) ∧
        ∀ i d, ItemSet n.items i d → NItem g'.rules g.rules.length γ i d) ∧
      ∀ γ : List Sym, (∀ s ∈ γ, g.Term s) →
        (∀ δ, δ <+: γ → ∀ i d, NItem g'.rules g.rules.length δ i d →
          NItem g'.rules g.rules.length δ i 0 → d = 0) →
        (∃ i d, NItem g'.rules g.rules.length γ i d) →
        ∃ k n, Walk nodes γ k ∧ nodes[k]? = some n ∧
          ∀ i d, ItemSet n.items i d ↔ NItem g'.rules g.rules.length γ i d := by
  obtain ⟨g', nodes, h1, h2, ⟨n0, h3, h4⟩, -, h6, h7, -⟩ := C83_lr0_fsm hwf hlim hs
  have hstart : NItem g'.rules g.rules.length [] g.rules.length 0 := .start
  refine ⟨g', nodes, h1, h2, fun γ k hw => ?_, fun γ => ?_⟩
  · induction hw with
    | nil =>
      exact ⟨n0, h3, ⟨_, _, (h4 _ _).2 (nItem_nil.1 hstart)⟩,
        fun i d hi => nItem_nil.2 ((h4 i d).1 hi)⟩
    | @step γ j n a k _ hn hl ih =>
      obtain ⟨n', e, -, k2⟩ := ih
      obtain rfl := Option.some.inj (hn.symm.trans e)
      have hmem := List.mem_of_getElem? hn
      obtain ⟨-, n', e1, e2⟩ := h7 n hmem a k hl
      refine ⟨n', e1, ?_, fun i d hi => ?_⟩
      · obtain ⟨-, i, d, hm⟩ := (h6 n hmem a).1 ⟨k, hl⟩
        obtain ⟨e, r, h8, h9, h10, h11⟩ := hm
        by_cases hx : Expanded g'.rules (Moved g'.rules (ItemSet n.items) a) r.lhs
        · exact ⟨i, 0, (e2 i 0).2 ⟨r, h10, .inl ⟨hx, rfl⟩⟩⟩
        · exact ⟨i, d, (e2 i d).2 ⟨r, h10, .inr ⟨hx, e, r, h8, h9, h10, h11⟩⟩⟩
      · exact nItem_snoc.2 (((e2 i d).1 hi).sub.mono fun _ _ => Moved.mono k2)
  · induction γ using List.reverseRecOn with
    | nil => exact fun _ _ _ => ⟨0, n0, .nil, h3, fun i d => (h4 i d).trans nItem_nil.symm⟩
    | append_singleton γ a ih =>
      intro hT hk ⟨i, d, hv⟩
      have hmoved : ∃ i d, Moved g'.rules (NItem g'.rules g.rules.length γ) a i d := by
        have := nItem_snoc.1 hv
        clear hv
        induction this with
        | kernel h => exact ⟨_, _, h⟩
        | predict _ _ _ _ ih => exact ih
      obtain ⟨i', d', e', r', m1, m2, m3⟩ := hmoved
      obtain ⟨j, n, w1, w2, w3⟩ := ih (fun s hs => hT s (by simp [hs]))
        (fun δ hδ => hk δ (hδ.trans (List.prefix_append _ _))) ⟨i', e', m2⟩
      have hset : ItemSet n.items = NItem g'.rules g.rules.length γ := by
        funext i d; exact propext (w3 i d)
      have hmem := List.mem_of_getElem? w2
      obtain ⟨k, hl⟩ := (h6 n hmem a).2 ⟨hT a (by simp), i', d', by
        rw [hset]; exact ⟨e', r', m1, m2, m3⟩⟩
      obtain ⟨-, n', e1, e2⟩ := h7 n hmem a k hl
      refine ⟨k, n', w1.step w2 hl, e1, fun i d => ?_⟩
      rw [e2, hset, nItem_snoc]
      refine oneItemClosure_iff ?_ ?_ i d
      · rintro i d ⟨e, r, -, -, h, -⟩
        exact ⟨r, h⟩
      · intro i d h8 h9
        exact hk _ (List.prefix_refl _) i d (nItem_snoc.2 (.kernel h8)) (nItem_snoc.2 h9)

theorem augmented {g : Cfg} (hwf : g.WF) {start : Sym} {rules : List CfgRule} (h : rules = g.rules ++ [⟨g.numSyms, [start], History.ofRoot .noOp⟩]) :
    rules[g.rules.length]? = some ⟨g.numSyms, [start], History.ofRoot .noOp⟩ ∧
    (∀ i r, rules[i]? = some r → r.lhs = g.numSyms → i = g.rules.length) ∧
    ∀ r ∈ rules, ¬ g.Term r.lhs := by
  subst h
  refine ⟨by simp, fun i r hi hr => ?_, fun r hr => ?_⟩
  · by_contra hne
    by_cases hlt : i < g.rules.length
    · rw [List.getElem?_append_left hlt] at hi
      have := (hwf r (List.mem_of_getElem? hi)).1
      omega
    · rw [List.getElem?_eq_none (by simp; omega)] at hi
      cases hi
  · rcases List.mem_append.1 hr with hr | hr
    · exact fun h => h.2 r hr rfl
    · rw [List.mem_singleton] at hr
      subst hr
      exact fun h => absurd h.1 (by simp)

/-- **C119, the parts that hold**, for grammars in which every symbol on a right side is productive.
Every string that leads to a node is a viable prefix, and all items of the node are valid for it. A
viable prefix of terminals leads to a node with exactly the valid items, if no rule is valid for it
or for the strings before it with two dots, one of them at the start. What is missing: prefixes with
nonterminals (`C119_violated_nonterminal`), and rules with two dots (`C119_violated_items`). -/
theorem C119_viable_partial {g : Cfg} (hwf : g.WF) (hlim : g.LimitOk) {start : Sym}
    (hs : start < g.numSyms)
    (hp : ∀ r ∈ g.rules, ∀ s ∈ r.rhs, Productive g.prod g.Term s)
    (hps : Productive g.prod g.Term start) :
    ∃ g' nodes, g.makeLr0Fsm start = .ok (g', nodes) ∧
      g'.rules = g.rules ++ [⟨g.numSyms, [start], History.ofRoot .noOp⟩] ∧
      (∀ γ k, Walk nodes γ k → ∃ n, nodes[k]? = some n ∧
        (∃ i d, ValidItem g'.rules g.Term g.numSyms γ i d) ∧
        ∀ i d, ItemSet n.items i d → ValidItem g'.rules g.Term g.numSyms γ i d) ∧
      ∀ γ : List Sym, (∀ s ∈ γ, g.Term s) →
        (∀ δ, δ <+: γ → ∀ i d, ValidItem g'.rules g.Term g.numSyms δ i d →
          ValidItem g'.rules g.Term g.numSyms δ i 0 → d = 0) →
        (∃ i d, ValidItem g'.rules g.Term g.numSyms γ i d) →
        ∃ k n, Walk nodes γ k ∧ nodes[k]? = some n ∧
          ∀ i d, ItemSet n.items i d ↔ ValidItem g'.rules g.Term g.numSyms γ i d := by
  obtain ⟨g', nodes, h1, h2, h3, h4⟩ := fsm_items hwf hlim hs
  obtain ⟨a1, a2, a3⟩ := augmented hwf h2
  have hp' : ∀ r ∈ g'.rules, ∀ s ∈ r.rhs, Productive (rulesProd g'.rules) g.Term s := by
    have up : ∀ s, Productive g.prod g.Term s → Productive (rulesProd g'.rules) g.Term s := by
      rintro s ⟨w, hw, ht⟩
      refine ⟨w, hw.mono ?_, ht⟩
      rintro A α ⟨r, hr, e⟩
      exact ⟨r, by rw [h2]; exact List.mem_append_left _ hr, e⟩
    intro r hr s hs
    rw [h2] at hr
    rcases List.mem_append.1 hr with hr | hr
    · exact up s (hp r hr s hs)
    · rw [List.mem_singleton] at hr
      subst hr
      rw [List.mem_singleton] at hs
      subst hs
      exact up _ hps
  have key : ∀ γ i d, NItem g'.rules g.rules.length γ i d ↔
      ValidItem g'.rules g.Term g.numSyms γ i d := fun γ i d =>
    ⟨fun h => h.valid a1 hp', fun h =>
      ValidItem.nItem (r₀ := ⟨g.numSyms, [start], History.ofRoot .noOp⟩) a2 a3 h⟩
  refine ⟨g', nodes, h1, h2, fun γ k hw => ?_, fun γ hT hk ⟨i, d, hv⟩ => ?_⟩
  · obtain ⟨n, n1, ⟨i, d, n2⟩, n3⟩ := h3 γ k hw
    exact ⟨n, n1, ⟨i, d, (key γ i d).1 (n3 i d n2)⟩, fun i d h => (key γ i d).1 (n3 i d h)⟩
  · simp only [← key] at hk hv ⊢
    exact h4 γ hT hk ⟨i, d, hv⟩

/-! A case that meets the hypotheses: `S ::= a B d | a b c`, `B ::= b`, with the prefix `a b`. -/

/-- Symbols `S B a b c d = 0 .. 5`. -/
def exViable : Cfg :=
  { src := ⟨6, List.replicate 6 none⟩
    rules := [⟨0, [2, 1, 5], {}⟩, ⟨0, [2, 3, 4], {}⟩, ⟨1, [3], {}⟩], roots := [0] }

/-- The rules of `exViable` with the rule of the new start symbol. -/
def exViableRules : List CfgRule := exViable.rules ++ [⟨6, [0], History.ofRoot .noOp⟩]

/-- A list of items has the rules of the symbols after its dots. -/
def ItemsClosed (rules : List CfgRule) (L : List (Nat × Nat)) : Prop :=
  ∀ p ∈ L, ∀ x ∈ rules.zipIdx,
    (rules[p.1]?.bind fun r => r.rhs[p.2]?) = some x.1.lhs → (x.2, 0) ∈ L

instance (rules : List CfgRule) (L : List (Nat × Nat)) : Decidable (ItemsClosed rules L) :=
  inferInstanceAs (Decidable (∀ p ∈ L, _))

theorem ItemsClosed.closure {rules : List CfgRule} {L : List (Nat × Nat)}
    (h : ItemsClosed rules L) {K : Nat → Nat → Prop} (hK : ∀ i d, K i d → (i, d) ∈ L) {i d : Nat}
    (hi : ItemClosure rules K i d) : (i, d) ∈ L := by
  induction hi with
  | kernel hk => exact hK _ _ hk
  | @predict i d r j s _ h1 h2 h3 ih =>
    refine h _ ih (s, j) (List.mem_zipIdx_iff_getElem?.2 h2) ?_
    rw [h1]
    exact h3

theorem exViable_items :
    (∀ i d, NItem exViableRules 3 [] i d → (i, d) ∈ [(3, 0), (0, 0), (1, 0)]) ∧
    (∀ i d, NItem exViableRules 3 [2] i d → (i, d) ∈ [(0, 1), (1, 1), (2, 0)]) ∧
    ∀ i d, NItem exViableRules 3 [2, 3] i d → (i, d) ∈ [(1, 2), (2, 1)] := by
  have h0 : ∀ i d, NItem exViableRules 3 [] i d → (i, d) ∈ [(3, 0), (0, 0), (1, 0)] := by
    intro i d h
    refine ItemsClosed.closure (rules := exViableRules) (by decide +kernel) ?_ (nItem_nil.1 h)
    rintro i d ⟨rfl, rfl⟩
    simp
  have step : ∀ (γ : List Sym) (a : Sym) (L M : List (Nat × Nat)),
      (∀ i d, NItem exViableRules 3 γ i d → (i, d) ∈ L) → ItemsClosed exViableRules M →
      (∀ p ∈ L, (exViableRules[p.1]?.bind fun r => r.rhs[p.2]?) = some a → (p.1, p.2 + 1) ∈ M) →
      ∀ i d, NItem exViableRules 3 (γ ++ [a]) i d → (i, d) ∈ M := by
    intro γ a L M h1 h2 h3 i d h
    refine h2.closure ?_ (nItem_snoc.1 h)
    rintro i d ⟨e, r, rfl, k1, k2, k3⟩
    refine h3 (i, e) (h1 i e k1) ?_
    rw [k2]
    exact k3
  have h1 := step [] 2 _ [(0, 1), (1, 1), (2, 0)] h0 (by decide +kernel) (by decide +kernel)
  exact ⟨h0, h1, step [2] 3 _ [(1, 2), (2, 1)] h1 (by decide +kernel) (by decide +kernel)⟩

example : exViable.WF ∧ exViable.LimitOk ∧ 0 < exViable.numSyms ∧
    ∀ s ∈ [2, 3], exViable.Term s := by decide +kernel

theorem exViable_productive : ∀ s, s < 6 → Productive exViable.prod exViable.Term s := by
  have ht : ∀ s, exViable.Term s → Productive exViable.prod exViable.Term s := fun s hs =>
    ⟨[s], .refl, by simpa using hs⟩
  intro s hs
  rcases (by omega : s = 0 ∨ s = 1 ∨ 2 ≤ s) with rfl | rfl | h
  · exact ⟨[2, 3, 4], .prod (by decide +kernel), by decide +kernel⟩
  · exact ⟨[3], .prod (by decide +kernel), by decide +kernel⟩
  · refine ht s ⟨hs, fun r hr => ?_⟩
    have : ∀ r ∈ exViable.rules, r.lhs < 2 := by decide +kernel
    have := this r hr
    omega

example : ∀ r ∈ exViable.rules, ∀ s ∈ r.rhs, Productive exViable.prod exViable.Term s := by
  intro r hr s hs
  have : ∀ r ∈ exViable.rules, ∀ s ∈ r.rhs, s < 6 := by decide +kernel
  exact exViable_productive s (this r hr s hs)

/-- No rule is valid with two dots for a prefix of `a b`. -/
example : ∀ δ, δ <+: [2, 3] → ∀ i d, ValidItem exViableRules exViable.Term 6 δ i d →
    ValidItem exViableRules exViable.Term 6 δ i 0 → d = 0 := by
  obtain ⟨a1, a2, a3⟩ := augmented (g := exViable) (start := 0) (by decide +kernel) rfl
  intro δ hδ i d h1 h2
  have n1 := ValidItem.nItem (r₀ := ⟨6, [0], History.ofRoot .noOp⟩) a2 a3 h1
  have n2 := ValidItem.nItem (r₀ := ⟨6, [0], History.ofRoot .noOp⟩) a2 a3 h2
  change NItem exViableRules 3 δ i d at n1
  change NItem exViableRules 3 δ i 0 at n2
  obtain ⟨e0, e1, e2⟩ := exViable_items
  have : δ = [] ∨ δ = [2] ∨ δ = [2, 3] := by
    have e := List.prefix_iff_eq_take.1 hδ
    have l : δ.length ≤ 2 := hδ.length_le
    rcases (by omega : δ.length = 0 ∨ δ.length = 1 ∨ δ.length = 2) with h | h | h <;>
      rw [h] at e <;> simp [e]
  rcases this with rfl | rfl | rfl
  · have := e0 i d n1
    simp only [List.mem_cons, Prod.mk.injEq, List.not_mem_nil, or_false] at this
    omega
  · have k1 := e1 i d n1
    have k2 := e1 i 0 n2
    simp only [List.mem_cons, Prod.mk.injEq, List.not_mem_nil, or_false] at k1 k2
    omega
  · have k1 := e2 i d n1
    have k2 := e2 i 0 n2
    simp only [List.mem_cons, Prod.mk.injEq, List.not_mem_nil, or_false] at k1 k2
    omega

/-- `a b` is viable: `S ::= a b • c` is valid. -/
example : ValidItem exViableRules exViable.Term 6 [2, 3] 1 2 :=
  ⟨⟨0, [2, 3, 4], {}⟩, [], [], rfl, by decide, by simp,
    .single ⟨6, [0], [], [], by decide +kernel, by simp, rfl, rfl⟩, rfl⟩

/-- **C119 is false for nonterminals**: in every grammar with a rule of the start symbol whose right
side begins with a nonterminal, that nonterminal is a viable prefix, but leads to no node. -/
theorem C119_violated_nonterminal {g : Cfg} (hwf : g.WF) (hlim : g.LimitOk) {start A : Sym}
    {β : List Sym} (hp : g.prod start (A :: β)) (hA : ¬ g.Term A) :
    ∃ g' nodes, g.makeLr0Fsm start = .ok (g', nodes) ∧
      g'.rules = g.rules ++ [⟨g.numSyms, [start], History.ofRoot .noOp⟩] ∧
      (∃ i d, ValidItem g'.rules g.Term g.numSyms [A] i d) ∧ ∀ k, ¬ Walk nodes [A] k := by
  obtain ⟨r, hr, rfl, e⟩ := hp
  obtain ⟨g', nodes, h1, h2, -, -, h6, -, -⟩ := C83_lr0_fsm hwf hlim (hwf r hr).1
  refine ⟨g', nodes, h1, h2, ?_, fun k hw => ?_⟩
  · obtain ⟨i, hi⟩ := List.getElem?_of_mem hr
    refine ⟨i, 1, r, [], [], ?_, by rw [e]; simp, by simp, ?_, by rw [e]; rfl⟩
    · rw [h2, List.getElem?_append_left (List.getElem?_eq_some_iff.1 hi).1, hi]
    · refine .single ⟨g.numSyms, [r.lhs], [], [], ⟨⟨g.numSyms, [r.lhs], History.ofRoot .noOp⟩, ?_,
        rfl, rfl⟩, by simp, rfl, rfl⟩
      rw [h2]
      simp
  · generalize hγ : [A] = γ at hw
    cases hw with
    | nil => simp at hγ
    | @step γ j n a k _ hn hl =>
      have : γ = [] ∧ A = a := by
        cases γ with
        | nil => exact ⟨rfl, (List.cons.inj hγ).1⟩
        | cons b γ => simp at hγ
      obtain ⟨rfl, rfl⟩ := this
      exact hA ((h6 n (List.mem_of_getElem? hn) A).1 ⟨_, hl⟩).1

example : lrGrammar.WF ∧ lrGrammar.LimitOk ∧ lrGrammar.prod 0 [1] ∧ ¬ lrGrammar.Term 1 := by
  decide +kernel

/-- **C119 is false for rules with two dots**: for `S ::= a S | b`, the item `S ::= a • S` is valid for
`a`, but not in the node that `a` leads to. -/
theorem C119_violated_items : ∃ (g : Cfg) (start : Sym) (g' : Cfg) (nodes : List Lr0Node)
    (a : Sym) (k i d : Nat) (n : Lr0Node),
    g.WF ∧ g.LimitOk ∧ (∀ s, s < g.numSyms → Productive g.prod g.Term s) ∧
    g.makeLr0Fsm start = .ok (g', nodes) ∧
    ValidItem g'.rules g.Term g.numSyms [a] i d ∧ Walk nodes [a] k ∧ nodes[k]? = some n ∧
    ¬ ItemSet n.items i d := by
  refine ⟨{ src := ⟨3, [none, none, none]⟩, rules := [⟨0, [1, 0], {}⟩, ⟨0, [2], {}⟩], roots := [0] },
    0, _, _, 1, 1, 0, 1, _, by decide +kernel, by decide +kernel, ?_, rfl, ?_,
    .step (γ := []) (j := 0) (a := 1) .nil rfl (by decide +kernel), rfl, ?_⟩
  · intro s hs
    have hs : s < 3 := hs
    rcases (by omega : s = 0 ∨ s = 1 ∨ s = 2) with rfl | rfl | rfl
    · exact ⟨[2], .prod (by decide +kernel), by decide +kernel⟩
    · exact ⟨[1], .refl, by decide +kernel⟩
    · exact ⟨[2], .refl, by decide +kernel⟩
  · exact ⟨⟨0, [1, 0], {}⟩, [], [], rfl, by decide, by simp,
      .single ⟨3, [0], [], [], by decide +kernel, by simp, rfl, rfl⟩, rfl⟩
  · rintro ⟨it, h1, h2⟩
    have : ∀ p ∈ ([(0, ⟨[1, 0], 0⟩), (1, ⟨[2], 0⟩)] : Lr0Items), ¬ (p.1 = 0 ∧ p.2.dot = 1) := by
      decide
    exact this (0, it) h1 ⟨rfl, h2⟩

end Verif
