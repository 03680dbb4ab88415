import Verif.Proofs.Recursion

/-! # Properties C39 – C40: recursive rules -/

namespace Verif

/-- `S ::= A b S | c`, `A ::= a B`, `B ::= A d | ε`; symbols `S A B a b c d = 0 .. 6`. -/
def exRec : Cfg :=
  { src := ⟨7, [none, none, none, none, none, none, none]⟩
    rules := [⟨0, [1, 4, 0], {}⟩, ⟨0, [5], {}⟩, ⟨1, [3, 2], {}⟩, ⟨2, [1, 6], {}⟩, ⟨2, [], {}⟩]
    roots := [0] }

theorem exRec_wf : exRec.WF := by decide +kernel

open Classical in
/-- **C39.** The rules listed as recursive are exactly those with some symbol on the right side
from which the left side can be reached, in the order of the grammar. -/
theorem C39_recursive {g : Cfg} (hwf : g.WF) :
    ∃ l, g.recursiveRules = .ok l ∧
      l.map (·.1) = (g.rules.filter fun r => ∃ s ∈ r.rhs, Reaches g.prod s r.lhs) := by
  obtain ⟨l, h1, h2, -⟩ := recursiveRules_spec hwf
  exact ⟨l, h1, h2⟩

/-- **C39, the kinds.** For every rule listed, `left` says that the first symbol of the right side
reaches the left side, `right` that the last symbol does, `middle` that one of the others
does. -/
theorem C39_kinds {g : Cfg} (hwf : g.WF) :
    ∃ l, g.recursiveRules = .ok l ∧ ∀ p ∈ l, p.1 ∈ g.rules ∧
      (p.2.left = true ↔ ∃ s α, p.1.rhs = s :: α ∧ Reaches g.prod s p.1.lhs) ∧
      (p.2.right = true ↔ ∃ s α, p.1.rhs = α ++ [s] ∧ Reaches g.prod s p.1.lhs) ∧
      (p.2.middle = true ↔ ∃ a α s β b, p.1.rhs = a :: α ++ s :: β ++ [b] ∧
        Reaches g.prod s p.1.lhs) := by
  obtain ⟨l, h1, -, h3⟩ := recursiveRules_spec hwf
  refine ⟨l, h1, fun p hp => ⟨(h3 p hp).1, ?_, ?_, ?_⟩⟩
  · rw [(h3 p hp).2.left]
    constructor
    · rintro ⟨s, e, h⟩
      cases e' : p.1.rhs with
      | nil => rw [e'] at e; simp at e
      | cons a α => rw [e'] at e; simp at e; subst e; exact ⟨a, α, rfl, h⟩
    · rintro ⟨s, α, e, h⟩; exact ⟨s, by rw [e]; rfl, h⟩
  · rw [(h3 p hp).2.right]
    constructor
    · rintro ⟨s, e, h⟩
      obtain ⟨α, e'⟩ := List.getLast?_eq_some_iff.1 e
      exact ⟨s, α, e', h⟩
    · rintro ⟨s, α, e, h⟩; exact ⟨s, by rw [e]; simp, h⟩
  · rw [(h3 p hp).2.middle]
    constructor
    · rintro ⟨s, hs, h⟩
      cases e : p.1.rhs with
      | nil => rw [e] at hs; simp at hs
      | cons a l =>
        rcases List.eq_nil_or_concat l with rfl | ⟨l', b, rfl⟩
        · rw [e] at hs; simp at hs
        · rw [e] at hs
          simp only [List.concat_eq_append, List.drop_succ_cons, List.drop_zero,
            List.length_cons, List.length_append, List.length_nil] at hs
          rw [show l'.length + (0 + 1) + 1 - 2 = l'.length by omega, List.take_left' rfl] at hs
          obtain ⟨α, β, rfl⟩ := List.append_of_mem hs
          exact ⟨a, α, s, β, b, by simp, h⟩
    · rintro ⟨a, α, s, β, b, e, h⟩
      refine ⟨s, ?_, h⟩
      rw [e]
      simp only [List.cons_append, List.drop_succ_cons, List.drop_zero, List.length_cons,
        List.length_append, List.length_nil]
      rw [show α.length + (β.length + 1) + (0 + 1) + 1 - 2 = (α ++ s :: β).length by simp,
        List.take_left' rfl]
      simp

example : exRec.recursiveRules =
    .ok [(⟨0, [1, 4, 0], {}⟩, ⟨false, false, true⟩), (⟨1, [3, 2], {}⟩, ⟨false, false, true⟩),
      (⟨2, [1, 6], {}⟩, ⟨true, false, false⟩)] := by decide +kernel

/-- The rule `A ::= α` is left-recursive: starting with it, `A` derives a string that begins
with `A`. -/
def LeftRecursive (P : Productions) (A : Sym) (α : List Sym) : Prop :=
  ∃ β, Derives P α (A :: β)

/-- **C40 is violated (false alarm).** In `exRec` the rule `B ::= A d` is flagged left-recursive,
but every string derived from `A d` begins with `A` or `a`, never with `B`. -/
theorem C40_violated_false_alarm :
    ∃ l, exRec.recursiveRules = .ok l ∧
      ((⟨2, [1, 6], {}⟩, ⟨true, false, false⟩) : CfgRule × RecursionKind) ∈ l ∧
      ¬ LeftRecursive exRec.prod 2 [1, 6] := by
  refine ⟨[(⟨0, [1, 4, 0], {}⟩, ⟨false, false, true⟩), (⟨1, [3, 2], {}⟩, ⟨false, false, true⟩),
    (⟨2, [1, 6], {}⟩, ⟨true, false, false⟩)], by decide +kernel, by decide +kernel, ?_⟩
  rintro ⟨β, d⟩
  obtain ⟨w₁, w₂, e, d1, -⟩ := Der.cons_iff.1 (derives_iff_der.1 d)
  rcases Der.single_iff.1 d1 with rfl | ⟨α, ⟨r, hr, h1, rfl⟩, d2⟩
  · simp at e
  · have hr' : r = ⟨1, [3, 2], {}⟩ := by
      simp only [exRec, List.mem_cons, List.not_mem_nil, or_false] at hr
      rcases hr with rfl | rfl | rfl | rfl | rfl <;> simp at h1 ⊢
    subst hr'
    obtain ⟨w₃, w₄, rfl, d3, -⟩ := Der.cons_iff.1 d2
    rcases Der.single_iff.1 d3 with rfl | ⟨α, ⟨r, hr, h1, rfl⟩, d4⟩
    · simp at e
    · simp only [exRec, List.mem_cons, List.not_mem_nil, or_false] at hr
      rcases hr with rfl | rfl | rfl | rfl | rfl <;> simp at h1

/-- `A ::= N A | a`, `N ::= ε`; symbols `A N a = 0 .. 2`. -/
def exHidden : Cfg :=
  { src := ⟨3, [none, none, none]⟩
    rules := [⟨0, [1, 0], {}⟩, ⟨0, [2], {}⟩, ⟨1, [], {}⟩]
    roots := [0] }

/-- **C40 is violated (missed).** In `exHidden` the rule `A ::= N A` is left-recursive, since `N`
vanishes, but it is not flagged as such. -/
theorem C40_violated_hidden :
    exHidden.WF ∧ exHidden.recursiveRules =
        .ok [(⟨0, [1, 0], {}⟩, ⟨false, false, true⟩)] ∧
      LeftRecursive exHidden.prod 0 [1, 0] :=
  ⟨by decide +kernel, by decide +kernel, [],
    .single ⟨1, [], [], [0], by decide +kernel, rfl, rfl⟩⟩

/-- **C40, partial.** If no symbol is nullable, every left-recursive rule is flagged. What is
missing: nullable symbols (`C40_violated_hidden`), and the converse
(`C40_violated_false_alarm`). -/
theorem C40_no_nullable_partial {g : Cfg} (hwf : g.WF) (hn : ∀ A, ¬ Nullable g.prod A) :
    ∃ l, g.recursiveRules = .ok l ∧ ∀ r ∈ g.rules, LeftRecursive g.prod r.lhs r.rhs →
      ∃ k, (r, k) ∈ l ∧ k.left = true := by
  classical
  obtain ⟨l, h1, h2, h3⟩ := recursiveRules_spec hwf
  refine ⟨l, h1, fun r hr ⟨β, d⟩ => ?_⟩
  cases e : r.rhs with
  | nil => rw [e] at d; have := derives_iff_der.1 d; cases this
  | cons a α =>
    rw [e] at d
    obtain ⟨v', d'⟩ := der_first hn (derives_iff_der.1 d)
    have hreach : Reaches g.prod a r.lhs := ⟨[], v', derives_iff_der.2 d'⟩
    have hmem : r ∈ l.map (·.1) := by
      rw [h2, List.mem_filter]
      exact ⟨hr, decide_eq_true_iff.2 ⟨a, by simp [e], hreach⟩⟩
    obtain ⟨⟨r', k⟩, hp, rfl⟩ := List.mem_map.1 hmem
    exact ⟨k, hp, ((h3 _ hp).2.left).2 ⟨a, by rw [show (r', k).1.rhs = _ from e]; rfl, hreach⟩⟩

/-- `A ::= B b`, `B ::= A c | a`: left recursion through `B`. -/
def exLeft : Cfg :=
  { src := ⟨5, [none, none, none, none, none]⟩
    rules := [⟨0, [1, 3], {}⟩, ⟨1, [0, 4], {}⟩, ⟨1, [2], {}⟩]
    roots := [0] }

example : exLeft.WF ∧ (∀ A, ¬ Nullable exLeft.prod A) ∧
    LeftRecursive exLeft.prod 0 [1, 3] :=
  ⟨by decide +kernel, not_nullable_of_nonempty (by
      rintro A ⟨r, hr, -, e⟩
      simp only [exLeft, List.mem_cons, List.not_mem_nil, or_false] at hr
      rcases hr with rfl | rfl | rfl <;> simp at e),
    [4, 3], .single ⟨1, [0, 4], [], [3], by decide +kernel, rfl, rfl⟩⟩

end Verif
