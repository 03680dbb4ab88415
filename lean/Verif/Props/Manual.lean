import Verif.Proofs.Derivation
import Verif.Model.BitSet
import Verif.Spec.Grammar
import Verif.Props.Basic

/-! # Property C120: removing and adding rules by hand -/

namespace Verif

open Cfg

/-- **C120.** `retain` keeps every copy of the rules that meet the predicate, in their order, and no
other rule; symbols, names, roots and limit stay. -/
theorem C120_retain (g : Cfg) (f : CfgRule → Bool) :
    (g.retain f).rules.Sublist g.rules ∧
    (∀ r, (g.retain f).rules.count r = if f r then g.rules.count r else 0) ∧
    (g.retain f).src = g.src ∧ (g.retain f).roots = g.roots ∧
    (g.retain f).wrappedRoots = g.wrappedRoots ∧
    (g.retain f).rhsLenInvariant = g.rhsLenInvariant := by
  refine ⟨List.filter_sublist, fun r => ?_, rfl, rfl, rfl, rfl⟩
  show (g.rules.filter f).count r = _
  by_cases h : f r = true
  · rw [if_pos h, List.count_filter h]
  · rw [if_neg h, List.count_eq_zero]
    intro hr
    exact h (List.mem_filter.1 hr).2

/-- **C120.** Retaining rules adds no strings: what is derived afterwards, with terminals of the
grammar before, was derived before. A symbol that keeps all its rules, and reaches only symbols that
do, loses no strings. -/
theorem C120_retain_lang (g : Cfg) (f : CfgRule → Bool) (A : Sym) (w : List Sym) :
    (InLang (g.retain f).prod g.Term A w → g.Lang A w) ∧
    ((∀ r ∈ g.rules, Reaches g.prod A r.lhs → f r = true) → g.Lang A w →
      InLang (g.retain f).prod g.Term A w) := by
  constructor
  · rintro ⟨h1, h2⟩
    refine ⟨h1.mono ?_, h2⟩
    rintro B α ⟨r, hr, e⟩
    exact ⟨r, List.mem_of_mem_filter hr, e⟩
  · rintro hA ⟨h1, h2⟩
    refine ⟨?_, h2⟩
    have key : ∀ v, Derives g.prod [A] v → Derives (g.retain f).prod [A] v := by
      intro v h
      induction h with
      | refl => exact .refl
      | tail h1 h2 ih =>
        obtain ⟨B, α, p, s, ⟨r, hr, rfl, rfl⟩, rfl, rfl⟩ := h2
        exact ih.tail ⟨r.lhs, r.rhs, p, s,
          ⟨r, List.mem_filter.2 ⟨hr, hA r hr ⟨p, s, h1⟩⟩, rfl, rfl⟩, rfl, rfl⟩
    exact key w h1

/-- **C120.** Retaining twice retains the rules that meet both predicates, in any order. -/
theorem C120_retain_twice (g : Cfg) (f h : CfgRule → Bool) :
    (g.retain f).retain h = g.retain (fun r => f r && h r) ∧
    (g.retain f).retain h = (g.retain h).retain f := by
  have key : ∀ f h : CfgRule → Bool, (g.retain f).retain h = g.retain (fun r => f r && h r) := by
    intro f h
    show ({ g with rules := (g.rules.filter f).filter h } : Cfg) = _
    rw [List.filter_filter]
    simp only [Bool.and_comm]
    rfl
  refine ⟨key f h, ?_⟩
  rw [key f h, key h f]
  simp only [Bool.and_comm]

/-- **C120.** After `clear_rules` every symbol is a terminal and stands for itself only; symbols,
names, roots and limit stay. -/
theorem C120_clear_rules (g : Cfg) :
    (∀ A w, g.clearRules.Lang A w ↔ A < g.numSyms ∧ w = [A]) ∧
    g.clearRules.src = g.src ∧ g.clearRules.roots = g.roots ∧
    g.clearRules.wrappedRoots = g.wrappedRoots ∧
    g.clearRules.rhsLenInvariant = g.rhsLenInvariant := by
  refine ⟨fun A w => ?_, rfl, rfl, rfl, rfl⟩
  constructor
  · rintro ⟨h1, h2⟩
    have : w = [A] := by
      rcases Der.single_iff.1 (derives_iff_der.1 h1) with h | ⟨α, ⟨r, hr, -⟩, -⟩
      · exact h
      · exact absurd hr (by simp [clearRules])
    subst this
    exact ⟨(h2 A (by simp)).1, rfl⟩
  · rintro ⟨hA, rfl⟩
    refine ⟨.refl, fun a ha => ?_⟩
    rw [List.mem_singleton] at ha
    subst ha
    exact ⟨hA, by simp [clearRules]⟩

/-- **C120.** `extend` adds the rules of the other grammar behind the own rules; a string of terminals
of both grammars is derived from the result at least if one of the grammars derives it, and symbols,
names, roots and limit stay. -/
theorem C120_extend (g h : Cfg) :
    (g.extend h).rules = g.rules ++ h.rules ∧
    (∀ T A w, InLang g.prod T A w ∨ InLang h.prod T A w → InLang (g.extend h).prod T A w) ∧
    (g.extend h).src = g.src ∧ (g.extend h).roots = g.roots ∧
    (g.extend h).wrappedRoots = g.wrappedRoots ∧
    (g.extend h).rhsLenInvariant = g.rhsLenInvariant := by
  refine ⟨rfl, ?_, rfl, rfl, rfl, rfl⟩
  rintro T A w (⟨h1, h2⟩ | ⟨h1, h2⟩)
  · refine ⟨h1.mono ?_, h2⟩
    rintro B α ⟨r, hr, e⟩
    exact ⟨r, List.mem_append_left _ hr, e⟩
  · refine ⟨h1.mono ?_, h2⟩
    rintro B α ⟨r, hr, e⟩
    exact ⟨r, List.mem_append_right _ hr, e⟩

/-- **C120.** Moving the rules that fail a predicate out of a grammar and back gives the same rules,
counted, in an order in which the kept rules come first; all derivations stay. -/
theorem C120_split (g : Cfg) (f : CfgRule → Bool) :
    ((g.retain f).extend (g.retain fun r => !f r)).rules.Perm g.rules ∧
    ∀ A w, ((g.retain f).extend (g.retain fun r => !f r)).Lang A w ↔ g.Lang A w := by
  have hp : ((g.retain f).extend (g.retain fun r => !f r)).rules.Perm g.rules :=
    List.filter_append_perm f g.rules
  refine ⟨hp, fun A w => ?_⟩
  have h1 : ((g.retain f).extend (g.retain fun r => !f r)).prod = g.prod := by
    funext B α
    apply propext
    unfold Cfg.prod
    simp only [hp.mem_iff]
  have h2 : ((g.retain f).extend (g.retain fun r => !f r)).Term = g.Term := by
    funext a
    apply propext
    unfold Cfg.Term
    simp only [hp.mem_iff]
    rfl
  unfold Cfg.Lang
  rw [h1, h2]

/-- **C120.** A grammar made from a symbol source has its symbols and names, no rules, no roots and
no limit. -/
theorem C120_with_sym_source (s : SymbolSource) :
    (∀ a, (Cfg.withSymSource s).src.originalNameOf a = s.originalNameOf a) ∧
    (∀ A w, (Cfg.withSymSource s).Lang A w ↔ A < s.numSyms ∧ w = [A]) ∧
    (Cfg.withSymSource s).roots = [] ∧ (Cfg.withSymSource s).wrappedRoots = [] ∧
    (Cfg.withSymSource s).rhsLenInvariant = none :=
  ⟨fun _ => rfl, (C120_clear_rules (Cfg.withSymSource s)).1, rfl, rfl, rfl⟩

/-- `A ::= B | a a`, `B ::= b`, `C ::= A`; removing the rule of `C` keeps the strings of `A`. -/
def exManual : Cfg :=
  { src := ⟨5, [some "A", some "B", some "C", some "a", some "b"]⟩
    rules := [⟨0, [1], {}⟩, ⟨0, [3, 3], {}⟩, ⟨1, [4], {}⟩, ⟨2, [0], {}⟩], roots := [0] }

example : (exManual.retain fun r => r.lhs != 2).rules.length = 3 := by decide

example : exManual.Lang 0 [3, 3] ∧
    ∀ r ∈ exManual.rules, Reaches exManual.prod 0 r.lhs → (r.lhs != 2) = true := by
  refine ⟨⟨.prod (by decide +kernel), by decide +kernel⟩, ?_⟩
  intro r hr ⟨p, s, h⟩
  have key : ∀ v, Derives exManual.prod [0] v → ∀ x ∈ v, x ≠ 2 := by
    intro v h
    induction h with
    | refl => simp
    | tail _ h2 ih =>
      obtain ⟨B, α, p, s, ⟨r, hr, rfl, rfl⟩, rfl, rfl⟩ := h2
      have h3 : ∀ r ∈ exManual.rules, ∀ x ∈ r.rhs, x ≠ 2 := by decide +kernel
      intro x hx
      rcases List.mem_append.1 hx with hx | hx
      · rcases List.mem_append.1 hx with hx | hx
        · exact ih x (by simp [hx])
        · exact h3 r hr x hx
      · exact ih x (by simp [hx])
  simpa using key _ h r.lhs (by simp)

end Verif
