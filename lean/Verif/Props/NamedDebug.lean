import Verif.Model.NamedDebug
import Verif.Props.Misc

/-! # Property C146: what printing a named rule tells -/

namespace Verif

/-- No symbol of the rule has the name that stands for a missing one. -/
def NamedCfgRule.NoGensym (a : NamedCfgRule) : Prop :=
  ∀ s ∈ a.lhs :: a.rhs, a.names[s]? ≠ some (some "gensym")

instance (a : NamedCfgRule) : Decidable a.NoGensym := inferInstanceAs (Decidable (∀ s ∈ _, _))

/-- The shown names, when every symbol has an entry. -/
private theorem shownRhs_eq (a : NamedCfgRule) (l : List Sym) (h : ∀ s ∈ l, s < a.names.length) :
    a.shownRhs l = .ok (l.map fun s => (a.names[s]?.getD none).getD "gensym") := by
  induction l with
  | nil => rfl
  | cons s l ih =>
    unfold NamedCfgRule.shownRhs NamedCfgRule.shownName nameAt
    have hs := h s (by simp)
    rw [Res.index_lt hs, ih fun x hx => h x (by simp [hx])]
    simp [Res.bind_ok, List.getElem?_eq_getElem hs]

private theorem debug_eq {a : NamedCfgRule} (h : a.Ok) :
    a.debug = .ok ((a.names[a.lhs]?.getD none).getD "gensym",
      a.rhs.map (fun s => (a.names[s]?.getD none).getD "gensym"), a.history) := by
  unfold NamedCfgRule.debug
  rw [shownRhs_eq a _ h.2]
  unfold NamedCfgRule.shownName nameAt
  rw [Res.index_lt h.1]
  simp [Res.bind_ok, List.getElem?_eq_getElem h.1]

private theorem shown_inj {na nb : List (Option String)} {s t : Sym} (hs : s < na.length)
    (ht : t < nb.length) (h1 : na[s]? ≠ some (some "gensym")) (h2 : nb[t]? ≠ some (some "gensym")) :
    (na[s]?.getD none).getD "gensym" = (nb[t]?.getD none).getD "gensym" ↔ na[s]? = nb[t]? := by
  rw [List.getElem?_eq_getElem hs] at h1 ⊢
  rw [List.getElem?_eq_getElem ht] at h2 ⊢
  generalize na[s] = x at *
  generalize nb[t] = y at *
  cases x with
  | none =>
    cases y with
    | none => simp
    | some y =>
      simp only [Option.getD_some, Option.getD_none]
      exact ⟨fun e => absurd (by rw [← e]) h2, fun e => by simp at e⟩
  | some x =>
    cases y with
    | none =>
      simp only [Option.getD_some, Option.getD_none]
      exact ⟨fun e => absurd (by rw [e]) h1, fun e => by simp at e⟩
    | some y => simp

private theorem shown_map {na nb : List (Option String)} (l l' : List Sym)
    (hs : ∀ s ∈ l, s < na.length ∧ na[s]? ≠ some (some "gensym"))
    (ht : ∀ s ∈ l', s < nb.length ∧ nb[s]? ≠ some (some "gensym")) :
    l.map (fun s => (na[s]?.getD none).getD "gensym") =
        l'.map (fun s => (nb[s]?.getD none).getD "gensym") ↔
      l.map (fun s => na[s]?) = l'.map (fun s => nb[s]?) := by
  induction l generalizing l' with
  | nil => cases l' <;> simp
  | cons s l ih =>
    cases l' with
    | nil => simp
    | cons t l' =>
      have h1 := hs s (by simp)
      have h2 := ht t (by simp)
      simp only [List.map_cons, List.cons.injEq, shown_inj h1.1 h2.1 h1.2 h2.2,
        ih l' (fun x hx => hs x (by simp [hx])) (fun x hx => ht x (by simp [hx]))]

/-- **C146** is false when a symbol is named `gensym`: rules that print the same, with histories,
and compare unequal. -/
theorem C146_violated : ∃ a b : NamedCfgRule, a.Ok ∧ b.Ok ∧ a.history ≠ none ∧
    a.debug = b.debug ∧ a.eq b = .ok false :=
  ⟨⟨0, [1], some {}, [some "S", some "gensym"]⟩, ⟨0, [1], some {}, [some "S", none]⟩, by
    decide +kernel⟩

/-- **C146** for rules whose symbols have entries in the table of names, none of them `gensym`:
printing does not panic; two rules print the same exactly if their symbols have the same names, or
none, in the same places and they have the same history or none; rules that print the same compare
equal, and rules with histories that compare equal print the same. What is missing: symbols with
the name `gensym` (`C146_violated`). -/
theorem C146_debug_partial {a b : NamedCfgRule} (ha : a.Ok) (hb : b.Ok) (na : a.NoGensym)
    (nb : b.NoGensym) :
    ∃ x y, a.debug = .ok x ∧ b.debug = .ok y ∧
      (x = y ↔ a.display = b.display ∧ a.history = b.history) ∧
      (x = y → a.eq b = .ok true) ∧
      (a.history ≠ none → b.history ≠ none → a.eq b = .ok true → x = y) := by
  have key : ((a.names[a.lhs]?.getD none).getD "gensym",
      a.rhs.map (fun s => (a.names[s]?.getD none).getD "gensym"), a.history) =
      ((b.names[b.lhs]?.getD none).getD "gensym",
      b.rhs.map (fun s => (b.names[s]?.getD none).getD "gensym"), b.history) ↔
      a.display = b.display ∧ a.history = b.history := by
    unfold NamedCfgRule.display
    simp only [Prod.mk.injEq]
    rw [shown_inj ha.1 hb.1 (na _ (by simp)) (nb _ (by simp)),
      shown_map _ _ (fun s hs => ⟨ha.2 s hs, na s (by simp [hs])⟩)
        (fun s hs => ⟨hb.2 s hs, nb s (by simp [hs])⟩), and_assoc]
  obtain ⟨⟨v, e, hv⟩, -⟩ := C70_eq_partial a b ha hb
  refine ⟨_, _, debug_eq ha, debug_eq hb, key, fun h => ?_, fun h1 h2 h3 => ?_⟩
  · obtain ⟨h1, h2⟩ := key.1 h
    rw [e, hv.2 ⟨h1, .inr (.inr h2)⟩]
  · have := hv.1 (Res.ok.inj (e.symm.trans h3))
    exact key.2 ⟨this.1, by tauto⟩

/-- Rules with different numbers that meet the hypotheses, one symbol having no name, and print the
same. -/
example : ∃ a b : NamedCfgRule, a.Ok ∧ b.Ok ∧ a.NoGensym ∧ b.NoGensym ∧ a ≠ b ∧
    a.debug = .ok ("S", ["x", "gensym"], some {}) ∧ b.debug = a.debug ∧ a.eq b = .ok true :=
  ⟨⟨0, [1, 2], some {}, [some "S", some "x", none]⟩,
    ⟨2, [1, 0], some {}, [none, some "x", some "S"]⟩, by decide +kernel⟩

end Verif
