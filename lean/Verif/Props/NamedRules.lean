import Verif.Props.Misc

/-! # What comparing named rules tells (C142) -/

namespace Verif

/-- The symbols of a rule have entries in the table of names. -/
def CfgRule.InNames (r : CfgRule) (src : SymbolSource) : Prop :=
  r.lhs < src.names.length ∧ ∀ s ∈ r.rhs, s < src.names.length

instance (r : CfgRule) (src : SymbolSource) : Decidable (r.InNames src) :=
  inferInstanceAs (Decidable (_ ∧ _))

/-- The names of the symbols of a rule, the left side first. -/
def CfgRule.nameList (r : CfgRule) (src : SymbolSource) : List (Option (Option String)) :=
  (r.lhs :: r.rhs).map fun s => src.names[s]?

/-- C142: the named rules of two grammars compare equal exactly if the rules have the same names in
the same places and the same histories. -/
theorem C142_named {r r' : CfgRule} {src src' : SymbolSource} (h : r.InNames src)
    (h' : r'.InNames src') :
    ∃ v, (r.named src).eq (r'.named src') = .ok v ∧
      (v = true ↔ r.nameList src = r'.nameList src' ∧ r.history = r'.history) := by
  obtain ⟨⟨v, e, hv⟩, -⟩ := C70_eq_partial (r.named src) (r'.named src') h h'
  refine ⟨v, e, hv.trans ?_⟩
  unfold CfgRule.nameList NamedCfgRule.display
  simp [CfgRule.named]

theorem range_names (n : Option String) (ns : List (Option String)) :
    (List.range' 1 ns.length).map (fun s => (n :: ns)[s]?) = ns.map some := by
  refine List.ext_getElem (by simp) fun i h1 h2 => ?_
  simp only [List.length_map] at h2
  simp only [List.getElem_map, List.getElem_range']
  rw [Nat.one_mul, Nat.add_comm, List.getElem?_cons_succ, List.getElem?_eq_getElem h2]

theorem range_ok (n : Option String) (ns : List (Option String)) :
    ∀ s ∈ List.range' 1 ns.length, s < (n :: ns).length := by
  intro s hs
  rw [List.mem_range'_1] at hs
  rw [List.length_cons]
  omega

/-- C142: a rule compares equal to the named rule made from a list of names exactly if its symbols
have these names. A rule made with a history also compares the history. -/
theorem C142_expected {r : CfgRule} {src : SymbolSource} (h : r.InNames src) (n : Option String)
    (ns : List (Option String)) :
    (∃ a v, NamedCfgRule.new (n :: ns) = .ok a ∧ (r.named src).eq a = .ok v ∧
      a.eq (r.named src) = .ok v ∧ (v = true ↔ r.nameList src = (n :: ns).map some)) ∧
    ∀ hist, ∃ a v, NamedCfgRule.withHistory (n :: ns) hist = .ok a ∧ (r.named src).eq a = .ok v ∧
      a.eq (r.named src) = .ok v ∧
      (v = true ↔ r.nameList src = (n :: ns).map some ∧ r.history = hist) := by
  have hl : (n :: ns).length - 1 = ns.length := rfl
  have e0 : ∀ hist : Option History, ∃ v,
      (r.named src).eq ⟨0, List.range' 1 ns.length, hist, n :: ns⟩ = .ok v ∧
      NamedCfgRule.eq ⟨0, List.range' 1 ns.length, hist, n :: ns⟩ (r.named src) = .ok v ∧
      (v = true ↔ r.nameList src = (n :: ns).map some ∧ (hist = none ∨ some r.history = hist)) := by
    intro hist
    have hok : NamedCfgRule.Ok ⟨0, List.range' 1 ns.length, hist, n :: ns⟩ :=
      ⟨Nat.zero_lt_succ _, range_ok n ns⟩
    obtain ⟨⟨v, e, hv⟩, -, hc, -⟩ := C70_eq_partial (r.named src) _ h hok
    refine ⟨v, e, hc ▸ e, hv.trans ?_⟩
    unfold CfgRule.nameList NamedCfgRule.display
    dsimp only
    rw [range_names]
    simp [CfgRule.named]
  constructor
  · obtain ⟨v, h1, h2, h3⟩ := e0 none
    refine ⟨⟨0, List.range' 1 ns.length, none, n :: ns⟩, v, rfl, h1, h2, ?_⟩
    rw [h3]
    simp
  · intro hist
    obtain ⟨v, h1, h2, h3⟩ := e0 (some hist)
    refine ⟨⟨0, List.range' 1 ns.length, some hist, n :: ns⟩, v, rfl, h1, h2, ?_⟩
    rw [h3]
    simp

/-- Rules of different grammars that meet the hypotheses and compare equal. -/
example : ∃ (r r' : CfgRule) (src src' : SymbolSource), r.InNames src ∧ r'.InNames src' ∧ r ≠ r' ∧
    (r.named src).eq (r'.named src') = .ok true :=
  ⟨⟨0, [1, 0], {}⟩, ⟨1, [0, 1], {}⟩, ⟨2, [some "S", some "x"]⟩, ⟨2, [some "x", some "S"]⟩, by
    decide +kernel⟩

/-- Rules that differ in the history only. -/
example : ∃ (r r' : CfgRule) (src : SymbolSource), r.InNames src ∧ r'.InNames src ∧
    r.nameList src = r'.nameList src ∧ (r.named src).eq (r'.named src) = .ok false :=
  ⟨⟨0, [1, 0], {}⟩, ⟨0, [1, 0], { origin := 3 }⟩, ⟨2, [some "S", some "x"]⟩, by decide +kernel⟩

end Verif
