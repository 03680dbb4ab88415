import Verif.Proofs.TreesOps
import Verif.Props.Trees
import Verif.Props.Useful
import Verif.Props.Remap

/-! # Property C107: operations that keep parse trees -/

namespace Verif

/-- **C107**, `reverse()`: as many parse trees of the reversed string. -/
theorem C107_reverse (g : Cfg) (A : Sym) (w : List Sym) :
    SameNumber (g.Trees A w) (g.reverse.Trees A w.reverse) := g.trees_reverse A w

/-- **C107**, `sort()`. -/
theorem C107_sort (g : Cfg) (A : Sym) (w : List Sym) :
    SameNumber (g.Trees A w) (g.sort.Trees A w) := Cfg.trees_perm g.sort_perm rfl A w

/-- A grammar with many trees: `S ::= S S | a | a`. -/
def exMany : Cfg :=
  { src := ⟨2, [some "S", some "a"]⟩, roots := [0]
    rules := [⟨0, [0, 0], {}⟩, ⟨0, [1], {}⟩, ⟨0, [1], {}⟩] }

theorem exMany_tree (i j : Nat) (hi : i = 1 ∨ i = 2) (hj : j = 1 ∨ j = 2) :
    IsForest exMany.pairs exMany.Term [0]
      (.node 0 (.node i (.leaf 1 .nil) (.node j (.leaf 1 .nil) .nil)) .nil) [1, 1] := by
  have t : exMany.Term 1 := by unfold Cfg.Term; decide +kernel
  have n : ¬ exMany.Term 0 := by unfold Cfg.Term; decide +kernel
  have l : IsForest exMany.pairs exMany.Term [1] (.leaf 1 .nil) [1] := .leaf t .nil
  have e : ∀ k : Nat, k = 1 ∨ k = 2 → exMany.pairs[k]? = some (0, [1]) := by
    rintro k (rfl | rfl) <;> rfl
  have := IsForest.node (rules := exMany.pairs) (T := exMany.Term) (i := 0) (A := 0) (β := [0, 0])
    rfl n (.node (e i hi) n l (.node (e j hj) n l .nil)) .nil
  exact this

/-- Trees that differ in the number of a rule only are different, also after sorting and reversing. -/
example : ∃ t t' : exMany.Trees 0 [1, 1], t ≠ t' :=
  ⟨⟨_, exMany_tree 1 2 (.inl rfl) (.inr rfl)⟩, ⟨_, exMany_tree 2 1 (.inr rfl) (.inl rfl)⟩, by
    intro h; simpa using congrArg Subtype.val h⟩

/-- **C107**, `remove_useless_rules()`: every productive root keeps its parse trees. -/
theorem C107_remove_useless {g : Cfg} (hwf : g.WF) (roots : List Sym)
    (hr : ∀ s ∈ roots, s < g.numSyms) :
    ∃ u g', g.usefulnessWithRoots roots = .ok u ∧ u.removeUselessRules g = .ok g' ∧
      ∀ root ∈ roots, Productive g.prod g.Term root → ∀ w,
        SameNumber (g.Trees root w) (g'.Trees root w) := by
  classical
  obtain ⟨u, h, hi⟩ := usefulness_spec hwf roots hr
  exact ⟨u, _, h, hi.remove hwf, fun root hroot hp w =>
    (cleaned_filter g roots).trees ⟨root, hroot, .refl _⟩ hp w⟩

/-- **C107**, `make_proper()`. -/
theorem C107_make_proper {g : Cfg} (hwf : g.WF) (hr : ∀ s ∈ g.roots, s < g.numSyms) :
    ∃ g' b, g.makeProper = .ok (g', b) ∧
      ∀ root ∈ g.roots, Productive g.prod g.Term root → ∀ w,
        SameNumber (g.Trees root w) (g'.Trees root w) := by
  obtain ⟨g', b, h, hc, -⟩ := makeProper_spec hwf hr
  exact ⟨g', b, h, fun root hroot hp w => hc.trees ⟨root, hroot, .refl _⟩ hp w⟩

example : exUseful.WF ∧ (∀ s ∈ exUseful.roots, s < exUseful.numSyms) ∧ exUseful.roots ≠ [] := by
  decide +kernel

/-- **C107**, `wrap_input()`: the old symbols keep their parse trees; a wrapped root has as many
parse trees as the root it wraps, of the strings between the markers. -/
theorem C107_wrap_input {g : Cfg} (hwf : g.WF) (hlim : ∀ n, g.rhsLenInvariant = some n → 2 ≤ n)
    (hroots : ∀ r ∈ g.roots, r < g.numSyms) :
    ∃ g', g.wrapInput = .ok g' ∧
      (∀ A, A < g.numSyms → ∀ w, SameNumber (g.Trees A w) (g'.Trees A w)) ∧
      ∀ wr ∈ g'.wrappedRoots, ∀ u, SameNumber (g.Trees wr.innerRoot u)
        (g'.Trees wr.root ([wr.startOfInput] ++ u ++ [wr.endOfInput])) :=
  Cfg.wrapInput_trees hwf hlim hroots

example : exMany.WF ∧ (∀ r ∈ exMany.roots, r < exMany.numSyms) ∧
    (fun g => g.wrappedRoots) <$> ({ exMany with rhsLenInvariant := some 2 } : Cfg).wrapInput =
      .ok [⟨3, 0, 4, 2⟩] := by decide +kernel

/-- **C107**, `reorder_symbols()`: as many parse trees of the renamed string. -/
theorem C107_reorder_symbols (g : Cfg) {f : Sym → Sym → Ordering} (hf : TotalCmp f)
    (hwf : g.WF) (hroots : g.RootsIn (· < g.numSyms)) (hlim : g.Limited)
    (hnames : g.src.names.length ≤ g.numSyms) :
    ∃ r' σ, (Remap.new g).reorderSymbols f = .ok r' ∧ Cfg.Renaming (· < g.numSyms) σ g r'.g ∧
      ∀ A, A < g.numSyms → ∀ w : List Sym, (∀ a ∈ w, a < g.numSyms) →
        SameNumber (g.Trees A w) (r'.g.Trees (σ A) (w.map σ)) := by
  obtain ⟨r', σ, h1, h2, -⟩ := C55_reorder_symbols_partial g hf hwf hroots hlim hnames
  exact ⟨r', σ, h1, h2, fun A hA w hw => h2.trees hwf (fun _ h => h) hA hw⟩

/-- **C107**, `remove_unused_symbols()`. -/
theorem C107_remove_unused (g : Cfg) (hwf : g.WF) (hroots : g.RootsIn (· < g.numSyms))
    (hlim : g.Limited) (hnames : g.src.names.length ≤ g.numSyms) (hne : g.rules ≠ []) :
    ∃ r' σ, (Remap.new g).removeUnusedSymbols = .ok r' ∧ Cfg.Renaming g.Used σ g r'.g ∧
      ∀ A, g.Used A → ∀ w : List Sym, (∀ a ∈ w, g.Used a) →
        SameNumber (g.Trees A w) (r'.g.Trees (σ A) (w.map σ)) := by
  obtain ⟨r', σ, h1, -, h2, -⟩ := C85_remove_unused_symbols g hwf hroots hlim hnames hne
  refine ⟨r', σ, h1, h2, fun A hA w hw => h2.trees (fun r hr => ?_) (fun a ha => ?_) hA hw⟩
  · exact ⟨⟨r, hr, .inl rfl⟩, fun a ha => ⟨r, hr, .inr ha⟩⟩
  · obtain ⟨q, hq, rfl | ha⟩ := ha
    · exact (hwf q hq).1
    · exact (hwf q hq).2 a ha

/-- The hypotheses are met by `remapSample` (see `Props/Remap.lean`) and here. -/
example : exMany.WF ∧ exMany.RootsIn (· < exMany.numSyms) ∧
    exMany.src.names.length ≤ exMany.numSyms ∧ exMany.rules ≠ [] ∧ exMany.rhsLenInvariant = none := by
  decide +kernel

end Verif
