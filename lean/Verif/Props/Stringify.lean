import Verif.Proofs.Stringify

/-! # Property C106: the text of a grammar determines its rules -/

namespace Verif

/-- **C106**: grammars over the same symbol names have the same text only if they have the same rules
in the same order. The names may contain any characters. -/
theorem C106_text_determines_rules {g g' : Cfg} (hn : g.src.names = g'.src.names)
    (h : g.stringifyToBnf = g'.stringifyToBnf) : g.pairs = g'.pairs :=
  (read_rules (readBack_same hn) g.rules g'.rules h).1

/-- **C106**, names: the text also determines the names of the symbols that occur in rules, if names
have no blanks and no line ends. -/
theorem C106_text_determines_names {g g' : Cfg}
    (hp : ∀ name, some name ∈ g.src.names → ∀ c ∈ name.toList, c ≠ ' ' ∧ c ≠ '\n')
    (hp' : ∀ name, some name ∈ g'.src.names → ∀ c ∈ name.toList, c ≠ ' ' ∧ c ≠ '\n')
    (h : g.stringifyToBnf = g'.stringifyToBnf) :
    g.pairs = g'.pairs ∧
      ∀ p ∈ g.pairs, ∀ s ∈ p.1 :: p.2, g.src.nameOf s = g'.src.nameOf s := by
  obtain ⟨h1, h2⟩ := read_rules (readBack_plain hp hp') g.rules g'.rules h
  refine ⟨h1, fun p hp s hs => ?_⟩
  obtain ⟨r, hr, rfl⟩ := List.mem_map.1 hp
  rcases List.mem_cons.1 hs with rfl | hs
  · exact (names_of_text (h2 r hr).1).2
  · exact (names_of_text ((h2 r hr).2 s hs)).2

/-- The converse: the text depends on rules and names only. -/
theorem C106_text_of_rules {g g' : Cfg} (hn : g.src.names = g'.src.names)
    (h : g.pairs = g'.pairs) : g.stringifyToBnf = g'.stringifyToBnf := by
  have e : g.stringifySym = g'.stringifySym := by
    funext s
    unfold Cfg.stringifySym Cfg.noNames Cfg.symText SymbolSource.nameOf
    rw [hn]
  have : ∀ g : Cfg, g.stringifyToBnf = g.pairs.flatMap fun p =>
      stringifyRule g.stringifySym ⟨p.1, p.2, {}⟩ := by
    intro g
    rw [Cfg.stringifyToBnf, Cfg.pairs, List.flatMap_map]
    rfl
  rw [this, this, h, e]

/-- `S ::= a S`, `a ::=` with an awkward name: the symbol `a` is called `a(1) ~ a`. -/
def exNames : Cfg :=
  { src := ⟨2, [some "S", some "a(1) ~ a"]⟩, rules := [⟨0, [1, 0], {}⟩, ⟨1, [], {}⟩] }

/-- The hypotheses are met by different grammars, and the text is as documented. -/
example : exNames.src.names = { exNames with roots := [0] }.src.names ∧
    exNames.stringifyToBnf = { exNames with roots := [0] }.stringifyToBnf ∧
    exNames.stringifyToBnf = "S(0) ::= a(1) ~ a(1) ~ S(0);\na(1) ~ a(1) ::= ();\n".toList := by
  decide +kernel

example : (∀ name, some name ∈ exNames.src.names.take 1 → ∀ c ∈ name.toList, c ≠ ' ' ∧ c ≠ '\n') ∧
    ({ src := ⟨3, [none, none, none]⟩, rules := [⟨0, [1, 12], {}⟩] } : Cfg).stringifyToBnf =
      "0 ::= 1 ~ 12;\n".toList := by
  constructor
  · intro name h
    have : name = "S" := by simpa [exNames] using h
    subst this
    decide +kernel
  · decide +kernel

/-- Names with blanks: grammars with different names and rules have the same text. -/
theorem C106_other_names : ∃ g g' : Cfg, g.WF ∧ g'.WF ∧
    g.stringifyToBnf = g'.stringifyToBnf ∧ g.pairs ≠ g'.pairs :=
  ⟨{ src := ⟨2, [some "S", some "a(1) ~ a"]⟩, rules := [⟨0, [1], {}⟩] },
   { src := ⟨2, [some "S", some "a"]⟩, rules := [⟨0, [1, 1], {}⟩] },
   by decide +kernel, by decide +kernel, by decide +kernel, by decide +kernel⟩

end Verif
