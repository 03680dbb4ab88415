import Verif.Props.PipelineOrigins
import Verif.Props.PipelineAdvanced

/-! # Property C150 for grammars loaded from an advanced file -/

namespace Verif.Advanced

open Verif.Translator

/-- **C150**, from an advanced file: a file as in C115 is loaded and prepared. Every rule of the result
has no origin, or the origin 0, or the number of an alternative of the file, counted from one. In the
last case the actions returned by the loader have the action written for that alternative at the
origin, and the symbol on the left of the rule has the name on the left of that alternative. -/
theorem C150_prepare_advanced {R : Recognizer Terminal} (hR : R.Correct advSyntax Nonterminal.start)
    (p : Profile) (parse : Text → Except String Hir) {text : Text} {ts : List (Token × Nat × Nat)}
    {decls : List Decl} (hl : Lexed [] text ts []) (hf : IsFile decls (ts.map (·.1)))
    (hld : Loadable decls) (hs : ∀ e ∈ fileElems decls, e.Safe parse)
    (hr : firstReason parse (parserClauses decls) (lexerClauses decls) = none)
    (hno : ∀ n ∈ writtenNames (parserClauses decls ++ lexerClauses decls),
      ∀ i < (stringsOf (parserClauses decls ++ lexerClauses decls)).length, stringName i ≠ n)
    (ht : ∀ e ∈ fileElems decls, e.Tabular parse) {first : Clause}
    (hfirst : (parserClauses decls ++ lexerClauses decls).head? = some first)
    (hd : ∃ t, Describes (readAtom parse) (parserClauses decls ++ lexerClauses decls)
      [.name first.lhs .none] t)
    (hlt : (parserClauses decls ++ lexerClauses decls).length < u32Max) :
    ∃ G g₁ b g₂ g₃ res r, load R p parse text = .ok (.ok G) ∧
      G.cfg.makeProper = .ok (g₁, b) ∧ g₁.wrapInput = .ok g₂ ∧
      g₂.binarizeAndEliminateNulling = .ok (g₃, res) ∧
      (Remap.new g₃).removeUnusedSymbols = .ok r ∧
      ∀ q ∈ r.g.rules, q.history.origin = 2 ^ 32 - 1 ∨ q.history.origin = 0 ∨
        ∃ k c, (parserClauses decls ++ lexerClauses decls)[k]? = some c ∧
          q.history.origin = k + 1 ∧ G.actions[k]? = some (q.history.origin, c.action) ∧
          r.g.src.originalNameOf q.lhs = some (String.ofList c.lhs) := by
  obtain ⟨G, sym, e, h, hrec⟩ := loaded_of_none hR p parse hl hf hld hs hr
  have hs' : ∀ c ∈ parserClauses decls ++ lexerClauses decls, ∀ e ∈ c.elems, e.Safe parse :=
    fun c hc e he => hs e (List.mem_flatMap.2 ⟨c, hc, he⟩)
  obtain ⟨m, hm⟩ := loaded_compute h hs' fun c hc e he => ht e (List.mem_flatMap.2 ⟨c, hc, he⟩)
  have hmem : first ∈ parserClauses decls ++ lexerClauses decls := List.mem_of_mem_head? hfirst
  have hn : first.lhs ∈ writtenNames (parserClauses decls ++ lexerClauses decls) :=
    List.mem_flatMap.2 ⟨first, hmem, by simp⟩
  have hn' : first.lhs ∈ namesOf (parserClauses decls ++ lexerClauses decls) :=
    List.mem_append.2 (.inl hn)
  have hacc := accepts_describes h hs' hno hm hn
  have hroots : G.cfg.roots = [sym first.lhs] := by
    obtain ⟨c, hc, k⟩ := h.roots
    rw [hfirst] at hc
    cases hc
    exact k
  obtain ⟨t₀, ht₀⟩ := hd
  obtain ⟨w₀, hw₀, -⟩ := (hacc t₀).2 ht₀
  obtain ⟨g₁, b, g₂, g₃, res, r, σ, e1, e2, e3, e4, -, h2, h3, -⟩ :=
    C150_prepare h.wf (by rw [hroots]; simpa using (h.names _ hn').1) (by rw [hroots]; simp)
      (by rw [hroots]; simpa using ⟨w₀, hw₀⟩) h.limit h.len
  obtain ⟨horig, hfor⟩ := hrec.origins hlt
  refine ⟨G, g₁, b, g₂, g₃, res, r, e, e1, e2, e3, e4, fun q hq => ?_⟩
  rcases h3 q hq with h3 | ⟨h3, -⟩ | ⟨q₀, hq₀, h4, h5, h6⟩
  · exact .inl h3
  · exact .inr (.inl h3)
  · by_cases ho : q₀.history.origin ≠ 0 ∧ q₀.history.origin ≠ u32Max
    · right; right
      have hm : q₀ ∈ originRules G.cfg := List.mem_filter.2 ⟨hq₀, by simpa using ho⟩
      obtain ⟨k, hk, rfl⟩ := List.mem_iff_getElem.1 hm
      have hlen' := hfor.length_eq
      have hk' : k < (parserClauses decls ++ lexerClauses decls).length := by omega
      have hor : q.history.origin = k + 1 := by
        rw [h4]
        have := congrArg (·[k]?) horig
        simpa only [List.getElem?_map, List.getElem?_eq_getElem hk, Option.map_some,
          List.getElem?_range hk', Option.some.injEq] using this
      refine ⟨k, (parserClauses decls ++ lexerClauses decls)[k], List.getElem?_eq_getElem hk', hor, ?_, ?_⟩
      · rw [hrec.actions, List.getElem?_mapIdx, List.getElem?_eq_getElem hk', hor]
        rfl
      · have := (hfor.get hk' hk).1
        have hmem : (parserClauses decls ++ lexerClauses decls)[k].lhs ∈
            namesOf (parserClauses decls ++ lexerClauses decls) :=
          List.mem_append.2 (.inl (List.mem_flatMap.2 ⟨_, List.getElem_mem hk', by simp⟩))
        rw [h5, h2 _ (h.wf _ hq₀).1 h6]
        simp only [List.get_eq_getElem] at this
        rw [this]
        exact (h.names _ hmem).2
    · rw [h4]
      unfold u32Max at ho
      omega

/-- The file `exAdvText` meets the hypotheses (the others are shown in `Props/LoadAdvGrammar.lean` and
`Props/PipelineAdvanced.lean`), and its first alternative has an action. -/
example : (parserClauses exAdvDecls ++ lexerClauses exAdvDecls).length < u32Max ∧
    (parserClauses exAdvDecls ++ lexerClauses exAdvDecls)[0]? =
      some ⟨['a'], [.str ['i', 'f'], .name ['b'] .oneOrMore], some ['g', 'o']⟩ := by
  decide +kernel

end Verif.Advanced
