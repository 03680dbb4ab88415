import Verif.Props.Pipeline
import Verif.Props.LoadAdvGrammar

/-! # Property C115: preparing a grammar loaded from an advanced file -/

namespace Verif.Advanced

open Verif.Translator

/-- **C115**, from an advanced file: a file as in C100, whose first left side describes some text, is
loaded and prepared. The only root of the result derives the start marker, symbols that the
characters of a text are read as, and the end marker, exactly if the first left side of the file
describes the text (every literal character also stands for the next one, see C100). -/
theorem C115_prepare_advanced {R : Recognizer Terminal} (hR : R.Correct advSyntax Nonterminal.start)
    (p : Profile) (parse : Text → Except String Hir) {text : Text} {ts : List (Token × Nat × Nat)}
    {decls : List Decl} (hl : Lexed [] text ts []) (hf : IsFile decls (ts.map (·.1)))
    (hld : Loadable decls) (hs : ∀ e ∈ fileElems decls, e.Safe parse)
    (hr : firstReason parse (parserClauses decls) (lexerClauses decls) = none)
    (hno : ∀ n ∈ writtenNames (parserClauses decls ++ lexerClauses decls),
      ∀ i < (stringsOf (parserClauses decls ++ lexerClauses decls)).length, stringName i ≠ n)
    (ht : ∀ e ∈ fileElems decls, e.Tabular parse) {first : Clause}
    (hfirst : (parserClauses decls ++ lexerClauses decls).head? = some first)
    (hd : ∃ t, Describes (readAtom parse) (parserClauses decls ++ lexerClauses decls)
      [.name first.lhs .none] t) :
    ∃ G m g₁ b g₂ g₃ res r root start stop, ∃ σ : Sym → Sym,
      load R p parse text = .ok (.ok G) ∧ G.lexerMap.compute = .ok m ∧
      G.cfg.makeProper = .ok (g₁, b) ∧ g₁.wrapInput = .ok g₂ ∧
      g₂.binarizeAndEliminateNulling = .ok (g₃, res) ∧
      (Remap.new g₃).removeUnusedSymbols = .ok r ∧
      (∀ q ∈ r.g.rules, 1 ≤ q.rhs.length ∧ q.rhs.length ≤ 2) ∧ r.g.roots = [root] ∧
      r.g.Term start ∧ r.g.Term stop ∧
      (∀ x y, g₃.Used x → g₃.Used y → σ x = σ y → x = y) ∧
      (∀ x, G.cfg.Term x → g₃.Used x → r.g.Term (σ x)) ∧
      ∀ t : Text, (∃ w, r.g.Lang root ([start] ++ w.map σ ++ [stop]) ∧
          (∀ x ∈ w, G.cfg.Term x ∧ g₃.Used x) ∧
          List.Forall₂ (fun (c : Char) s => ∃ syms, m.get c.toNat = .ok syms ∧ s ∈ syms) t w) ↔
        Describes (readAtom parse) (parserClauses decls ++ lexerClauses decls)
          [.name first.lhs .none] t := by
  obtain ⟨G, sym, e, h, -⟩ := loaded_of_none hR p parse hl hf hld hs hr
  have hs' : ∀ c ∈ parserClauses decls ++ lexerClauses decls, ∀ e ∈ c.elems, e.Safe parse :=
    fun c hc e he => hs e (List.mem_flatMap.2 ⟨c, hc, he⟩)
  obtain ⟨m, hm⟩ := loaded_compute h hs' fun c hc e he => ht e (List.mem_flatMap.2 ⟨c, hc, he⟩)
  have hmem : first ∈ parserClauses decls ++ lexerClauses decls := List.mem_of_mem_head? hfirst
  have hn : first.lhs ∈ writtenNames (parserClauses decls ++ lexerClauses decls) :=
    List.mem_flatMap.2 ⟨first, hmem, by simp⟩
  have hn' : first.lhs ∈ namesOf (parserClauses decls ++ lexerClauses decls) :=
    List.mem_append.2 (.inl hn)
  have hacc := accepts_describes h hs' hno hm hn
  have hroots : G.cfg.roots = [sym first.lhs] := by
    obtain ⟨c, hc, k⟩ := h.roots
    rw [hfirst] at hc
    cases hc
    exact k
  obtain ⟨t₀, ht₀⟩ := hd
  obtain ⟨w₀, hw₀, -⟩ := (hacc t₀).2 ht₀
  obtain ⟨g₁, b, g₂, g₃, res, r, σ, e1, e2, e3, e4, -, h1, -, hone, h2, h3, h4⟩ :=
    C115_prepare h.wf (by rw [hroots]; simpa using (h.names _ hn').1) (by rw [hroots]; simp)
      (by rw [hroots]; simpa using ⟨w₀, hw₀⟩) h.limit h.len
  obtain ⟨wr, k1, k2, k3, k4, k5, k6⟩ := h4 0 (sym first.lhs) (by rw [hroots]; rfl)
  rw [hroots] at hone
  refine ⟨G, m, g₁, b, g₂, g₃, res, r, wr.root, wr.startOfInput, wr.endOfInput, σ, e, hm, e1, e2, e3,
    e4, h1, ?_, k3, k4, h2, fun x hx hu => (h3 x hx hu).1, fun t => ?_⟩
  · obtain ⟨x, hx⟩ := List.length_eq_one_iff.1 hone
    rw [hx] at k2 ⊢
    cases k2
    rfl
  · rw [← hacc t]
    constructor
    · rintro ⟨w, hw, hu, hread⟩
      exact ⟨w, (k6 w hu).1.1 hw, hread⟩
    · rintro ⟨w, hw, hread⟩
      have hu : ∀ x ∈ w, G.cfg.Term x ∧ g₃.Used x := fun x hx => ⟨hw.2 x hx, k5 w hw x hx⟩
      exact ⟨w, (k6 w hu).1.2 hw, hu, hread⟩

/-- The file `exAdvText` meets the hypotheses (the others are shown in `Props/LoadAdvGrammar.lean`):
its first left side is `a`, which describes the text `7`. -/
example : (parserClauses exAdvDecls ++ lexerClauses exAdvDecls).head? =
      some ⟨['a'], [.str ['i', 'f'], .name ['b'] .oneOrMore], some ['g', 'o']⟩ ∧
    Describes (readAtom exParse) (parserClauses exAdvDecls ++ lexerClauses exAdvDecls)
      [.name ['a'] .none] ['7'] := by
  refine ⟨rfl, ?_⟩
  refine Describes.single
    (c := ⟨['a'], [.call "Regexp".toList "[0-9]".toList, .name ['c'] .zeroOrMore], none⟩)
    (by decide) ?_
  refine .atom (t := ['7']) (u := []) ⟨.cls [(0x30, 0x39)], [.cls [(0x30, 0x39)]], rfl, ?_, ?_⟩
    (.none .nil)
  · simp [Hir.Matches]
  · exact .cons ⟨(0x30, 0x39), by simp [Letter.ranges], by decide⟩ .nil

end Verif.Advanced
