import Verif.Proofs.LoadState

/-! # Proofs about the grammar that a BNF text is loaded as -/

namespace Verif.Basic

theorem alt_means {st : LoadState} {sym : Text → Sym} (hsym : ∀ n x, st.Named n x → sym n = x)
    {alt : List Elem} : ∀ {ps : List Piece},
    List.Forall₂ (Fragment.Is st) (alt.filterMap Elem.fragment) ps → ∀ α,
    (altMeans sym alt α ↔ ∃ parts, List.Forall₂ Piece.Means ps parts ∧ α = parts.flatten) := by
  induction alt with
  | nil =>
    intro ps h α
    cases h
    unfold altMeans
    constructor
    · rintro ⟨parts, h, rfl⟩; cases h; exact ⟨[], .nil, rfl⟩
    · rintro ⟨parts, h, rfl⟩; cases h; exact ⟨[], .nil, rfl⟩
  | cons e alt ih =>
    intro ps h α
    cases e with
    | unit =>
      rw [List.filterMap_cons_none rfl] at h
      rw [← ih h α]
      unfold altMeans
      constructor
      · rintro ⟨parts, h, rfl⟩
        cases h with
        | cons h1 h2 =>
          cases h1
          exact ⟨_, h2, by simp⟩
      · rintro ⟨parts, h, rfl⟩
        exact ⟨[] :: parts, .cons rfl h, by simp⟩
    | name n rep =>
      rw [List.filterMap_cons_some (f := Elem.fragment) (b := (⟨n, rep⟩ : Fragment)) rfl] at h
      cases h with
      | @cons _ q _ ps h1 h2 =>
        have hq : ∀ β, Elem.Means sym (.name n rep) β ↔ q.Means β := by
          intro β
          obtain ⟨h1, h3⟩ := h1
          have := hsym _ _ h1
          dsimp only at this h3
          unfold Piece.Means
          rw [h3, ← this]
          cases rep with
          | none => exact Iff.rfl
          | zeroOrMore =>
            exact ⟨fun ⟨n, h⟩ => ⟨n, Nat.zero_le _, h⟩, fun ⟨n, _, h⟩ => ⟨n, h⟩⟩
          | oneOrMore => exact Iff.rfl
        constructor
        · rintro ⟨_, h, rfl⟩
          cases h with
          | @cons _ β _ parts hβ hp =>
            obtain ⟨parts', h3, h4⟩ := (ih h2 parts.flatten).1 ⟨parts, hp, rfl⟩
            exact ⟨β :: parts', .cons ((hq β).1 hβ) h3, by rw [List.flatten_cons, List.flatten_cons, h4]⟩
        · rintro ⟨_, h, rfl⟩
          cases h with
          | @cons _ β _ parts hβ hp =>
            obtain ⟨parts', h3, h4⟩ := (ih h2 parts.flatten).2 ⟨parts, hp, rfl⟩
            exact ⟨β :: parts', .cons ((hq β).2 hβ) h3, by rw [List.flatten_cons, List.flatten_cons, h4]⟩

theorem choices_ne (s : Stmt) : s.choices ≠ [] := by
  unfold Stmt.choices
  split
  · simp
  · assumption

theorem mem_rules {stmts : List Stmt} {r : Rule} : r ∈ stmts.flatMap Stmt.rules ↔
    ∃ s ∈ stmts, ∃ alt ∈ s.choices, r = ⟨s.lhs, alt.filterMap Elem.fragment⟩ := by
  simp only [List.mem_flatMap, Stmt.rules, List.mem_map, eq_comm]

theorem mem_rule_names {stmts : List Stmt} {n : Text} :
    (∃ r ∈ stmts.flatMap Stmt.rules, n ∈ r.names) ↔ n ∈ stmts.flatMap Stmt.names := by
  have hfrag : ∀ alt : List Elem, n ∈ (alt.filterMap Elem.fragment).map Fragment.ident ↔
      ∃ e ∈ alt, n ∈ e.names := by
    intro alt
    simp only [List.mem_map, List.mem_filterMap]
    constructor
    · rintro ⟨f, ⟨e, he, hf⟩, rfl⟩
      cases e with
      | unit => cases hf
      | name s rep => cases hf; exact ⟨_, he, by simp [Elem.names]⟩
    · rintro ⟨e, he, hn⟩
      cases e with
      | unit => simp [Elem.names] at hn
      | name s rep =>
        simp only [Elem.names, List.mem_singleton] at hn
        exact ⟨⟨s, rep⟩, ⟨_, he, rfl⟩, hn.symm⟩
  rw [List.mem_flatMap]
  constructor
  · rintro ⟨r, hr, hn⟩
    obtain ⟨s, hs, alt, ha, rfl⟩ := mem_rules.1 hr
    refine ⟨s, hs, ?_⟩
    unfold Rule.names at hn
    unfold Stmt.names
    rcases List.mem_cons.1 hn with rfl | hn
    · simp
    · obtain ⟨e, he, hn⟩ := (hfrag alt).1 hn
      refine List.mem_cons.2 (.inr (List.mem_flatMap.2 ⟨e, ?_, hn⟩))
      unfold Stmt.choices at ha
      split at ha
      · rw [List.mem_singleton.1 ha] at he; cases he
      · exact List.mem_flatten.2 ⟨alt, ha, he⟩
  · rintro ⟨s, hs, hn⟩
    rcases List.mem_cons.1 hn with rfl | hn
    · obtain ⟨alt, ha⟩ := List.exists_mem_of_ne_nil _ (choices_ne s)
      exact ⟨_, mem_rules.2 ⟨s, hs, alt, ha, rfl⟩, by simp [Rule.names]⟩
    · obtain ⟨e, he, hn⟩ := List.mem_flatMap.1 hn
      obtain ⟨alt, ha, he⟩ := List.mem_flatten.1 he
      refine ⟨_, mem_rules.2 ⟨s, hs, alt, ?_, rfl⟩, ?_⟩
      · unfold Stmt.choices
        rw [if_neg (by rintro e; rw [e] at ha; cases ha)]
        exact ha
      · exact List.mem_cons.2 (.inr ((hfrag alt).2 ⟨e, he, hn⟩))

/-- The grammar of a BNF text. -/
structure Loaded (stmts : List Stmt) (g : Cfg) (sym : Text → Sym) : Prop where
  wf : g.WF
  inj : ∀ n ∈ stmts.flatMap Stmt.names, ∀ n' ∈ stmts.flatMap Stmt.names, sym n = sym n' → n = n'
  names : ∀ n ∈ stmts.flatMap Stmt.names,
    sym n < g.numSyms ∧ g.src.originalNameOf (sym n) = some (String.ofList n)
  roots : ∃ s ∈ stmts.head?, g.roots = [sym s.lhs]
  term : ∀ a, g.Term a ↔ bnfTerm stmts sym a
  lang : ∀ n ∈ stmts.flatMap Stmt.names, ∀ w,
    g.Lang (sym n) w ↔ InLang (bnfProd stmts sym) (bnfTerm stmts sym) (sym n) w

theorem build_spec (p : Profile) {stmts : List Stmt} (hne : stmts ≠ []) :
    ∃ g sym, build p (.rules (stmts.flatMap Stmt.rules)) = .ok (.ok g) ∧ Loaded stmts g sym := by
  obtain ⟨st, reps, dn, e, h, hrs, -, hin, hrt⟩ :=
    loadRules_spec p (stmts.flatMap Stmt.rules) 0 LoadInv.new
  rw [List.nil_append, List.nil_append] at h
  classical
  have hmem : ∀ n, n ∈ st.intern ↔ n ∈ stmts.flatMap Stmt.names := by
    intro n
    rw [hin, mem_rule_names]
    simp
  let sym : Text → Sym := fun n => if hn : ∃ x, st.Named n x then hn.choose else 0
  have hsym : ∀ n x, st.Named n x → sym n = x := by
    intro n x hx
    have hex : ∃ x, st.Named n x := ⟨x, hx⟩
    show (if hn : ∃ x, st.Named n x then hn.choose else 0) = x
    rw [dif_pos hex]
    exact h.named_fun hex.choose_spec hx
  have hnamed : ∀ n ∈ stmts.flatMap Stmt.names, st.Named n (sym n) := by
    intro n hn
    obtain ⟨x, hx⟩ := h.named_of_mem ((hmem n).2 hn)
    rw [hsym n x hx]
    exact hx
  have hlhs : ∀ s ∈ stmts, s.lhs ∈ stmts.flatMap Stmt.names := fun s hs =>
    List.mem_flatMap.2 ⟨s, hs, by simp [Stmt.names]⟩
  have hprod : ∀ A α, pieceProd dn A α ↔ bnfProd stmts sym A α := by
    intro A α
    constructor
    · rintro ⟨ps, hd, hparts⟩
      obtain ⟨r, hr, h1, h2⟩ := forall₂_right hrs hd
      obtain ⟨s, hs, alt, ha, rfl⟩ := mem_rules.1 hr
      exact ⟨s, hs, (hsym _ _ h1).symm, alt, ha, (alt_means hsym h2 α).2 hparts⟩
    · rintro ⟨s, hs, rfl, alt, ha, hm⟩
      obtain ⟨⟨B, ps⟩, hd, h1, h2⟩ := forall₂_left hrs (mem_rules.2 ⟨s, hs, alt, ha, rfl⟩)
      have := hsym _ _ h1
      dsimp only at this
      rw [this]
      exact ⟨ps, hd, (alt_means hsym h2 α).1 hm⟩
  have hterm : ∀ a, st.cfg.Term a ↔ bnfTerm stmts sym a := by
    intro a
    rw [h.g.term_iff]
    constructor
    · rintro ⟨h1, h2, h3⟩
      rcases h.cover a h1 with h4 | h4 | ⟨n, hn⟩
      · exact absurd h4 h2
      · cases h4
      · refine ⟨n, (hmem n).1 (LoadInv.mem_of_named hn), (hsym _ _ hn).symm, ?_⟩
        rintro s hs rfl
        obtain ⟨alt, ha⟩ := List.exists_mem_of_ne_nil _ (choices_ne s)
        obtain ⟨⟨B, ps⟩, hd, h5, h6⟩ := forall₂_left hrs (mem_rules.2 ⟨s, hs, alt, ha, rfl⟩)
        have : B = a := h.named_fun h5 hn
        exact h3 ps (this ▸ hd)
    · rintro ⟨n, hn, rfl, h1⟩
      have h2 := h.named_lt (hnamed n hn)
      refine ⟨h2.1, h2.2.1, ?_⟩
      intro ps hd
      obtain ⟨r, hr, h5, h6⟩ := forall₂_right hrs hd
      obtain ⟨s, hs, alt, ha, rfl⟩ := mem_rules.1 hr
      exact h1 s hs (h.named_inj h5 (hnamed n hn))
  refine ⟨st.cfg, sym, ?_, h.g.wf, ?_, ?_, ?_, hterm, ?_⟩
  · unfold build
    dsimp only
    rw [e, Res.bind_ok]
  · intro n hn n' hn' e
    exact h.named_inj (hnamed n hn) (e ▸ hnamed n' hn')
  · intro n hn
    have := h.named_lt (hnamed n hn)
    refine ⟨this.1, ?_⟩
    unfold SymbolSource.originalNameOf
    rw [this.2.2.2]
  · cases stmts with
    | nil => exact absurd rfl hne
    | cons s stmts =>
      refine ⟨s, rfl, ?_⟩
      obtain ⟨alt, alts, ha⟩ := List.exists_cons_of_ne_nil (choices_ne s)
      rw [List.flatMap_cons, Stmt.rules, ha, List.map_cons, List.cons_append] at hrs
      cases hrs with
      | cons h1 h2 =>
        rw [hrt, if_pos rfl, hsym _ _ h1.1]
  · intro n hn w
    rw [h.g.lang (h.named_lt (hnamed n hn)).2.1]
    exact inLang_congr (fun _ => True) (fun A α _ => hprod A α) (fun _ _ _ _ _ _ => trivial)
      (fun a _ => hterm a) trivial

end Verif.Basic
