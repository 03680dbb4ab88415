import Verif.Proofs.LoadPrint

/-! # The basic loader: C66, C67, C68, C73, C92 -/

namespace Verif

open Basic

/-! ## C66 -/

/-- C66: the tokeniser returns exactly the tokens of the text, whenever it consists of tokens and
blanks. -/
theorem C66_tokens (text : Text) (ts : List Token) :
    tokenize text = .ok (.ok ts) ↔ Lexed text ts [] := by
  obtain ⟨r, e, hr⟩ := tokenize_spec text
  constructor
  · intro h
    rw [e] at h
    cases h
    cases hr with
    | ok h => exact h
  · intro h
    cases hr with
    | ok h' =>
      rw [e, List.nil_append, (lexed_unique h' h (.inl rfl) (.inl rfl)).1]
    | error h' h2 h3 =>
      have := (lexed_unique h' h (.inr h3) (.inl rfl)).2
      obtain ⟨c, t, e, -⟩ := h3
      rw [this] at e
      cases e

/-- C66: the tokeniser returns an error exactly if the text contains a position, after tokens and
blanks only, where neither a token nor a blank starts; the error is this position. -/
theorem C66_error (text : Text) (line col : Nat) :
    tokenize text = .ok (.error (line, col)) ↔ ∃ pre bad ts, text = pre ++ bad ∧
      Lexed text ts bad ∧ Stuck bad ∧ line = lineAfter pre ∧ col = colAfter pre := by
  obtain ⟨r, e, hr⟩ := tokenize_spec text
  constructor
  · intro h
    rw [e] at h
    cases h
    cases hr with
    | error h1 h2 h3 => exact ⟨_, _, _, h2, h1, h3, rfl, rfl⟩
  · rintro ⟨pre, bad, ts, ht, hl, hs, rfl, rfl⟩
    cases hr with
    | ok h' =>
      have := (lexed_unique hl h' (.inr hs) (.inl rfl)).2
      obtain ⟨c, t, e, -⟩ := hs
      rw [this] at e
      cases e
    | @error ts' pre' bad' h1 h2 h3 =>
      have hb := (lexed_unique hl h1 (.inr hs) (.inr h3)).2
      rw [e]
      rw [hb, h2, List.append_left_inj] at ht
      rw [ht]

/-- C66: the tokeniser always returns. -/
theorem C66_returns (text : Text) : ∃ r, tokenize text = .ok r := by
  obtain ⟨r, e, -⟩ := tokenize_spec text
  exact ⟨r, e⟩

/-- C66: the tokens of a text are unique, so `C66_tokens` determines them. -/
theorem C66_unique {text : Text} {ts ts' : List Token} (h : Lexed text ts []) (h' : Lexed text ts' []) :
    ts = ts' := (lexed_unique h h' (.inl rfl) (.inl rfl)).1

example : tokenize "a_1::=b+|( );\n".toList = .ok (.ok [.ident "a_1".toList, .bnfOp,
    .ident "b".toList, .plus, .pipe, .lparen, .rparen, .semicolon]) := by decide +kernel

example : tokenize "a ::=\n  b 1;".toList = .ok (.error (2, 5)) := by decide +kernel

/-! ## C68 -/

/-- C68 fails: loading panics on a text with a character that starts no token, such as a digit or a
carriage return, whatever the recognizer does. -/
theorem C68_violated (R : Recognizer Terminal) (p : Profile) :
    load R p "1".toList = .panic ∧ load R p "a ::= b;\r\n".toList = .panic := by
  have h1 : tokenize "1".toList = .ok (.error (1, 1)) := by decide +kernel
  have h2 : tokenize "a ::= b;\r\n".toList = .ok (.error (1, 9)) := by decide +kernel
  unfold load
  rw [h1, h2]
  exact ⟨rfl, rfl⟩

/-- C68, which texts panic: exactly those that cannot be tokenised. Otherwise loading returns a
grammar or an error. Missing from the full claim: no panic on the other texts, which is false. -/
theorem C68_no_panic_partial {R : Recognizer Terminal} (hR : R.Correct bnfSyntax Nonterminal.start)
    (p : Profile) (text : Text) :
    ((∃ ts, Lexed text ts []) → ∃ r, load R p text = .ok r) ∧
      ((¬ ∃ ts, Lexed text ts []) → load R p text = .panic) := by
  constructor
  · rintro ⟨ts, hl⟩
    have ht := (C66_tokens text ts).2 hl
    by_cases hb : ∃ stmts, IsBnf stmts ts
    · obtain ⟨stmts, hb⟩ := hb
      obtain ⟨g, sym, e, -⟩ := build_spec p hb.1
      exact ⟨_, (load_of_bnf hR p hl ht hb).trans e⟩
    · obtain ⟨e, he⟩ := load_of_not_bnf hR p hl ht fun stmts h => hb ⟨stmts, h⟩
      exact ⟨_, he⟩
  · intro hno
    obtain ⟨r, e, hr⟩ := tokenize_spec text
    cases hr with
    | ok h => exact absurd ⟨_, h⟩ hno
    | error h1 h2 h3 =>
      unfold load
      rw [e]
      rfl

/-! ## A correct recognizer exists -/

/-- The assumption on the recognizer can be met. -/
theorem correct_exists {T N : Type} (rules : Syntax T N) (start : N) :
    ∃ R : Recognizer T, R.Correct rules start := by
  classical
  refine ⟨⟨fun w => decide (∃ v t, Tree.Derives rules t (.n start) (w ++ v)),
    fun w => if h : ∃ t, Tree.Derives rules t (.n start) w then some h.choose else none⟩, ?_, ?_, ?_⟩
  · intro w; exact decide_eq_true_iff
  · intro w t h
    dsimp only at h
    split at h
    · rename_i hex
      cases h
      exact hex.choose_spec
    · cases h
  · intro w t h
    dsimp only
    rw [dif_pos ⟨t, h⟩]
    rfl

/-! ## C92 -/

/-- C92: a text of rules is loaded as a grammar of its language: distinct names become distinct
symbols of these names, the root is the first left side, the terminals are the names without rules,
and every name derives the same strings as in the text, where `x+` stands for one or more and `x*`
for any number of `x`, and `()` for nothing. -/
theorem C92_load_language {R : Recognizer Terminal} (hR : R.Correct bnfSyntax Nonterminal.start)
    (p : Profile) {text : Text} {ts : List Token} (hl : Lexed text ts []) {stmts : List Stmt}
    (hb : IsBnf stmts ts) :
    ∃ (g : Cfg) (sym : Text → Sym), load R p text = .ok (.ok g) ∧ g.WF ∧
      (∀ n ∈ stmts.flatMap Stmt.names, ∀ n' ∈ stmts.flatMap Stmt.names, sym n = sym n' → n = n') ∧
      (∀ n ∈ stmts.flatMap Stmt.names,
        sym n < g.numSyms ∧ g.src.originalNameOf (sym n) = some (String.ofList n)) ∧
      (∃ s ∈ stmts.head?, g.roots = [sym s.lhs]) ∧
      (∀ a, g.Term a ↔ bnfTerm stmts sym a) ∧
      ∀ n ∈ stmts.flatMap Stmt.names, ∀ w,
        g.Lang (sym n) w ↔ InLang (bnfProd stmts sym) (bnfTerm stmts sym) (sym n) w := by
  obtain ⟨g, sym, e, h⟩ := build_spec p hb.1
  exact ⟨g, sym, (load_of_bnf hR p hl ((C66_tokens text ts).2 hl) hb).trans e, h.wf, h.inj, h.names,
    h.roots, h.term, h.lang⟩

/-- C92: a text of tokens that are not rules is not loaded. -/
theorem C92_load_error {R : Recognizer Terminal} (hR : R.Correct bnfSyntax Nonterminal.start)
    (p : Profile) {text : Text} {ts : List Token} (hl : Lexed text ts [])
    (hb : ∀ stmts, ¬ IsBnf stmts ts) : ∃ e, load R p text = .ok (.error e) :=
  load_of_not_bnf hR p hl ((C66_tokens text ts).2 hl) hb

/-- The rules of a text are unique, so `C92_load_language` determines the language. -/
theorem C92_unique {stmts stmts' : List Stmt} {ts : List Token} (h : IsBnf stmts ts)
    (h' : IsBnf stmts' ts) : stmts = stmts' := isBnf_unique h h'

/-- A text that meets the hypotheses of `C92_load_language`. -/
def sampleText : Text := "S ::= a S b* | ();\nT ::= ;".toList

example : ∃ ts, Lexed sampleText ts [] ∧
    IsBnf [⟨"S".toList, [[.name "a".toList .none, .name "S".toList .none,
      .name "b".toList .zeroOrMore], [.unit]]⟩, ⟨"T".toList, []⟩] ts := by
  refine ⟨_, (C66_tokens _ _).1 ?_, by decide, ?_, rfl⟩
  · decide +kernel
  · intro s hs
    simp only [List.mem_cons, List.not_mem_nil, or_false] at hs
    rcases hs with rfl | rfl <;> simp [Stmt.Ok]

/-- A text that meets the hypotheses of `C92_load_error`. -/
example : ∃ ts, Lexed "a b".toList ts [] ∧ ∀ stmts, ¬ IsBnf stmts ts := by
  refine ⟨[.ident ['a'], .ident ['b']], (C66_tokens _ _).1 (by decide +kernel), ?_⟩
  rintro stmts ⟨h1, -, h2⟩
  cases stmts with
  | nil => exact h1 rfl
  | cons s stmts =>
    rw [List.flatMap_cons, Stmt.tokens] at h2
    simp at h2

/-! ## C67 -/

/-- C67: loading the printed text of a grammar with at least one rule, the symbols of which have
distinct names that are identifiers, gives the same rules, with the symbols numbered in the order in
which they were printed, and with the left side of the first rule as the root. -/
theorem C67_load_printed {R : Recognizer Terminal} (hR : R.Correct bnfSyntax Nonterminal.start)
    (p : Profile) {g : Cfg} (hne : g.rules ≠ []) (hw : ∀ s ∈ g.printed, IsWord (g.symText s))
    (hinj : ∀ s ∈ g.printed, ∀ t ∈ g.printed, g.src.nameOf s = g.src.nameOf t → s = t) :
    load R p g.toBnf = .ok (.ok {
      src := ⟨(firstUses g.printed).length,
        (firstUses g.printed).map fun s => some (g.src.nameOf s)⟩
      rules := g.rules.mapIdx fun i r => ⟨(firstUses g.printed).idxOf r.lhs,
        r.rhs.map fun s => (firstUses g.printed).idxOf s, History.ofRoot (.origin (i + 1))⟩
      roots := [0] }) := by
  have hl := lexed_toBnf hw
  rw [load_of_bnf hR p hl ((C66_tokens _ _).2 hl) (isBnf_toBnf hne), printed_rules]
  unfold build
  dsimp only
  have hst : ({} : LoadState) = seenState g [] [] [] true := rfl
  rw [hst, loadRules_seen p g.rules true 0, Res.bind_ok]
  · obtain ⟨r, rs, e⟩ := List.exists_cons_of_ne_nil hne
    rw [e]
    have e2 : (use [] r.lhs).idxOf r.lhs = 0 := by simp [use]
    dsimp only
    rw [e2, ← e]
    simp only [seenState, if_true, List.nil_append, Nat.zero_add, loadedRule]
    rfl
  · intro s t hs ht e
    refine hinj s (hs.resolve_left (by simp)) t (ht.resolve_left (by simp)) ?_
    unfold Cfg.symText at e
    rw [← String.ofList_toList (s := g.src.nameOf s), e, String.ofList_toList]

/-- The numbering is one to one on the printed symbols, so the loaded rules are the printed rules up
to renaming. -/
theorem C67_numbering (l : List Sym) :
    (firstUses l).Nodup ∧ (∀ s, s ∈ firstUses l ↔ s ∈ l) ∧
      ∀ s ∈ l, ∀ t ∈ l, (firstUses l).idxOf s = (firstUses l).idxOf t → s = t := by
  have hmem : ∀ s, s ∈ firstUses l ↔ s ∈ l := by
    intro s
    have := mem_uses l [] s
    simp only [List.not_mem_nil, false_or] at this
    exact this
  refine ⟨?_, hmem, ?_⟩
  · have : ∀ (l seen : List Sym), seen.Nodup → (l.foldl use seen).Nodup := by
      intro l
      induction l with
      | nil => exact fun _ h => h
      | cons a l ih =>
        intro seen h
        refine ih _ ?_
        unfold use
        split
        · exact h
        · rename_i hn
          rw [List.nodup_append]
          refine ⟨h, by simp, ?_⟩
          rintro x hx y hy rfl
          exact hn (List.mem_singleton.1 hy ▸ hx)
    exact this l [] List.nodup_nil
  · intro s hs t ht e
    exact List.idxOf_inj ((hmem s).2 hs) |>.1 e

/-- C67: the loaded grammar is printed as the same text. -/
theorem C67_print_again {R : Recognizer Terminal} (hR : R.Correct bnfSyntax Nonterminal.start)
    (p : Profile) {g : Cfg} (hne : g.rules ≠ []) (hw : ∀ s ∈ g.printed, IsWord (g.symText s))
    (hinj : ∀ s ∈ g.printed, ∀ t ∈ g.printed, g.src.nameOf s = g.src.nameOf t → s = t) :
    ∃ g', load R p g.toBnf = .ok (.ok g') ∧ g'.toBnf = g.toBnf := by
  refine ⟨_, C67_load_printed hR p hne hw hinj, ?_⟩
  generalize hg' : (Cfg.mk _ _ _ _ _) = g'
  have hsym : ∀ s ∈ g.printed, g'.symText ((firstUses g.printed).idxOf s) = g.symText s := by
    intro s hs
    have hm := ((C67_numbering g.printed).2.1 s).2 hs
    subst hg'
    unfold Cfg.symText SymbolSource.nameOf
    dsimp only
    rw [List.getElem?_map, List.getElem?_idxOf hm]
    rfl
  have hrules : g'.rules = g.rules.mapIdx fun i r => ⟨(firstUses g.printed).idxOf r.lhs,
      r.rhs.map fun s => (firstUses g.printed).idxOf s, History.ofRoot (.origin (i + 1))⟩ := by
    subst hg'; rfl
  unfold Cfg.toBnf
  rw [hrules]
  have hsub : ∀ r ∈ g.rules, ∀ s ∈ r.lhs :: r.rhs, s ∈ g.printed := fun r hr s hs =>
    List.mem_flatMap.2 ⟨r, hr, hs⟩
  generalize firstUses g.printed = order at hsym
  generalize g.printed = printed at hsym hsub
  generalize g.rules = rules at hsub
  have key : ∀ (f : Nat → Nat) (rules : List CfgRule),
      (∀ r ∈ rules, ∀ s ∈ r.lhs :: r.rhs, s ∈ printed) →
      (rules.mapIdx fun i r => (⟨order.idxOf r.lhs, r.rhs.map fun s => order.idxOf s,
        History.ofRoot (.origin (f i))⟩ : CfgRule)).flatMap g'.ruleText =
      rules.flatMap g.ruleText := by
    intro f rules
    induction rules generalizing f with
    | nil => intro _; rfl
    | cons r rules ih =>
      intro h
      rw [List.mapIdx_cons, List.flatMap_cons, List.flatMap_cons,
        ih (fun i => f (i + 1)) fun r hr => h r (by simp [hr])]
      congr 1
      unfold Cfg.ruleText
      dsimp only
      rw [hsym r.lhs (h r (by simp) _ (by simp)), List.flatMap_map]
      congr 3
      have hr : ∀ s ∈ r.rhs, s ∈ printed := fun s hs => h r (by simp) s (by simp [hs])
      generalize r.rhs = l at hr
      induction l with
      | nil => rfl
      | cons a l ihl =>
        rw [List.flatMap_cons, List.flatMap_cons, ihl fun s hs => hr s (by simp [hs]),
          hsym a (hr a (by simp))]
  exact key (· + 1) rules hsub

/-- The text printed for a grammar without rules is not loaded. -/
theorem C67_empty {R : Recognizer Terminal} (hR : R.Correct bnfSyntax Nonterminal.start)
    (p : Profile) {g : Cfg} (h : g.rules = []) : ∃ e, load R p g.toBnf = .ok (.error e) := by
  have e : g.toBnf = [] := by unfold Cfg.toBnf; rw [h]; rfl
  rw [e]
  refine C92_load_error hR p (.done _) ?_
  rintro stmts ⟨h1, -, h2⟩
  cases stmts with
  | nil => exact h1 rfl
  | cons s stmts => simp [Stmt.tokens] at h2

/-- A grammar that meets the hypotheses of `C67_load_printed`; one of its symbols has no name of
its own, so that `g2` is printed for it. -/
def printable : Cfg where
  src := ⟨3, [some "S", some "a", none]⟩
  rules := [⟨0, [1, 0], {}⟩, ⟨0, [], {}⟩, ⟨2, [0], {}⟩]
  roots := [2]

example : printable.rules ≠ [] ∧ (∀ s ∈ printable.printed, IsWord (printable.symText s)) ∧
    ∀ s ∈ printable.printed, ∀ t ∈ printable.printed,
      printable.src.nameOf s = printable.src.nameOf t → s = t := by
  have e : printable.printed = [0, 1, 0, 0, 2, 0] := rfl
  rw [e]
  refine ⟨by decide, ?_, by decide +kernel⟩
  have h0 : printable.symText 0 = ['S'] := by decide +kernel
  have h1 : printable.symText 1 = ['a'] := by decide +kernel
  have h2 : printable.symText 2 = ['g', '2'] := by decide +kernel
  intro s hs
  have hs : s = 0 ∨ s = 1 ∨ s = 2 := by simp at hs; omega
  rcases hs with rfl | rfl | rfl
  · rw [h0]; exact ⟨⟨_, _, rfl, by decide⟩, by decide⟩
  · rw [h1]; exact ⟨⟨_, _, rfl, by decide⟩, by decide⟩
  · rw [h2]; exact ⟨⟨_, _, rfl, by decide⟩, by decide⟩

example : printable.toBnf = "S ::= a S;\nS ::= ;\ng2 ::= S;\n".toList := by decide +kernel

/-! ## C73 -/

/-- The numbers returned by a sequence of calls of `get_or_intern`, and the interner after them. -/
def internAll : StringInterner → List Text → List Nat × StringInterner
  | set, [] => ([], set)
  | set, value :: values =>
    let (id, set) := set.getOrIntern value
    let (ids, set) := internAll set values
    (id :: ids, set)

theorem internAll_spec (values : List Text) : ∀ set : StringInterner, List.Nodup set →
    (internAll set values).2.Nodup ∧ (∃ more, (internAll set values).2 = set ++ more ∧
      ∀ v ∈ more, v ∈ values) ∧
    List.Forall₂ (fun v id => (internAll set values).2[id]? = some v) values
      (internAll set values).1 := by
  induction values with
  | nil => exact fun set h => ⟨h, ⟨[], by simp [internAll], by simp⟩, .nil⟩
  | cons v values ih =>
    intro set h
    obtain ⟨e1, h1, m, e2, h2⟩ : (set.getOrIntern v).2[(set.getOrIntern v).1]? = some v ∧
        (set.getOrIntern v).2.Nodup ∧ ∃ m, (set.getOrIntern v).2 = set ++ m ∧ ∀ x ∈ m, x = v := by
      unfold StringInterner.getOrIntern
      by_cases hm : v ∈ set
      · rw [if_pos hm]
        exact ⟨List.getElem?_idxOf hm, h, [], by simp, by simp⟩
      · rw [if_neg hm]
        refine ⟨by simp, ?_, [v], rfl, by simp⟩
        rw [List.nodup_append]
        refine ⟨h, by simp, ?_⟩
        rintro x hx y hy rfl
        exact hm (List.mem_singleton.1 hy ▸ hx)
    obtain ⟨h3, ⟨m', e3, h4⟩, h5⟩ := ih _ h1
    refine ⟨h3, ⟨m ++ m', ?_, ?_⟩, .cons ?_ h5⟩
    · rw [← List.append_assoc, ← e2, ← e3]; rfl
    · intro x hx
      rcases List.mem_append.1 hx with hx | hx
      · exact List.mem_cons.2 (.inl (h2 x hx))
      · exact List.mem_cons.2 (.inr (h4 x hx))
    · show (internAll (set.getOrIntern v).2 values).2[(set.getOrIntern v).1]? = some v
      rw [e3, List.getElem?_append_left (List.getElem?_eq_some_iff.1 e1).1, e1]

/-- C73: over any sequence of calls, two calls return the same number exactly if they were given the
same string, and the number resolves to the string; no other number resolves. -/
theorem C73_interner (values : List Text) :
    (internAll [] values).1.length = values.length ∧
    (∀ (i j : Nat) v w a b, values[i]? = some v → values[j]? = some w →
      (internAll [] values).1[i]? = some a → (internAll [] values).1[j]? = some b →
      (a = b ↔ v = w)) ∧
    (∀ (i : Nat) v a, values[i]? = some v → (internAll [] values).1[i]? = some a →
      (internAll [] values).2.resolve a = some v) ∧
    ∀ a, ((internAll [] values).2.resolve a).isSome ↔ a ∈ (internAll [] values).1 := by
  obtain ⟨h1, ⟨more, e, hmore⟩, h2⟩ := internAll_spec values [] List.nodup_nil
  rw [List.nil_append] at e
  have hres : ∀ (i : Nat) v a, values[i]? = some v → (internAll [] values).1[i]? = some a →
      (internAll [] values).2[a]? = some v := by
    intro i v a hi ha
    obtain ⟨hi', rfl⟩ := List.getElem?_eq_some_iff.1 hi
    obtain ⟨ha', rfl⟩ := List.getElem?_eq_some_iff.1 ha
    exact List.Forall₂.get h2 hi' ha'
  have hinj : ∀ (a b : Nat) v, (internAll [] values).2[a]? = some v →
      (internAll [] values).2[b]? = some v → a = b := by
    intro a b v ha hb
    obtain ⟨h3, e3⟩ := List.getElem?_eq_some_iff.1 ha
    obtain ⟨h4, e4⟩ := List.getElem?_eq_some_iff.1 hb
    exact (List.Nodup.getElem_inj_iff h1).1 (e3.trans e4.symm)
  refine ⟨h2.length_eq.symm, ?_, hres, ?_⟩
  · intro i j v w a b hi hj ha hb
    have h3 := hres i v a hi ha
    have h4 := hres j w b hj hb
    constructor
    · rintro rfl
      rw [h3] at h4
      exact Option.some.inj h4
    · rintro rfl
      exact hinj a b v h3 h4
  · intro a
    unfold StringInterner.resolve
    constructor
    · intro ha
      obtain ⟨v, hv⟩ := Option.isSome_iff_exists.1 ha
      have hm : v ∈ values := hmore v (by rw [← e]; exact List.mem_of_getElem? hv)
      obtain ⟨b, hb, hb'⟩ := forall₂_left h2 hm
      rw [hinj a b v hv hb']
      exact hb
    · intro ha
      obtain ⟨v, -, hv⟩ := forall₂_right h2 ha
      rw [hv]; rfl

example : internAll [] ["a".toList, "b".toList, "a".toList] =
    ([0, 1, 0], ["a".toList, "b".toList]) := by decide +kernel

end Verif
