import Verif.Proofs.LoadAdvMeans
import Verif.Props.Regexp

/-! # What the grammars of the advanced loader describe -/

namespace Verif.Advanced

/-! ## Described strings -/

/-- Described strings, letter by letter. -/
theorem Describes.reads {α β : Type} {atom : Elem → List α → Prop} {atom' : Elem → List β → Prop}
    {cs : List Clause} (R : α → β → Prop) (E : Elem → Prop) (hE : ∀ c ∈ cs, ∀ e ∈ c.elems, E e)
    (hrep : ∀ n, E (.name n .oneOrMore) → E (.name n .zeroOrMore))
    (h : ∀ e t, E e → atom e t → ∃ w, atom' e w ∧ List.Forall₂ R t w) {es : List Elem} {t : List α}
    (he : ∀ e ∈ es, E e) (hd : Describes atom cs es t) :
    ∃ w, Describes atom' cs es w ∧ List.Forall₂ R t w := by
  induction hd with
  | nil => exact ⟨[], .nil, .nil⟩
  | atom h1 _ ih =>
    obtain ⟨w, h2, h3⟩ := h _ _ (he _ (by simp)) h1
    obtain ⟨v, h4, h5⟩ := ih fun e h => he e (by simp [h])
    exact ⟨w ++ v, .atom h2 h4, List.rel_append h3 h5⟩
  | name hc _ _ ih1 ih2 =>
    obtain ⟨w, h2, h3⟩ := ih1 (hE _ hc)
    obtain ⟨v, h4, h5⟩ := ih2 fun e h => he e (by simp [h])
    exact ⟨w ++ v, .name hc h2 h4, List.rel_append h3 h5⟩
  | none _ ih =>
    obtain ⟨v, h4, h5⟩ := ih fun e h => he e (by simp [h])
    exact ⟨v, .none h4, h5⟩
  | more hc _ _ ih1 ih2 =>
    obtain ⟨w, h2, h3⟩ := ih1 (hE _ hc)
    obtain ⟨v, h4, h5⟩ := ih2 he
    exact ⟨w ++ v, .more hc h2 h4, List.rel_append h3 h5⟩
  | some hc _ _ ih1 ih2 =>
    obtain ⟨w, h2, h3⟩ := ih1 (hE _ hc)
    obtain ⟨v, h4, h5⟩ := ih2 (by
      intro e h
      rcases List.mem_cons.1 h with rfl | h
      · exact hrep _ (he _ (by simp))
      · exact he e (by simp [h]))
    exact ⟨w ++ v, .some hc h2 h4, List.rel_append h3 h5⟩

theorem Describes.read {α β : Type} {atom : Elem → List α → Prop} {atom' : Elem → List β → Prop}
    {cs : List Clause} (R : α → β → Prop) (E : Elem → Prop) (hE : ∀ c ∈ cs, ∀ e ∈ c.elems, E e)
    (hrep : ∀ n, E (.name n .oneOrMore) → E (.name n .zeroOrMore))
    (h : ∀ e t w, E e → atom' e w → List.Forall₂ R t w → atom e t ∨ (∃ n, e = .name n .zeroOrMore) ∧ t = [])
    {es : List Elem} {t : List α} {w : List β} (he : ∀ e ∈ es, E e) (hd : Describes atom' cs es w)
    (hr : List.Forall₂ R t w) : Describes atom cs es t := by
  have split : ∀ {w v : List β} {t : List α}, List.Forall₂ R t (w ++ v) →
      ∃ t1 t2, t = t1 ++ t2 ∧ List.Forall₂ R t1 w ∧ List.Forall₂ R t2 v := by
    intro w
    induction w with
    | nil => intro v t h; exact ⟨[], t, rfl, .nil, h⟩
    | cons b w ih =>
      intro v t h
      cases h with
      | cons h1 h2 =>
        obtain ⟨t1, t2, rfl, h3, h4⟩ := ih h2
        exact ⟨_ :: t1, t2, rfl, .cons h1 h3, h4⟩
  induction hd generalizing t with
  | nil => cases hr; exact .nil
  | atom h1 _ ih =>
    obtain ⟨t1, t2, rfl, h3, h4⟩ := split hr
    have he' : ∀ e ∈ _, E e := fun e h => he e (List.mem_cons_of_mem _ h)
    rcases h _ _ _ (he _ (by simp)) h1 h3 with h5 | ⟨⟨n, rfl⟩, rfl⟩
    · exact .atom h5 (ih he' h4)
    · exact .none (ih he' h4)
  | name hc _ _ ih1 ih2 =>
    obtain ⟨t1, t2, rfl, h3, h4⟩ := split hr
    exact .name hc (ih1 (hE _ hc) h3) (ih2 (fun e h => he e (by simp [h])) h4)
  | none _ ih => exact .none (ih (fun e h => he e (by simp [h])) hr)
  | more hc _ _ ih1 ih2 =>
    obtain ⟨t1, t2, rfl, h3, h4⟩ := split hr
    exact .more hc (ih1 (hE _ hc) h3) (ih2 he h4)
  | some hc _ _ ih1 ih2 =>
    obtain ⟨t1, t2, rfl, h3, h4⟩ := split hr
    refine .some hc (ih1 (hE _ hc) h3) (ih2 ?_ h4)
    intro e h
    rcases List.mem_cons.1 h with rfl | h
    · exact hrep _ (he _ (by simp))
    · exact he e (by simp [h])

theorem Describes.mono {α : Type} {atom atom' : Elem → List α → Prop} {cs : List Clause}
    (E : Elem → Prop) (hE : ∀ c ∈ cs, ∀ e ∈ c.elems, E e)
    (hrep : ∀ n, E (.name n .oneOrMore) → E (.name n .zeroOrMore))
    (h : ∀ e t, E e → atom e t → atom' e t)
    {es : List Elem} {t : List α} (he : ∀ e ∈ es, E e) (hd : Describes atom cs es t) :
    Describes atom' cs es t := by
  induction hd with
  | nil => exact .nil
  | atom h1 _ ih =>
    exact .atom (h _ _ (he _ (by simp)) h1) (ih fun e h => he e (by simp [h]))
  | name hc _ _ ih1 ih2 => exact .name hc (ih1 (hE _ hc)) (ih2 fun e h => he e (by simp [h]))
  | none _ ih => exact .none (ih fun e h => he e (by simp [h]))
  | more hc _ _ ih1 ih2 => exact .more hc (ih1 (hE _ hc)) (ih2 he)
  | some hc _ _ ih1 ih2 =>
    refine .some hc (ih1 (hE _ hc)) (ih2 ?_)
    intro e h
    rcases List.mem_cons.1 h with rfl | h
    · exact hrep _ (he _ (by simp))
    · exact he e (by simp [h])

/-- One name. -/
theorem Describes.once {α : Type} {atom : Elem → List α → Prop} {cs : List Clause} {n : Text}
    {t : List α} (h : Describes atom cs [.name n .none] t) :
    atom (.name n .none) t ∨ ∃ c ∈ cs, c.lhs = n ∧ Describes atom cs c.elems t := by
  generalize hes : [Elem.name n .none] = es at h
  cases h with
  | nil => cases hes
  | atom h1 h2 =>
    cases hes
    cases h2
    rw [List.append_nil]
    exact .inl h1
  | name hc h1 h2 =>
    cases hes
    cases h2
    rw [List.append_nil]
    exact .inr ⟨_, hc, rfl, h1⟩
  | none => cases hes
  | more => cases hes
  | some => cases hes

theorem Describes.single {α : Type} {atom : Elem → List α → Prop} {cs : List Clause} {c : Clause}
    (hc : c ∈ cs) {t : List α} (h : Describes atom cs c.elems t) :
    Describes atom cs [.name c.lhs .none] t := by
  have := Describes.name hc h .nil
  rwa [List.append_nil] at this

/-! ## The language -/

theorem stringName_inj {i j : Nat} (h : stringName i = stringName j) : i = j := by
  unfold stringName at h
  have h1 := String.toList_inj.1 h
  have h2 : (toString i).toList = (toString j).toList := by
    have := congrArg String.toList h1
    rw [String.toList_append, String.toList_append] at this
    exact List.append_cancel_left this
  have digits : ∀ k : Nat, (toString k).toList = Nat.toDigits 10 k := by
    intro k
    show (Nat.repr k).toList = _
    unfold Nat.repr
    rw [String.toList_ofList]
  rw [digits, digits] at h2
  rw [← Nat.ofDigitChars_toDigits (b := 10) (n := i) (by decide) (by decide), h2,
    Nat.ofDigitChars_toDigits (by decide) (by decide)]

theorem mem_firstUses {α : Type} [DecidableEq α] {l : List α} {a : α} :
    a ∈ firstUses l ↔ a ∈ l := by
  have : ∀ (l seen : List α),
      a ∈ l.foldl (fun seen s => if s ∈ seen then seen else seen ++ [s]) seen ↔ a ∈ seen ∨ a ∈ l := by
    intro l
    induction l with
    | nil => intro seen; simp
    | cons b l ih =>
      intro seen
      rw [List.foldl_cons, ih, List.mem_cons]
      split
      · rename_i hb
        constructor
        · rintro (h | h)
          · exact .inl h
          · exact .inr (.inr h)
        · rintro (h | rfl | h)
          · exact .inl h
          · exact .inl hb
          · exact .inr h
      · rw [List.mem_append, List.mem_singleton, or_assoc]
  unfold firstUses
  rw [this]
  simp

section

variable {parse : Text → Except String Hir} {parser lexer : List Clause} {G : AdvancedGrammar}
  {sym : Text → Sym} (h : Loaded parse parser lexer G sym)
  (hno : ∀ n ∈ writtenNames (parser ++ lexer), ∀ i < (stringsOf (parser ++ lexer)).length,
    stringName i ≠ n)

/-- The strings that a symbol of the grammar stands for. -/
def Sat (parse : Text → Except String Hir) (cs : List Clause) (sym : Text → Sym)
    (classes : List (LexerClasses × Sym)) (x : Sym) (t : List Sym) : Prop :=
  (∃ n ∈ writtenNames cs, x = sym n ∧
    Describes (symAtom parse cs sym classes) cs [.name n .none] t) ∨
  (∃ (i : Nat) (s : Text), (stringsOf cs)[i]? = some s ∧ x = sym (stringName i) ∧
    SpellsChars classes s t) ∨
  ∃ k, (k, x) ∈ classes ∧ t = [x]

theorem written_mem {cs : List Clause} {n : Text} (h : n ∈ writtenNames cs) : n ∈ namesOf cs :=
  List.mem_append.2 (.inl h)

theorem stringName_mem {cs : List Clause} {i : Nat} (h : i < (stringsOf cs).length) :
    stringName i ∈ namesOf cs :=
  List.mem_append.2 (.inr (List.mem_map.2 ⟨i, List.mem_range.2 h, rfl⟩))

theorem lhs_written {cs : List Clause} {c : Clause} (hc : c ∈ cs) : c.lhs ∈ writtenNames cs :=
  List.mem_flatMap.2 ⟨c, hc, by simp⟩

theorem name_written {cs : List Clause} {c : Clause} (hc : c ∈ cs) {e : Elem} (he : e ∈ c.elems)
    {n : Text} (hn : n ∈ e.names) : n ∈ writtenNames cs :=
  List.mem_flatMap.2 ⟨c, hc, List.mem_cons_of_mem _ (List.mem_flatMap.2 ⟨e, he, hn⟩)⟩

theorem string_mem {cs : List Clause} {c : Clause} (hc : c ∈ cs) {e : Elem} (he : e ∈ c.elems)
    {s : Text} (hs : s ∈ e.strings) : s ∈ stringsOf cs := by
  unfold stringsOf
  rw [mem_firstUses]
  exact List.mem_flatMap.2 ⟨c, hc, List.mem_flatMap.2 ⟨e, he, hs⟩⟩

include h hno

theorem Sat.name {n : Text} (hn : n ∈ writtenNames (parser ++ lexer)) {t : List Sym}
    (hs : Sat parse (parser ++ lexer) sym G.lexerMap.classes (sym n) t) :
    Describes (symAtom parse (parser ++ lexer) sym G.lexerMap.classes) (parser ++ lexer)
      [.name n .none] t := by
  rcases hs with ⟨n', hn', e, hd⟩ | ⟨i, s, hi, e, -⟩ | ⟨k, hk, -⟩
  · rw [h.inj n (written_mem hn) n' (written_mem hn') e]
    exact hd
  · have hi := (List.getElem?_eq_some_iff.1 hi).1
    exact absurd (h.inj _ (written_mem hn) _ (stringName_mem hi) e).symm (hno n hn i hi)
  · exact absurd rfl ((h.classNames k _ hk).2 n (written_mem hn))

theorem Sat.str {i : Nat} {s : Text} (hi : (stringsOf (parser ++ lexer))[i]? = some s) {t : List Sym}
    (hs : Sat parse (parser ++ lexer) sym G.lexerMap.classes (sym (stringName i)) t) :
    SpellsChars G.lexerMap.classes s t := by
  have hlt := (List.getElem?_eq_some_iff.1 hi).1
  rcases hs with ⟨n', hn', e, hd⟩ | ⟨j, s', hj, e, hd⟩ | ⟨k, hk, -⟩
  · exact absurd (h.inj _ (stringName_mem hlt) _ (written_mem hn') e) (hno n' hn' i hlt)
  · have hj' := (List.getElem?_eq_some_iff.1 hj).1
    have := stringName_inj (h.inj _ (stringName_mem hlt) _ (stringName_mem hj') e)
    subst this
    rw [hi] at hj
    cases hj
    exact hd
  · exact absurd rfl ((h.classNames k _ hk).2 _ (stringName_mem hlt))

omit hno in
theorem class_sat {α : List Sym} (hα : ∀ x ∈ α, ∃ k, (k, x) ∈ G.lexerMap.classes)
    {parts : List (List Sym)}
    (hp : List.Forall₂ (Sat parse (parser ++ lexer) sym G.lexerMap.classes) α parts) :
    parts.flatten = α := by
  induction hp with
  | nil => rfl
  | @cons x t α parts h1 _ ih =>
    rw [List.flatten_cons, ih fun x hx => hα x (by simp [hx])]
    obtain ⟨k, hk⟩ := hα x (by simp)
    rcases h1 with ⟨n, hn, rfl, -⟩ | ⟨i, s, hi, rfl, -⟩ | ⟨_, _, rfl⟩
    · exact absurd rfl ((h.classNames k _ hk).2 _ (written_mem hn))
    · exact absurd rfl
        ((h.classNames k _ hk).2 _ (stringName_mem (List.getElem?_eq_some_iff.1 hi).1))
    · rfl

theorem elem_describes {e : Elem} (hnames : ∀ n ∈ e.names, n ∈ writtenNames (parser ++ lexer))
    {α : List Sym}
    (hm : e.Means parse sym (stringsOf (parser ++ lexer)) G.lexerMap.classes α)
    {parts : List (List Sym)}
    (hp : List.Forall₂ (Sat parse (parser ++ lexer) sym G.lexerMap.classes) α parts)
    {es : List Elem} {u : List Sym}
    (hd : Describes (symAtom parse (parser ++ lexer) sym G.lexerMap.classes) (parser ++ lexer) es u) :
    Describes (symAtom parse (parser ++ lexer) sym G.lexerMap.classes) (parser ++ lexer) (e :: es)
      (parts.flatten ++ u) := by
  have many : ∀ {n : Text}, n ∈ writtenNames (parser ++ lexer) → ∀ {k : Nat} {parts : List (List Sym)},
      List.Forall₂ (Sat parse (parser ++ lexer) sym G.lexerMap.classes) (List.replicate k (sym n)) parts →
      (∀ c ∈ parser ++ lexer, c.lhs ≠ n) ∧ parts.flatten = List.replicate k (sym n) ∨
      (∃ c ∈ parser ++ lexer, c.lhs = n) ∧ ∀ t ∈ parts, ∃ c ∈ parser ++ lexer, c.lhs = n ∧
        Describes (symAtom parse (parser ++ lexer) sym G.lexerMap.classes) (parser ++ lexer) c.elems t := by
    intro n hn k parts hp
    by_cases hl : ∃ c ∈ parser ++ lexer, c.lhs = n
    · refine .inr ⟨hl, fun t ht => ?_⟩
      obtain ⟨x, hx, h1⟩ := forall₂_right hp ht
      rw [(List.mem_replicate.1 hx).2] at h1
      rcases (Sat.name h hno hn h1).once with ⟨h2, -⟩ | h2
      · obtain ⟨c, hc, e⟩ := hl
        exact absurd e (h2 c hc)
      · exact h2
    · have hl : ∀ c ∈ parser ++ lexer, c.lhs ≠ n := fun c hc e => hl ⟨c, hc, e⟩
      refine .inl ⟨hl, ?_⟩
      induction k generalizing parts with
      | zero => cases hp; rfl
      | succ k ih =>
        rw [List.replicate_succ] at hp
        cases hp with
        | cons h1 h2 =>
          rw [List.flatten_cons, ih h2, List.replicate_succ]
          rcases (Sat.name h hno hn h1).once with ⟨-, h3⟩ | ⟨c, hc, e, -⟩
          · dsimp only at h3
            rw [h3]; rfl
          · exact absurd e (hl c hc)
  have star : ∀ {n : Text} {parts : List (List Sym)},
      (∀ t ∈ parts, ∃ c ∈ parser ++ lexer, c.lhs = n ∧
        Describes (symAtom parse (parser ++ lexer) sym G.lexerMap.classes) (parser ++ lexer) c.elems t) →
      Describes (symAtom parse (parser ++ lexer) sym G.lexerMap.classes) (parser ++ lexer)
        (.name n .zeroOrMore :: es) (parts.flatten ++ u) := by
    intro n parts
    induction parts with
    | nil => intro _; exact .none hd
    | cons t parts ih =>
      intro ht
      obtain ⟨c, hc, rfl, h1⟩ := ht t (by simp)
      rw [List.flatten_cons, List.append_assoc]
      exact .more hc h1 (ih fun t h => ht t (by simp [h]))
  cases e with
  | name n rep =>
    have hn : n ∈ writtenNames (parser ++ lexer) := hnames n (by simp [Elem.names])
    cases rep with
    | none =>
      have : α = [sym n] := hm
      subst this
      cases hp with
      | cons h1 h2 =>
        cases h2
        rw [List.flatten_cons, List.flatten_nil, List.append_nil]
        rcases (Sat.name h hno hn h1).once with h3 | ⟨c, hc, rfl, h3⟩
        · exact .atom h3 hd
        · exact .name hc h3 hd
    | zeroOrMore =>
      obtain ⟨k, rfl⟩ := hm
      rcases many hn hp with ⟨h1, h2⟩ | ⟨-, h1⟩
      · exact .atom ⟨h1, k, h2⟩ hd
      · exact star h1
    | oneOrMore =>
      obtain ⟨k, hk, rfl⟩ := hm
      rcases many hn hp with ⟨h1, h2⟩ | ⟨-, h1⟩
      · exact .atom ⟨h1, k, hk, h2⟩ hd
      · cases parts with
        | nil =>
          have := hp.length_eq
          simp at this
          omega
        | cons t parts =>
          obtain ⟨c, hc, rfl, h2⟩ := h1 t (by simp)
          rw [List.flatten_cons, List.append_assoc]
          exact .some hc h2 (star fun t h => h1 t (by simp [h]))
  | str s =>
    obtain ⟨i, hi, rfl⟩ := hm
    cases hp with
    | cons h1 h2 =>
      cases h2
      rw [List.flatten_cons, List.flatten_nil, List.append_nil]
      exact .atom (Sat.str h hno hi h1) hd
  | call func arg =>
    obtain ⟨hir, ls, h1, h2, h3⟩ := hm
    have : parts.flatten = α := class_sat h (by
      intro x hx
      obtain ⟨l, -, hk⟩ := forall₂_right h3 hx
      exact ⟨_, hk⟩) hp
    rw [this]
    exact .atom ⟨hir, ls, h1, h2, h3⟩ hd

theorem elems_describe {es : List Elem}
    (hn : ∀ e ∈ es, ∀ n ∈ e.names, n ∈ writtenNames (parser ++ lexer)) {αs : List (List Sym)}
    (hm : List.Forall₂ (Elem.Means parse sym (stringsOf (parser ++ lexer)) G.lexerMap.classes) es αs)
    {parts : List (List Sym)}
    (hp : List.Forall₂ (Sat parse (parser ++ lexer) sym G.lexerMap.classes) αs.flatten parts) :
    Describes (symAtom parse (parser ++ lexer) sym G.lexerMap.classes) (parser ++ lexer) es
      parts.flatten := by
  induction hm generalizing parts with
  | nil => cases hp; exact .nil
  | @cons e α es αs h1 _ ih =>
    rw [List.flatten_cons] at hp
    obtain ⟨p1, p2, rfl, h2, h3⟩ : ∃ p1 p2, parts = p1 ++ p2 ∧
        List.Forall₂ (Sat parse (parser ++ lexer) sym G.lexerMap.classes) α p1 ∧
        List.Forall₂ (Sat parse (parser ++ lexer) sym G.lexerMap.classes) αs.flatten p2 := by
      have h4 := List.forall₂_take α.length hp
      have h5 := List.forall₂_drop α.length hp
      rw [List.take_left] at h4
      rw [List.drop_left] at h5
      exact ⟨_, _, (List.take_append_drop α.length parts).symm, h4, h5⟩
    rw [List.flatten_append]
    exact elem_describes h hno (hn e (by simp)) h1 h2 (ih (fun e h => hn e (by simp [h])) h3)

/-- What a derivation makes of a string. -/
theorem der_describes {u v : List Sym}
    (d : Der (advProd parse (parser ++ lexer) sym G.lexerMap.classes) u v)
    (ht : ∀ a ∈ v, advTerm (parser ++ lexer) sym G.lexerMap.classes a) :
    ∃ parts, List.Forall₂ (Sat parse (parser ++ lexer) sym G.lexerMap.classes) u parts ∧
      v = parts.flatten := by
  induction d with
  | nil => exact ⟨[], .nil, rfl⟩
  | keep a _ ih =>
    obtain ⟨parts, h1, rfl⟩ := ih fun a h => ht a (by simp [h])
    refine ⟨[a] :: parts, .cons ?_ h1, rfl⟩
    rcases ht a (by simp) with ⟨k, hk⟩ | ⟨n, hn, rfl, h2, h3⟩
    · exact .inr (.inr ⟨k, hk, rfl⟩)
    · refine .inl ⟨n, ?_, rfl, ?_⟩
      · rcases List.mem_append.1 hn with hn | hn
        · exact hn
        · obtain ⟨i, hi, rfl⟩ := List.mem_map.1 hn
          exact absurd rfl (h3 i (List.mem_range.1 hi))
      · have := Describes.atom (cs := parser ++ lexer)
          (atom := symAtom parse (parser ++ lexer) sym G.lexerMap.classes) (e := .name n .none)
          (t := [sym n]) ⟨h2, rfl⟩ .nil
        rwa [List.append_nil] at this
  | @expand A α x u v hp _ _ ih1 ih2 =>
    obtain ⟨p1, h1, e1⟩ := ih1 fun a h => ht a (by simp [h])
    obtain ⟨p2, h2, e2⟩ := ih2 fun a h => ht a (by simp [h])
    refine ⟨x :: p2, .cons ?_ h2, by rw [List.flatten_cons, e2]⟩
    rcases hp with ⟨c, hc, rfl, αs, h3, rfl⟩ | ⟨i, s, hi, rfl, h3⟩
    · refine .inl ⟨c.lhs, lhs_written hc, rfl, Describes.single hc ?_⟩
      rw [e1]
      exact elems_describe h hno (fun e he n hn => name_written hc he hn) h3 h1
    · refine .inr (.inl ⟨i, s, hi, rfl, ?_⟩)
      have : p1.flatten = α := class_sat h (by
        intro x hx
        obtain ⟨l, -, hk⟩ := forall₂_right h3 hx
        exact ⟨_, hk⟩) h1
      rw [e1, this]
      exact h3

omit h in
/-- The described strings can be derived. -/
theorem describes_der {es : List Elem} {w : List Sym}
    (hd : Describes (symAtom parse (parser ++ lexer) sym G.lexerMap.classes) (parser ++ lexer) es w)
    (hE : ∀ e ∈ es, (∀ n ∈ e.names, n ∈ writtenNames (parser ++ lexer)) ∧
      ∀ s ∈ e.strings, s ∈ stringsOf (parser ++ lexer)) :
    ∃ αs, List.Forall₂ (Elem.Means parse sym (stringsOf (parser ++ lexer)) G.lexerMap.classes) es αs ∧
      StrLang (advProd parse (parser ++ lexer) sym G.lexerMap.classes)
        (advTerm (parser ++ lexer) sym G.lexerMap.classes) αs.flatten w := by
  have once : ∀ {c : Clause}, c ∈ parser ++ lexer → ∀ {t : List Sym},
      (∃ αs, List.Forall₂ (Elem.Means parse sym (stringsOf (parser ++ lexer)) G.lexerMap.classes)
          c.elems αs ∧
        StrLang (advProd parse (parser ++ lexer) sym G.lexerMap.classes)
          (advTerm (parser ++ lexer) sym G.lexerMap.classes) αs.flatten t) →
      StrLang (advProd parse (parser ++ lexer) sym G.lexerMap.classes)
        (advTerm (parser ++ lexer) sym G.lexerMap.classes) [sym c.lhs] t := by
    rintro c hc t ⟨αs, h1, h2, h3⟩
    exact ⟨Der.single_iff.2 (.inr ⟨_, .inl ⟨c, hc, rfl, αs, h1, rfl⟩, h2⟩), h3⟩
  have sub : ∀ {c : Clause}, c ∈ parser ++ lexer → ∀ e ∈ c.elems,
      (∀ n ∈ e.names, n ∈ writtenNames (parser ++ lexer)) ∧
        ∀ s ∈ e.strings, s ∈ stringsOf (parser ++ lexer) := fun hc e he =>
    ⟨fun n hn => name_written hc he hn, fun s hs => string_mem hc he hs⟩
  have term : ∀ {n : Text}, n ∈ writtenNames (parser ++ lexer) →
      (∀ c ∈ parser ++ lexer, c.lhs ≠ n) →
      advTerm (parser ++ lexer) sym G.lexerMap.classes (sym n) := fun hn hl =>
    .inr ⟨_, written_mem hn, rfl, hl, hno _ hn⟩
  induction hd with
  | nil => exact ⟨[], .nil, strLang_nil.2 rfl⟩
  | @atom e es t u h1 _ ih =>
    obtain ⟨αs, k1, k2⟩ := ih fun e h => hE e (by simp [h])
    suffices ∃ α, e.Means parse sym (stringsOf (parser ++ lexer)) G.lexerMap.classes α ∧
        StrLang (advProd parse (parser ++ lexer) sym G.lexerMap.classes)
          (advTerm (parser ++ lexer) sym G.lexerMap.classes) α t by
      obtain ⟨α, k3, k4⟩ := this
      refine ⟨α :: αs, .cons k3 k1, ?_⟩
      rw [List.flatten_cons]
      exact strLang_append.2 ⟨t, u, rfl, k4, k2⟩
    have hE := hE e (by simp)
    cases e with
    | name n rep =>
      obtain ⟨hl, h1⟩ := h1
      have ht := term (hE.1 n (by simp [Elem.names])) hl
      cases rep with
      | none =>
        dsimp only at h1
        subst h1
        exact ⟨_, rfl, .refl _, by simpa using ht⟩
      | zeroOrMore =>
        obtain ⟨k, rfl⟩ := h1
        exact ⟨_, ⟨k, rfl⟩, .refl _, fun a ha => (List.mem_replicate.1 ha).2 ▸ ht⟩
      | oneOrMore =>
        obtain ⟨k, hk, rfl⟩ := h1
        exact ⟨_, ⟨k, hk, rfl⟩, .refl _, fun a ha => (List.mem_replicate.1 ha).2 ▸ ht⟩
    | str s =>
      obtain ⟨i, hi⟩ := List.mem_iff_getElem?.1 (hE.2 s (by simp [Elem.strings]))
      refine ⟨_, ⟨i, hi, rfl⟩, Der.single_iff.2 (.inr ⟨t, .inr ⟨i, s, hi, rfl, h1⟩, .refl _⟩), ?_⟩
      intro a ha
      obtain ⟨c, -, hk⟩ := forall₂_right h1 ha
      exact .inl ⟨_, hk⟩
    | call func arg =>
      obtain ⟨hir, ls, k3, k4, k5⟩ := h1
      refine ⟨t, ⟨hir, ls, k3, k4, k5⟩, .refl _, ?_⟩
      intro a ha
      obtain ⟨c, -, hk⟩ := forall₂_right k5 ha
      exact .inl ⟨_, hk⟩
  | @name c es t u hc _ _ ih1 ih2 =>
    obtain ⟨αs, k1, k2⟩ := ih2 fun e h => hE e (by simp [h])
    refine ⟨[sym c.lhs] :: αs, .cons rfl k1, ?_⟩
    rw [List.flatten_cons]
    exact strLang_append.2 ⟨t, u, rfl, once hc (ih1 (sub hc)), k2⟩
  | none _ ih =>
    obtain ⟨αs, k1, k2⟩ := ih fun e h => hE e (by simp [h])
    exact ⟨[] :: αs, .cons ⟨0, rfl⟩ k1, k2⟩
  | @more c es t u hc _ _ ih1 ih2 =>
    obtain ⟨αs, k1, k2⟩ := ih2 hE
    cases k1 with
    | @cons _ α _ αs h1 k1 =>
      obtain ⟨k, rfl⟩ := h1
      refine ⟨List.replicate (k + 1) (sym c.lhs) :: αs, .cons ⟨k + 1, rfl⟩ k1, ?_⟩
      rw [List.flatten_cons, List.replicate_succ, ← List.singleton_append, List.append_assoc]
      exact strLang_append.2 ⟨t, u, rfl, once hc (ih1 (sub hc)), k2⟩
  | @some c es t u hc _ _ ih1 ih2 =>
    obtain ⟨αs, k1, k2⟩ := ih2 (by
      intro e h
      rcases List.mem_cons.1 h with rfl | h
      · exact hE (.name c.lhs .oneOrMore) (by simp)
      · exact hE e (by simp [h]))
    cases k1 with
    | @cons _ α _ αs h1 k1 =>
      obtain ⟨k, rfl⟩ := h1
      refine ⟨List.replicate (k + 1) (sym c.lhs) :: αs, .cons ⟨k + 1, by omega, rfl⟩ k1, ?_⟩
      rw [List.flatten_cons, List.replicate_succ, ← List.singleton_append, List.append_assoc]
      exact strLang_append.2 ⟨t, u, rfl, once hc (ih1 (sub hc)), k2⟩

/-- The language of a name. -/
theorem lang_describes {n : Text} (hn : n ∈ writtenNames (parser ++ lexer)) (w : List Sym) :
    G.cfg.Lang (sym n) w ↔
      Describes (symAtom parse (parser ++ lexer) sym G.lexerMap.classes) (parser ++ lexer)
        [.name n .none] w := by
  rw [h.lang n (written_mem hn)]
  constructor
  · intro hw
    obtain ⟨hd, ht⟩ := inLang_iff.1 hw
    obtain ⟨parts, h1, rfl⟩ := der_describes h hno hd ht
    cases h1 with
    | cons h1 h2 =>
      cases h2
      rw [List.flatten_cons, List.flatten_nil, List.append_nil]
      exact Sat.name h hno hn h1
  · intro hd
    obtain ⟨αs, h1, h2, h3⟩ := describes_der hno hd (by simp [Elem.names, Elem.strings, hn])
    cases h1 with
    | cons h1 h4 =>
      cases h4
      have := h1
      unfold Elem.Means at this
      subst this
      exact inLang_iff.2 ⟨by simpa using h2, h3⟩

end

/-! ## Texts -/

/-- The texts of the elements that do not refer to a rule, when every character is read as a class. -/
def readAtom (parse : Text → Except String Hir) : Elem → Text → Prop
  | .name _ _, _ => False
  | .str s, t => List.Forall₂ (fun (x c : Char) => InRanges (charClass c) x.toNat) t s
  | .call _ arg, t => ∃ hir ls, parse arg = .ok hir ∧ hir.Matches ls ∧ Reads t ls

/-- The classes of an element fit the tables. -/
def Elem.Tabular (parse : Text → Except String Hir) : Elem → Prop
  | .name _ _ => True
  | .str s => ∀ c ∈ s, IsChar (c.toNat + 2)
  | .call _ arg => ∀ hir, parse arg = .ok hir → hir.Tabular

theorem mem_call_classes {parse : Text → Except String Hir} {func arg : Text} {k : LexerClasses} :
    k ∈ (Elem.call func arg).classes parse ↔
      ∃ hir, parse arg = .ok hir ∧ ∃ l ∈ hir.letters, l.ranges = k := by
  unfold Elem.classes
  dsimp only
  cases parse arg with
  | error => simp
  | ok hir => simp

/-- A text read as classes. -/
theorem read_classes {β : Type} {f : β → LexerClasses} {C : List (LexerClasses × Sym)}
    (hC : (C.map Prod.snd).Nodup) {t : Text} {ls : List β} {w : List Sym}
    (h1 : List.Forall₂ (fun (c : Char) s => ∃ k, (k, s) ∈ C ∧ InRanges k c.toNat) t w)
    (h2 : List.Forall₂ (fun l s => (f l, s) ∈ C) ls w) :
    List.Forall₂ (fun (c : Char) l => InRanges (f l) c.toNat) t ls := by
  induction h2 generalizing t with
  | nil => cases h1; exact .nil
  | cons h3 _ ih =>
    cases h1 with
    | cons h4 h5 =>
      obtain ⟨k, h6, h7⟩ := h4
      have := List.inj_on_of_nodup_map hC h6 h3 rfl
      cases this
      exact .cons h7 (ih h5)

theorem reads_classes {β : Type} {f : β → LexerClasses} {C : List (LexerClasses × Sym)}
    {t : Text} {ls : List β} (hl : ∀ l ∈ ls, ∃ s, (f l, s) ∈ C)
    (h : List.Forall₂ (fun (c : Char) l => InRanges (f l) c.toNat) t ls) :
    ∃ w, List.Forall₂ (fun l s => (f l, s) ∈ C) ls w ∧
      List.Forall₂ (fun (c : Char) s => ∃ k, (k, s) ∈ C ∧ InRanges k c.toNat) t w := by
  induction h with
  | nil => exact ⟨[], .nil, .nil⟩
  | cons h1 _ ih =>
    obtain ⟨w, h2, h3⟩ := ih fun l h => hl l (by simp [h])
    obtain ⟨s, hs⟩ := hl _ (List.mem_cons_self ..)
    exact ⟨s :: w, .cons hs h2, .cons ⟨_, hs, h1⟩ h3⟩

section

variable {parse : Text → Except String Hir} {parser lexer : List Clause} {G : AdvancedGrammar}
  {sym : Text → Sym} (h : Loaded parse parser lexer G sym)
  (hs : ∀ c ∈ parser ++ lexer, ∀ e ∈ c.elems, e.Safe parse)

include h hs

theorem loaded_classes {k : LexerClasses} {s : Sym} (hk : (k, s) ∈ G.lexerMap.classes) : Apart k := by
  obtain ⟨c, hc, e, he, hk⟩ := (h.classesIff k).1 ⟨s, hk⟩
  have hs := hs c hc e he
  cases e with
  | name => cases hk
  | str t =>
    obtain ⟨c, -, rfl⟩ := List.mem_map.1 hk
    exact ⟨by simp [charClass], by simp [charClass]⟩
  | call func arg =>
    obtain ⟨hir, hp, l, hl, rfl⟩ := mem_call_classes.1 hk
    exact plain_letters hir (hs hir hp) l hl

theorem loaded_proper : G.lexerMap.Proper :=
  ⟨h.classSyms, fun _ he => loaded_classes h hs he⟩

theorem loaded_compute (ht : ∀ c ∈ parser ++ lexer, ∀ e ∈ c.elems, e.Tabular parse) :
    ∃ m, G.lexerMap.compute = .ok m := by
  rw [(C64_compute_partial _).2]
  rintro ⟨k, s⟩ he r hr
  obtain ⟨c, hc, e, he, hk⟩ := (h.classesIff k).1 ⟨s, he⟩
  have hs := hs c hc e he
  have ht := ht c hc e he
  cases e with
  | name => cases hk
  | str t =>
    obtain ⟨c, hc, rfl⟩ := List.mem_map.1 hk
    unfold charClass at hr
    rw [List.mem_singleton] at hr
    subst hr
    exact ⟨by simp only; omega, ht c hc⟩
  | call func arg =>
    obtain ⟨hir, hp, l, hl, rfl⟩ := mem_call_classes.1 hk
    cases l with
    | cls rs => exact ht hir hp rs hl r hr
    | byte b =>
      have hb : b < 255 := plain_bytes hir (hs hir hp) b hl
      simp only [Letter.ranges, List.mem_singleton] at hr
      subst hr
      exact ⟨by simp only; omega, by simp only; omega, by simp only; omega⟩

theorem accepts_describes
    (hno : ∀ n ∈ writtenNames (parser ++ lexer), ∀ i < (stringsOf (parser ++ lexer)).length,
      stringName i ≠ n)
    {m : LexerMap} (hm : G.lexerMap.compute = .ok m) {n : Text}
    (hn : n ∈ writtenNames (parser ++ lexer)) (text : Text) :
    Accepts G.cfg m (sym n) text ↔
      Describes (readAtom parse) (parser ++ lexer) [.name n .none] text := by
  have hget : ∀ (c : Char) (s : Sym), (∃ syms, m.get c.toNat = .ok syms ∧ s ∈ syms) ↔
      ∃ k, (k, s) ∈ G.lexerMap.classes ∧ InRanges k c.toNat := by
    intro c s
    obtain ⟨l, h1, h2⟩ := get_spec (loaded_proper h hs) hm c.toNat
    rw [← h2, h1]
    exact ⟨fun ⟨_, e, h⟩ => by cases e; exact h, fun h => ⟨l, rfl, h⟩⟩
  unfold Accepts
  simp only [hget, lang_describes h hno hn]
  constructor
  · rintro ⟨w, h1, h2⟩
    have hE : ∀ e ∈ [Elem.name n .none], ∀ n' ∈ e.names, n' ∈ writtenNames (parser ++ lexer) := by
      simp [Elem.names, hn]
    clear hn
    refine Describes.read (E := fun e => ∀ n' ∈ e.names, n' ∈ writtenNames (parser ++ lexer)) _
      (fun c hc e he n hn => name_written hc he hn) (fun n h => h) ?_ hE h1 h2
    intro e t w hn he hr
    cases e with
    | name n' rep =>
      right
      obtain ⟨hl, he⟩ := he
      have hn := written_mem (hn n' (by simp [Elem.names]))
      have key : ∀ k, List.Forall₂ (fun (c : Char) s =>
          ∃ k, (k, s) ∈ G.lexerMap.classes ∧ InRanges k c.toNat) t (List.replicate k (sym n')) →
          k = 0 := by
        intro k hk
        cases k with
        | zero => rfl
        | succ k =>
          cases hk with
          | cons h1 _ =>
            obtain ⟨k, h1, -⟩ := h1
            exact absurd rfl ((h.classNames k _ h1).2 n' hn)
      cases rep with
      | none =>
        dsimp only at he
        subst he
        cases key 1 hr
      | zeroOrMore =>
        obtain ⟨k, rfl⟩ := he
        cases key k hr
        cases hr
        exact ⟨⟨n', rfl⟩, rfl⟩
      | oneOrMore =>
        obtain ⟨k, hk, rfl⟩ := he
        cases key k hr
        omega
    | str s => exact .inl (read_classes h.classSyms hr he)
    | call func arg =>
      obtain ⟨hir, ls, h1, h2, h3⟩ := he
      exact .inl ⟨hir, ls, h1, h2, read_classes h.classSyms hr h3⟩
  · intro hd
    refine hd.reads _ (fun e => ∀ k ∈ e.classes parse, ∃ s, (k, s) ∈ G.lexerMap.classes) ?_ ?_ ?_ ?_
    · intro c hc e he k hk
      exact (h.classesIff k).2 ⟨c, hc, e, he, hk⟩
    · intro n _ k hk
      cases hk
    · intro e t he ht
      cases e with
      | name => exact ht.elim
      | str s => exact reads_classes (fun c hc => he _ (List.mem_map_of_mem hc)) ht
      | call func arg =>
        obtain ⟨hir, ls, h1, h2, h3⟩ := ht
        obtain ⟨w, h4, h5⟩ := reads_classes (f := Letter.ranges) (fun l hl =>
          he _ (mem_call_classes.2
            ⟨hir, h1, l, matches_letters hir ls h2 l hl, rfl⟩)) h3
        exact ⟨w, ⟨hir, ls, h1, h2, h4⟩, h5⟩
    · intro e he k hk
      rw [List.mem_singleton.1 he] at hk
      cases hk

end

end Verif.Advanced
