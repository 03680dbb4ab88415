import Verif.Proofs.LoadAdvSplice
import Verif.Proofs.LoadAdvParse

/-! # Proofs about the loop of the advanced loader -/

namespace Verif.Advanced

theorem lexName_eq (i : Nat) : lexName i = stringName i := by
  unfold lexName stringName
  rw [String.toList_append]

theorem firstUses_concat {α : Type} [DecidableEq α] (l : List α) (a : α) :
    firstUses (l ++ [a]) = if a ∈ firstUses l then firstUses l else firstUses l ++ [a] := by
  unfold firstUses
  rw [List.foldl_append]
  rfl

/-! ## One step -/

/-- What a step keeps. -/
structure Step (st st' : State) : Prop where
  named : ∀ n s, st.base.Named n s → st'.base.Named n s
  classes : ∀ e ∈ st.classes, e ∈ st'.classes
  lex : ∃ more, st'.lexIntern = st.lexIntern ++ more
  lhsInParser : st'.lhsInParser = st.lhsInParser
  actions : st'.actions = st.actions
  roots : st'.base.cfg.roots = st.base.cfg.roots
  empty : st'.base.internEmpty = st.base.internEmpty
  pre : ∃ more, st'.base.intern = st.base.intern ++ more
  steps : Cfg.Steps NoOrigin st.base.cfg st'.base.cfg
  symKeys : (st.base.symMap.map Prod.fst).Nodup → (st'.base.symMap.map Prod.fst).Nodup

theorem Step.refl (st : State) : Step st st :=
  ⟨fun _ _ h => h, fun _ h => h, ⟨[], by simp⟩, rfl, rfl, rfl, rfl, ⟨[], by simp⟩, .refl, id⟩

theorem Step.trans {st₁ st₂ st₃ : State} (h₁ : Step st₁ st₂) (h₂ : Step st₂ st₃) : Step st₁ st₃ :=
  ⟨fun n s h => h₂.named n s (h₁.named n s h), fun e h => h₂.classes e (h₁.classes e h), by
    obtain ⟨m₁, e₁⟩ := h₁.lex
    obtain ⟨m₂, e₂⟩ := h₂.lex
    exact ⟨m₁ ++ m₂, by rw [e₂, e₁, List.append_assoc]⟩, h₂.lhsInParser.trans h₁.lhsInParser,
    h₂.actions.trans h₁.actions, h₂.roots.trans h₁.roots, h₂.empty.trans h₁.empty, by
    obtain ⟨m₁, e₁⟩ := h₁.pre
    obtain ⟨m₂, e₂⟩ := h₂.pre
    exact ⟨m₁ ++ m₂, by rw [e₂, e₁, List.append_assoc]⟩, h₁.steps.trans h₂.steps,
    fun h => h₂.symKeys (h₁.symKeys h)⟩

theorem Ext.step {st st' : State} {ns : List Text} {ks : List LexerClasses} (h : Ext st st' ns ks)
    (hl : st'.lexIntern = st.lexIntern) : Step st st' :=
  ⟨h.base.named, h.classes, ⟨[], by simp [hl]⟩, h.lhsInParser, h.actions, h.base.roots, h.base.empty,
    h.base.pre, h.base.steps, h.base.keys⟩

/-- What the loop keeps. -/
structure Keeps (st st' : State) : Prop where
  named : ∀ n s, st.base.Named n s → st'.base.Named n s
  lex : ∃ more, st'.lexIntern = st.lexIntern ++ more
  pre : ∃ more, st'.base.intern = st.base.intern ++ more
  symKeys : (st.base.symMap.map Prod.fst).Nodup → (st'.base.symMap.map Prod.fst).Nodup

theorem Step.keeps {st st' : State} (h : Step st st') : Keeps st st' :=
  ⟨h.named, h.lex, h.pre, h.symKeys⟩

theorem Keeps.refl (st : State) : Keeps st st := (Step.refl st).keeps

theorem Keeps.trans {st₁ st₂ st₃ : State} (h₁ : Keeps st₁ st₂) (h₂ : Keeps st₂ st₃) : Keeps st₁ st₃ :=
  ⟨fun n s h => h₂.named n s (h₁.named n s h), by
    obtain ⟨m₁, e₁⟩ := h₁.lex
    obtain ⟨m₂, e₂⟩ := h₂.lex
    exact ⟨m₁ ++ m₂, by rw [e₂, e₁, List.append_assoc]⟩, by
    obtain ⟨m₁, e₁⟩ := h₁.pre
    obtain ⟨m₂, e₂⟩ := h₂.pre
    exact ⟨m₁ ++ m₂, by rw [e₂, e₁, List.append_assoc]⟩, fun h => h₂.symKeys (h₁.symKeys h)⟩

/-! ## Strings -/

theorem ofChar_ok {c : Char} (h : IsChar (c.toNat + 1)) :
    LexerClasses.ofChar c.toNat = .ok (charClass c) := by
  unfold LexerClasses.ofChar charFromU32
  rw [if_pos (isScalar_iff.2 h)]
  rfl

namespace AdvInv

variable {reps : List RepSym} {aux : List Sym} {done : List (Sym × List Piece)}
  {res : List (Sym × Hir)}

theorem charSyms (s : Text) (hs : ∀ c ∈ s, IsChar (c.toNat + 1)) : ∀ {st : State},
    AdvInv st reps aux done res →
    ∃ syms st', st.charSyms s = .ok (syms, st') ∧ AdvInv st' reps aux done res ∧
      SpellsChars st'.classes s syms ∧ Ext st st' [] (s.map charClass) ∧
      st'.lexIntern = st.lexIntern ∧ st'.lexical = st.lexical := by
  induction s with
  | nil => intro st h; exact ⟨[], st, rfl, h, .nil, .refl _, rfl, rfl⟩
  | cons c s ih =>
    intro st h
    obtain ⟨k, st₁, e1, h₁, hm, hx₁, hi₁, hl₁⟩ := h.classSym (charClass c)
    obtain ⟨syms, st₂, e2, h₂, hsp, hx₂, hi₂, hl₂⟩ := ih (fun c hc => hs c (by simp [hc])) h₁
    refine ⟨k :: syms, st₂, ?_, h₂, .cons (hx₂.classes _ hm) hsp, by simpa using hx₁.trans hx₂,
      hi₂.trans hi₁, hl₂.trans hl₁⟩
    unfold State.charSyms
    rw [ofChar_ok (hs c (by simp)), Res.bind_ok, e1]
    dsimp only
    rw [e2, Res.bind_ok]

/-- One more rule. -/
theorem rule {st st' : State} (h : AdvInv st reps aux done res) {A : Sym} {ps : List Piece}
    (hc : st'.classes = st.classes) (hA : A ∉ aux) (hA' : ¬ IsClass st.classes A)
    (hb : LoadInv st'.base reps (aux ++ st.classes.map Prod.snd) (done ++ [(A, ps)]))
    (hs : st'.base.cfg.src = st.base.cfg.src) : AdvInv st' reps aux (done ++ [(A, ps)]) res := by
  refine ⟨by rw [hc]; exact hb, by rw [hc]; exact h.cls, ?_, by rw [hc, hs]; exact h.unnamed⟩
  rw [hc]
  refine h.reg.mono h.cls (fun _ h => h) (fun e he => List.mem_append.2 (.inl he)) ?_
    (fun _ h => .inl h)
  intro B qs hm
  rcases List.mem_append.1 hm with hm | hm
  · exact .inl hm
  · cases List.mem_singleton.1 hm
    exact .inr ⟨hA, hA'⟩

end AdvInv

/-- The rule for a string. -/
def StrRule (st : State) (i : Nat) (s : Text) (d : Sym × List Piece) : Prop :=
  st.base.Named (lexName i) d.1 ∧ ∃ α, SpellsChars st.classes s α ∧ d.2 = α.map fun x => ⟨x, none⟩

theorem StrRule.mono {st st' : State} (hn : ∀ n s, st.base.Named n s → st'.base.Named n s)
    (hc : ∀ e ∈ st.classes, e ∈ st'.classes) {i : Nat} {s : Text} {d : Sym × List Piece}
    (h : StrRule st i s d) : StrRule st' i s d := by
  obtain ⟨h1, α, h2, h3⟩ := h
  exact ⟨hn _ _ h1, α, h2.imp fun _ _ h => hc _ h, h3⟩

/-- The piece stands for the element. -/
def ElemIs (parse : Text → Except String Hir) (st : State) (res : List (Sym × Hir)) :
    Elem → Piece → Prop
  | .name s rep, q => st.base.Named s q.sym ∧ q.rep = rep.least
  | .str s, q => (∃ i : Nat, st.lexIntern[i]? = some s ∧ st.base.Named (lexName i) q.sym) ∧ q.rep = none
  | .call _ arg, q => (∃ hir, parse arg = .ok hir ∧ (q.sym, hir) ∈ res) ∧ q.rep = none

theorem ElemIs.mono {parse : Text → Except String Hir} {st st' : State} {res res' : List (Sym × Hir)}
    (h : Keeps st st') {e : Elem} {q : Piece} (he : ElemIs parse st res e q) :
    ElemIs parse st' (res ++ res') e q := by
  cases e with
  | name s rep => exact ⟨h.named _ _ he.1, he.2⟩
  | str s =>
    obtain ⟨⟨i, h1, h2⟩, h3⟩ := he
    refine ⟨⟨i, ?_, h.named _ _ h2⟩, h3⟩
    obtain ⟨more, em⟩ := h.lex
    rw [em, List.getElem?_append_left (List.getElem?_eq_some_iff.1 h1).1, h1]
  | call func arg =>
    obtain ⟨⟨hir, h1, h2⟩, h3⟩ := he
    exact ⟨⟨hir, h1, List.mem_append.2 (.inl h2)⟩, h3⟩

/-! ## The state of the loop -/

/-- What the loop has seen: the names, the strings, the classes, the left sides in the lexer. -/
structure Seen where
  used : List Text := []
  strs : List Text := []
  keys : List LexerClasses := []
  lexLhs : List Text := []

/-- After an element. -/
def Seen.add (parse : Text → Except String Hir) (S : Seen) (e : Elem) : Seen :=
  { S with used := S.used ++ e.names, strs := S.strs ++ e.strings, keys := S.keys ++ e.classes parse }

/-- The state of the loop: the rules in `done` are those of expressions, of strings, and `cl`. -/
structure BuildInv (st : State) (reps : List RepSym) (aux : List Sym)
    (done : List (Sym × List Piece)) (res : List (Sym × Hir)) (cl : List (Sym × List Piece))
    (S : Seen) : Prop where
  adv : AdvInv st reps aux done res
  split : ∀ d ∈ done, d.1 ∈ aux ∨ (∃ (i : Nat) (s : Text), st.lexIntern[i]? = some s ∧
    StrRule st i s d) ∨ d ∈ cl
  cl : ∀ d ∈ cl, d ∈ done
  strs : ∀ (i : Nat) s, st.lexIntern[i]? = some s → ∃ d ∈ done, StrRule st i s d
  lexIntern : st.lexIntern = firstUses S.strs
  interned : ∀ n, n ∈ st.base.intern ↔ n ∈ S.used ∨ ∃ i, i < st.lexIntern.length ∧ n = lexName i
  keys : ∀ k, (∃ s, (k, s) ∈ st.classes) ↔ k ∈ S.keys
  lexLhs : ∀ n ∈ S.lexLhs, n ∈ S.used
  lexical : ∀ s, s ∈ st.lexical ↔ (∃ i, i < st.lexIntern.length ∧ st.base.Named (lexName i) s) ∨
    ∃ n ∈ S.lexLhs, st.base.Named n s

namespace BuildInv

variable {st : State} {reps : List RepSym} {aux : List Sym} {done : List (Sym × List Piece)}
  {res : List (Sym × Hir)} {cl : List (Sym × List Piece)} {S : Seen}

theorem new : BuildInv {} [] [] [] [] [] {} := by
  refine ⟨AdvInv.new, by simp, by simp, ?_, rfl, ?_, ?_, by simp, ?_⟩
  · intro i s h; cases h
  · intro n
    refine ⟨(fun h => by cases h), ?_⟩
    rintro (h | ⟨i, h, -⟩)
    · cases h
    · exact absurd h (Nat.not_lt_zero i)
  · intro k
    exact ⟨(fun ⟨s, h⟩ => by cases h), (fun h => by cases h)⟩
  · intro s
    refine ⟨(fun h => by cases h), ?_⟩
    rintro (⟨i, h, -⟩ | ⟨n, h, -⟩)
    · exact absurd h (Nat.not_lt_zero i)
    · cases h

/-- Names known before have the same symbols afterwards. -/
theorem named_iff (h : LoadInv st.base reps (aux ++ st.classes.map Prod.snd) done) {st' : State}
    {reps' : List RepSym} {extra' : List Sym} {done' : List (Sym × List Piece)}
    (h' : LoadInv st'.base reps' extra' done')
    (hn : ∀ n s, st.base.Named n s → st'.base.Named n s) {n : Text} (hm : n ∈ st.base.intern)
    {s : Sym} : st'.base.Named n s ↔ st.base.Named n s := by
  refine ⟨fun h1 => ?_, hn n s⟩
  obtain ⟨t, ht⟩ := h.named_of_mem hm
  rw [h'.named_fun h1 (hn _ _ ht)]
  exact ht

/-- A step that adds symbols and rules for expressions only. -/
theorem step (h : BuildInv st reps aux done res cl S) {st' : State} {reps' : List RepSym}
    {aux' : List Sym} {rs : List (Sym × List Piece)} {res' : List (Sym × Hir)} {ns : List Text}
    {ks : List LexerClasses} (h' : AdvInv st' reps' (aux ++ aux') (done ++ rs) res')
    (hrs : ∀ d ∈ rs, d.1 ∈ aux') (hx : Ext st st' ns ks) (hi : st'.lexIntern = st.lexIntern)
    (hl : st'.lexical = st.lexical) :
    BuildInv st' reps' (aux ++ aux') (done ++ rs) res' cl
      { S with used := S.used ++ ns, keys := S.keys ++ ks } := by
  have hmem : ∀ i, i < st.lexIntern.length → lexName i ∈ st.base.intern := fun i hi =>
    (h.interned _).2 (.inr ⟨i, hi, rfl⟩)
  have hmem' : ∀ n ∈ S.lexLhs, n ∈ st.base.intern := fun n hn =>
    (h.interned _).2 (.inl (h.lexLhs n hn))
  refine ⟨h', ?_, fun d hd => List.mem_append.2 (.inl (h.cl d hd)), ?_, hi.trans h.lexIntern, ?_, ?_,
    fun n hn => List.mem_append.2 (.inl (h.lexLhs n hn)), ?_⟩
  · intro d hd
    rcases List.mem_append.1 hd with hd | hd
    · rcases h.split d hd with h1 | ⟨i, s, h1, h2⟩ | h1
      · exact .inl (List.mem_append.2 (.inl h1))
      · exact .inr (.inl ⟨i, s, by rw [hi]; exact h1, h2.mono hx.base.named hx.classes⟩)
      · exact .inr (.inr h1)
    · exact .inl (List.mem_append.2 (.inr (hrs d hd)))
  · intro i s hs
    rw [hi] at hs
    obtain ⟨d, h1, h2⟩ := h.strs i s hs
    exact ⟨d, List.mem_append.2 (.inl h1), h2.mono hx.base.named hx.classes⟩
  · intro n
    rw [hx.base.intern, h.interned, hi]
    show _ ↔ n ∈ S.used ++ ns ∨ _
    rw [List.mem_append, or_right_comm]
  · intro k
    rw [hx.keys, h.keys]
    exact List.mem_append.symm
  · intro s
    rw [hl, h.lexical, hi]
    refine or_congr (exists_congr fun i => and_congr_right fun hlt => ?_)
      (exists_congr fun n => and_congr_right fun hn => ?_)
    · exact (named_iff h.adv.base h'.base hx.base.named (hmem i hlt)).symm
    · exact (named_iff h.adv.base h'.base hx.base.named (hmem' n hn)).symm

theorem call (p : Profile) (parse : Text → Except String Hir) (h : BuildInv st reps aux done res cl S)
    {arg : Text} {hir : Hir} (e : parse arg = .ok hir) (hp : hir.Plain) (argSpan : Nat)
    (span : Nat × Nat) :
    ∃ s st' aux' rs, st.call p parse "Regexp".toList arg argSpan span = .ok (.ok (s, st')) ∧
      BuildInv st' reps (aux ++ aux') (done ++ rs) (res ++ [(s, hir)]) cl
        (S.add parse (.call "Regexp".toList arg)) ∧ Step st st' ∧
      s < st'.base.cfg.numSyms ∧ ¬ IsRep reps s := by
  obtain ⟨r, m, -, e1, -⟩ := cfgFromHir_spec p hp
  obtain ⟨s, st', aux', rs, e2, h', hrs, hs, hx, hi, hl⟩ := h.adv.splice p hp e1
  have hb := h.step h' hrs hx hi hl
  refine ⟨s, st', aux', rs, ?_, ?_, hx.step hi, h'.base.apart s (AdvInv.mem_extra.2 hs)⟩
  · unfold State.call
    rw [if_neg (by simp), e]
    dsimp only
    rw [e1, Res.bind_ok]
    dsimp only
    rw [e2, Res.bind_ok]
  · have : S.add parse (.call "Regexp".toList arg) =
        { S with used := S.used ++ [], keys := S.keys ++ hir.letters.map Letter.ranges } := by
      unfold Seen.add Elem.classes
      dsimp only
      rw [e]
      simp [Elem.names, Elem.strings]
    rw [this]
    exact hb

theorem name (p : Profile) (parse : Text → Except String Hir) (h : BuildInv st reps aux done res cl S)
    (ident : Text) (rep : Rep) :
    ∃ s base new x, st.base.named p ident rep = .ok (s, base) ∧
      BuildInv { st with base := base } (reps ++ new) aux done res cl (S.add parse (.name ident rep)) ∧
      Step st { st with base := base } ∧ base.Named ident x ∧
      Piece.Is (reps ++ new) ⟨x, rep.least⟩ s := by
  obtain ⟨s, base, new, x, e, hb, hn, hp, hg⟩ := h.adv.base.named p ident rep
  have hx : Ext st { st with base := base } [ident] [] :=
    ⟨hg, fun _ h => h, by simp, rfl, rfl⟩
  have h' := h.adv.rebase (st' := { st with base := base }) rfl hb hg.steps.namesPre
  have hb' := h.step (st' := { st with base := base }) (aux' := []) (rs := [])
    (by simpa using h') (by simp) hx rfl rfl
  refine ⟨s, base, new, x, e, ?_, hx.step rfl, hn, hp⟩
  simpa [Seen.add, Elem.names, Elem.strings, Elem.classes] using hb'

theorem lexString (parse : Text → Except String Hir) (h : BuildInv st reps aux done res cl S)
    {s : Text} (hs : ∀ c ∈ s, IsChar (c.toNat + 1)) :
    ∃ x st' d, st.lexString s = .ok (x, st') ∧
      BuildInv st' reps aux (done ++ [d]) res cl (S.add parse (.str s)) ∧
      Step st st' ∧ ∃ i : Nat, st'.lexIntern[i]? = some s ∧ st'.base.Named (lexName i) x := by
  -- the number of the string
  obtain ⟨id, li, e0, hli, hid, hnew⟩ : ∃ id li, st.lexIntern.getOrIntern s = (id, li) ∧
      li = firstUses (S.strs ++ [s]) ∧ li[id]? = some s ∧
      (li = st.lexIntern ∧ id < st.lexIntern.length ∨
        li = st.lexIntern ++ [s] ∧ id = st.lexIntern.length) := by
    unfold StringInterner.getOrIntern
    rw [firstUses_concat, ← h.lexIntern]
    by_cases hm : s ∈ st.lexIntern
    · rw [if_pos hm, if_pos hm]
      exact ⟨_, _, rfl, rfl, List.getElem?_idxOf hm, .inl ⟨rfl, List.idxOf_lt_length_of_mem hm⟩⟩
    · rw [if_neg hm, if_neg hm]
      exact ⟨_, _, rfl, rfl, by simp, .inr ⟨rfl, rfl⟩⟩
  have hpre : ∃ more, li = st.lexIntern ++ more := by
    rcases hnew with ⟨h1, -⟩ | ⟨h1, -⟩
    · exact ⟨[], by simp [h1]⟩
    · exact ⟨_, h1⟩
  have hlt : ∀ i, i < li.length ↔ i < st.lexIntern.length ∨ i = id := by
    intro i
    rcases hnew with ⟨h1, h2⟩ | ⟨h1, h2⟩ <;> rw [h1]
    · omega
    · rw [List.length_append, List.length_singleton]; omega
  have hold : ∀ (i : Nat) t, st.lexIntern[i]? = some t → li[i]? = some t := by
    intro i t hi
    obtain ⟨more, rfl⟩ := hpre
    rw [List.getElem?_append_left (List.getElem?_eq_some_iff.1 hi).1, hi]
  have hget : ∀ (i : Nat) t, li[i]? = some t → st.lexIntern[i]? = some t ∨ (i = id ∧ t = s) := by
    intro i t hi
    by_cases hil : i < st.lexIntern.length
    · obtain ⟨more, rfl⟩ := hpre
      rw [List.getElem?_append_left hil] at hi
      exact .inl hi
    · have : i = id := by
        have := (hlt i).1 (List.getElem?_eq_some_iff.1 hi).1
        omega
      subst this
      rw [hid] at hi
      exact .inr ⟨rfl, (Option.some.inj hi).symm⟩
  -- its symbol
  obtain ⟨x, base, e1, h₁, hn₁, hg₁⟩ := h.adv.base.symFor (lexName id)
  have ha₁ : AdvInv { st with lexIntern := li, base := base } reps aux done res :=
    h.adv.rebase rfl h₁ hg₁.steps.namesPre
  obtain ⟨syms, st₂, e2, h₂, hsp, hx₂, hi₂, hl₂⟩ := ha₁.charSyms s hs
  have hn₂ := hx₂.base.named _ _ hn₁
  have hlim := h₂.base.g.limit
  have hxl := h₂.base.named_lt hn₂
  have hno := h₂.named_not hn₂
  let r : CfgRule := ⟨x, syms, History.ofRoot (.rule x)⟩
  let st' : State := { st₂ with
    base := { st₂.base with cfg := st₂.base.cfg.pushRule r }
    lexical := x :: st₂.lexical }
  have h₃ : AdvInv st' reps aux (done ++ [(x, syms.map fun y => ⟨y, none⟩)]) res := by
    refine h₂.rule rfl hno.1 hno.2 ?_ rfl
    refine h₂.base.plain [r] ?_
    intro r' hr'
    rw [List.mem_singleton] at hr'
    subst hr'
    refine ⟨⟨hxl.1, hxl.2.1⟩, fun y hy => ?_⟩
    obtain ⟨c, -, hc⟩ := forall₂_right hsp hy
    exact h₂.class_lt ⟨_, hc⟩
  have hx : Ext { st with lexIntern := li, base := base } st' [] (s.map charClass) := by
    refine ⟨?_, hx₂.classes, hx₂.keys, hx₂.lhsInParser, hx₂.actions⟩
    have := hx₂.base.trans (LoadInv.Grows.plain st₂.base [r] (by
      intro r' hr'
      rw [List.mem_singleton] at hr'
      subst hr'
      exact .inl rfl))
    rw [List.append_nil] at this
    exact this
  have hg : LoadInv.Grows st.base st'.base [lexName id] := by
    have := hg₁.trans hx.base
    rw [List.append_nil] at this
    exact this
  have hi' : st'.lexIntern = li := hi₂
  have hmem : ∀ i, i < st.lexIntern.length → lexName i ∈ st.base.intern := fun i hi =>
    (h.interned _).2 (.inr ⟨i, hi, rfl⟩)
  have hmem' : ∀ n ∈ S.lexLhs, n ∈ st.base.intern := fun n hn =>
    (h.interned _).2 (.inl (h.lexLhs n hn))
  have hnx : st'.base.Named (lexName id) x := hn₂
  have hst : Step st st' := ⟨hg.named, hx.classes, hi'.symm ▸ hpre, hx.lhsInParser, hx.actions,
    hg.roots, hg.empty, hg.pre, hg.steps, hg.keys⟩
  have hstr : StrRule st' id s (x, syms.map fun y => ⟨y, none⟩) := ⟨hnx, syms, hsp, rfl⟩
  refine ⟨x, st', (x, syms.map fun y => ⟨y, none⟩), ?_, ⟨h₃, ?_,
    fun d hd => List.mem_append.2 (.inl (h.cl d hd)), ?_, ?_, ?_, ?_, ?_, ?_⟩, hst, id,
    hi'.symm ▸ hid, hnx⟩
  · unfold State.lexString
    rw [e0]
    dsimp only
    rw [e1]
    dsimp only
    rw [e2, Res.bind_ok]
    dsimp only
    rw [addRule_push hlim, Res.bind_ok]
  · intro d hd
    rcases List.mem_append.1 hd with hd | hd
    · rcases h.split d hd with h1 | ⟨i, t, h1, h2⟩ | h1
      · exact .inl h1
      · exact .inr (.inl ⟨i, t, by rw [hi']; exact hold i t h1, h2.mono hg.named hst.classes⟩)
      · exact .inr (.inr h1)
    · rw [List.mem_singleton] at hd
      subst hd
      exact .inr (.inl ⟨id, s, by rw [hi']; exact hid, hstr⟩)
  · intro i t hi
    rw [hi'] at hi
    rcases hget i t hi with h1 | ⟨rfl, rfl⟩
    · obtain ⟨d, h2, h3⟩ := h.strs i t h1
      exact ⟨d, List.mem_append.2 (.inl h2), h3.mono hg.named hst.classes⟩
    · exact ⟨_, List.mem_append.2 (.inr (List.mem_singleton.2 rfl)), hstr⟩
  · rw [hi', hli]; rfl
  · intro n
    rw [hg.intern, h.interned, hi']
    show _ ↔ n ∈ S.used ++ [] ∨ _
    rw [List.append_nil, List.mem_singleton]
    constructor
    · rintro ((h1 | ⟨i, h1, h2⟩) | h1)
      · exact .inl h1
      · exact .inr ⟨i, (hlt i).2 (.inl h1), h2⟩
      · exact .inr ⟨id, (hlt id).2 (.inr rfl), h1⟩
    · rintro (h1 | ⟨i, h1, h2⟩)
      · exact .inl (.inl h1)
      · rcases (hlt i).1 h1 with h3 | h3
        · exact .inl (.inr ⟨i, h3, h2⟩)
        · exact .inr (h3 ▸ h2)
  · intro k
    rw [hx.keys]
    show (∃ t, (k, t) ∈ st.classes) ∨ _ ↔ k ∈ S.keys ++ s.map charClass
    rw [h.keys, List.mem_append]
  · intro n hn
    exact List.mem_append.2 (.inl (h.lexLhs n hn))
  · intro y
    show y ∈ x :: st₂.lexical ↔ _
    rw [List.mem_cons, hl₂, hi']
    show y = x ∨ y ∈ st.lexical ↔ _
    rw [h.lexical]
    have k1 : ∀ i, i < st.lexIntern.length → (st'.base.Named (lexName i) y ↔
        st.base.Named (lexName i) y) := fun i hi =>
      named_iff h.adv.base h₃.base hg.named (hmem i hi)
    have k2 : ∀ n ∈ S.lexLhs, (st'.base.Named n y ↔ st.base.Named n y) := fun n hn =>
      named_iff h.adv.base h₃.base hg.named (hmem' n hn)
    constructor
    · rintro (rfl | ⟨i, h1, h2⟩ | ⟨n, h1, h2⟩)
      · exact .inl ⟨id, (hlt id).2 (.inr rfl), hnx⟩
      · exact .inl ⟨i, (hlt i).2 (.inl h1), (k1 i h1).2 h2⟩
      · exact .inr ⟨n, h1, (k2 n h1).2 h2⟩
    · rintro (⟨i, h1, h2⟩ | ⟨n, h1, h2⟩)
      · rcases (hlt i).1 h1 with h3 | h3
        · exact .inr (.inl ⟨i, h3, (k1 i h3).1 h2⟩)
        · subst h3
          exact .inl (h₃.base.named_fun h2 hnx)
      · exact .inr (.inr ⟨n, h1, (k2 n h1).1 h2⟩)

theorem first (h : BuildInv st reps aux done res cl S) (A : Sym) :
    BuildInv { st with base := st.base.first A } reps aux done res cl S := by
  unfold LoadState.first
  split
  · exact ⟨⟨h.adv.base.change (h.adv.base.g.congr rfl rfl rfl) rfl, h.adv.cls, h.adv.reg,
      h.adv.unnamed⟩, h.split, h.cl, h.strs, h.lexIntern, h.interned, h.keys, h.lexLhs, h.lexical⟩
  · exact h

theorem inParser (h : BuildInv st reps aux done res cl S) (l : List Nat) :
    BuildInv { st with lhsInParser := l } reps aux done res cl S :=
  ⟨⟨h.adv.base, h.adv.cls, h.adv.reg, h.adv.unnamed⟩, h.split, h.cl, h.strs, h.lexIntern,
    h.interned, h.keys, h.lexLhs, h.lexical⟩

theorem elem_lt {parse : Text → Except String Hir} (h : BuildInv st reps aux done res cl S) {e : Elem}
    {q : Piece} (he : ElemIs parse st res e q) : q.sym < st.base.cfg.numSyms ∧ ¬ IsRep reps q.sym := by
  cases e with
  | name s rep =>
    have := h.adv.base.named_lt he.1
    exact ⟨this.1, this.2.1⟩
  | str s =>
    obtain ⟨⟨i, -, h1⟩, -⟩ := he
    have := h.adv.base.named_lt h1
    exact ⟨this.1, this.2.1⟩
  | call func arg =>
    obtain ⟨⟨hir, -, h1⟩, -⟩ := he
    exact h.adv.base.apart _ (AdvInv.mem_extra.2 (h.adv.reg.lang _ _ h1).1)

/-- The rule of a clause. -/
theorem clause {parse : Text → Except String Hir} (h : BuildInv st reps aux done res cl S) {n : Text}
    {A : Sym} (hA : st.base.Named n A) {es : List Elem} {ps : List Piece} {syms : List Sym}
    (he : List.Forall₂ (ElemIs parse st res) es ps) (hp : List.Forall₂ (Piece.Is reps) ps syms)
    (hist : History) (isLexer : Bool) (acts : List (Nat × Option Text)) :
    BuildInv { st with
      base := { st.base with cfg := st.base.cfg.pushRule ⟨A, syms, hist⟩ }
      lexical := if isLexer then A :: st.lexical else st.lexical
      actions := acts } reps aux (done ++ [(A, ps)]) res (cl ++ [(A, ps)])
      { S with used := S.used ++ [n], lexLhs := if isLexer then S.lexLhs ++ [n] else S.lexLhs } := by
  have hAl := h.adv.base.named_lt hA
  have hno := h.adv.named_not hA
  have hb := h.adv.base.change (b := st.base.internEmpty) (h.adv.base.g.rule (hist := hist) hAl.1 hAl.2.1
    (by
      intro q hq
      obtain ⟨e, -, h1⟩ := forall₂_right he hq
      exact h.elem_lt h1) hp) rfl
  refine ⟨h.adv.rule rfl hno.1 hno.2 hb rfl, ?_, ?_, ?_, h.lexIntern, ?_, h.keys, ?_, ?_⟩
  · intro d hd
    rcases List.mem_append.1 hd with hd | hd
    · rcases h.split d hd with h1 | h1 | h1
      · exact .inl h1
      · exact .inr (.inl h1)
      · exact .inr (.inr (List.mem_append.2 (.inl h1)))
    · exact .inr (.inr (List.mem_append.2 (.inr hd)))
  · intro d hd
    rcases List.mem_append.1 hd with hd | hd
    · exact List.mem_append.2 (.inl (h.cl d hd))
    · exact List.mem_append.2 (.inr hd)
  · intro i s hi
    obtain ⟨d, h1, h2⟩ := h.strs i s hi
    exact ⟨d, List.mem_append.2 (.inl h1), h2⟩
  · intro m
    show m ∈ st.base.intern ↔ m ∈ S.used ++ [n] ∨ _
    rw [h.interned, List.mem_append, List.mem_singleton]
    have := (h.interned n).1 (LoadInv.mem_of_named hA)
    constructor
    · rintro (h1 | h1)
      · exact .inl (.inl h1)
      · exact .inr h1
    · rintro ((h1 | rfl) | h1)
      · exact .inl h1
      · exact this
      · exact .inr h1
  · intro m hm
    cases isLexer with
    | false => exact List.mem_append.2 (.inl (h.lexLhs m hm))
    | true =>
      rcases List.mem_append.1 hm with hm | hm
      · exact List.mem_append.2 (.inl (h.lexLhs m hm))
      · exact List.mem_append.2 (.inr hm)
  · intro s
    cases isLexer with
    | false => exact h.lexical s
    | true =>
      show s ∈ A :: st.lexical ↔ (∃ i, i < st.lexIntern.length ∧ st.base.Named (lexName i) s) ∨
        ∃ m ∈ S.lexLhs ++ [n], st.base.Named m s
      rw [List.mem_cons, h.lexical]
      constructor
      · rintro (rfl | h1 | ⟨m, h1, h2⟩)
        · exact .inr ⟨n, by simp, hA⟩
        · exact .inl h1
        · exact .inr ⟨m, by simp [h1], h2⟩
      · rintro (h1 | ⟨m, h1, h2⟩)
        · exact .inr (.inl h1)
        · rcases List.mem_append.1 h1 with h1 | h1
          · exact .inr (.inr ⟨m, h1, h2⟩)
          · rw [List.mem_singleton] at h1
            subst h1
            exact .inl (h.adv.base.named_fun h2 hA)

end BuildInv

/-! ## Right sides -/

/-- The token number in the error for a fragment. -/
def Fragment.errorLine : Fragment → Nat
  | .call func _ argSpan span => if func ≠ "Regexp".toList then span.1 else argSpan
  | .lex _ _ => 0
  | .rhs _ _ => 0

/-- The error for a fragment. -/
def Fragment.fault (parse : Text → Except String Hir) (f : Fragment) : Option LoadError :=
  (f.elem.reason parse).map fun r => ⟨r.1, f.errorLine % 2 ^ 32, 1, none⟩

theorem fragment_fault (p : Profile) (parse : Text → Except String Hir) (st : State) {f : Fragment}
    {err : LoadError} (h : f.fault parse = some err) : st.fragment p parse f = .ok (.error err) := by
  cases f with
  | rhs ident rep => cases h
  | lex s span => cases h
  | call func arg argSpan span =>
    unfold Fragment.fault Fragment.elem Elem.reason Fragment.errorLine at h
    unfold State.fragment
    dsimp only at h ⊢
    unfold State.call
    by_cases hf : func ≠ "Regexp".toList
    · rw [if_pos hf] at h ⊢
      rw [if_pos hf] at h
      rw [← Option.some.inj h]
    · rw [if_neg hf] at h ⊢
      rw [if_neg hf] at h
      cases ep : parse arg with
      | ok hir => rw [ep] at h; cases h
      | error e =>
        rw [ep] at h
        rw [← Option.some.inj h]

theorem fragment_ok (p : Profile) {parse : Text → Except String Hir} {st : State}
    {reps : List RepSym} {aux : List Sym} {done : List (Sym × List Piece)}
    {res : List (Sym × Hir)} {cl : List (Sym × List Piece)} {S : Seen}
    (h : BuildInv st reps aux done res cl S) {f : Fragment} (hs : f.elem.Safe parse)
    (hf : f.fault parse = none) :
    ∃ s st' new aux' rs res' q, st.fragment p parse f = .ok (.ok (s, st')) ∧
      BuildInv st' (reps ++ new) (aux ++ aux') (done ++ rs) (res ++ res') cl (S.add parse f.elem) ∧
      Step st st' ∧ Piece.Is (reps ++ new) q s ∧ ElemIs parse st' (res ++ res') f.elem q := by
  cases f with
  | rhs ident rep =>
    obtain ⟨s, base, new, x, e, h', hst, hn, hp⟩ := h.name p parse ident rep
    refine ⟨s, { st with base := base }, new, [], [], [], ⟨x, rep.least⟩, ?_, by simpa [Fragment.elem] using h', hst, hp,
      hn, rfl⟩
    unfold State.fragment
    dsimp only
    rw [e, Res.bind_ok]
  | lex s span =>
    obtain ⟨x, st', d, e, h', hst, i, hi, hn⟩ := h.lexString parse (s := s) hs
    refine ⟨x, st', [], [], [d], [], ⟨x, none⟩, ?_, by simpa [Fragment.elem] using h', hst, rfl, ⟨i, hi, hn⟩, rfl⟩
    unfold State.fragment
    dsimp only
    rw [e, Res.bind_ok]
  | call func arg argSpan span =>
    unfold Fragment.fault Fragment.elem Elem.reason at hf
    dsimp only at hf
    by_cases he : func ≠ "Regexp".toList
    · rw [if_pos he] at hf; cases hf
    · rw [if_neg he] at hf
      rw [ne_eq, not_not] at he
      subst he
      cases ep : parse arg with
      | error e => rw [ep] at hf; cases hf
      | ok hir =>
        obtain ⟨s, st', aux', rs, e, h', hst, hlt⟩ := h.call p parse ep (hs hir ep) argSpan span
        exact ⟨s, st', [], aux', rs, [(s, hir)], ⟨s, none⟩, e, by simpa [Fragment.elem] using h', hst, rfl,
          ⟨hir, ep, by simp⟩, rfl⟩

theorem fragments_fault (p : Profile) {parse : Text → Except String Hir} {err : LoadError}
    (fs : List Fragment) (hs : ∀ f ∈ fs, f.elem.Safe parse) :
    ∀ {st : State} {reps : List RepSym} {aux : List Sym} {done : List (Sym × List Piece)}
    {res : List (Sym × Hir)} {cl : List (Sym × List Piece)} {S : Seen},
    BuildInv st reps aux done res cl S → fs.findSome? (Fragment.fault parse) = some err →
    fragments p parse st fs = .ok (.error err) := by
  induction fs with
  | nil => intro st reps aux done res cl S h he; cases he
  | cons f fs ih =>
    intro st reps aux done res cl S h he
    unfold fragments
    rw [List.findSome?_cons] at he
    cases hf : f.fault parse with
    | some err' =>
      rw [hf] at he
      cases he
      rw [fragment_fault p parse st hf, Res.bind_ok]
    | none =>
      rw [hf] at he
      obtain ⟨s, st', new, aux', rs, res', q, e, h', -, -, -⟩ := fragment_ok p h (hs f (by simp)) hf
      rw [e, Res.bind_ok]
      dsimp only
      rw [ih (fun f hf => hs f (by simp [hf])) h' he, Res.bind_ok]

theorem fragments_ok (p : Profile) {parse : Text → Except String Hir} (fs : List Fragment)
    (hs : ∀ f ∈ fs, f.elem.Safe parse) :
    ∀ {st : State} {reps : List RepSym} {aux : List Sym} {done : List (Sym × List Piece)}
    {res : List (Sym × Hir)} {cl : List (Sym × List Piece)} {S : Seen},
    BuildInv st reps aux done res cl S → fs.findSome? (Fragment.fault parse) = none →
    ∃ syms st' new aux' rs res' ps, fragments p parse st fs = .ok (.ok (syms, st')) ∧
      BuildInv st' (reps ++ new) (aux ++ aux') (done ++ rs) (res ++ res') cl
        ((fs.map Fragment.elem).foldl (Seen.add parse) S) ∧ Step st st' ∧
      List.Forall₂ (Piece.Is (reps ++ new)) ps syms ∧
      List.Forall₂ (ElemIs parse st' (res ++ res')) (fs.map Fragment.elem) ps := by
  induction fs with
  | nil =>
    intro st reps aux done res cl S h _
    exact ⟨[], st, [], [], [], [], [], rfl, by simpa using h, .refl _, .nil, .nil⟩
  | cons f fs ih =>
    intro st reps aux done res cl S h he
    rw [List.findSome?_cons] at he
    cases hf : f.fault parse with
    | some err' => rw [hf] at he; cases he
    | none =>
      rw [hf] at he
      obtain ⟨s, st₁, new₁, aux₁, rs₁, res₁, q, e1, h₁, hst₁, hq, hel⟩ :=
        fragment_ok p h (hs f (by simp)) hf
      obtain ⟨syms, st₂, new₂, aux₂, rs₂, res₂, ps, e2, h₂, hst₂, hps, hels⟩ :=
        ih (fun f hf => hs f (by simp [hf])) h₁ he
      refine ⟨s :: syms, st₂, new₁ ++ new₂, aux₁ ++ aux₂, rs₁ ++ rs₂, res₁ ++ res₂, q :: ps, ?_, ?_,
        hst₁.trans hst₂, ?_, ?_⟩
      · unfold fragments
        rw [e1, Res.bind_ok]
        dsimp only
        rw [e2, Res.bind_ok]
      · simpa using h₂
      · rw [← List.append_assoc]
        exact .cons (LoadInv.piece_mono hq) hps
      · rw [← List.append_assoc]
        exact .cons (hel.mono hst₂.keeps) hels

end Verif.Advanced
