import Verif.Proofs.Regexp
import Verif.Props.Lexer

/-! # Properties C65, C89, C90: regular expressions -/

namespace Verif

open Translator

/-- The whole translation. -/
theorem cfgFromHir_spec (p : Profile) {hir : Hir} (hp : hir.Plain) :
    ∃ g m root, cfgFromHir p hir = .ok (g, m) ∧ g.WF ∧ g.roots = [root] ∧ root < g.numSyms ∧
      m.Proper ∧ m.classes.Pairwise (fun e e' => ClassLt e.1 e'.1) ∧
      (∀ a, g.Term a ↔ ∃ rs, (rs, a) ∈ m.classes) ∧
      (∀ rs, (∃ a, (rs, a) ∈ m.classes) ↔ ∃ l ∈ hir.letters, l.ranges = rs) ∧
      ∀ w, g.Lang root w ↔ ∃ ls, hir.Matches ls ∧
        List.Forall₂ (fun l s => (l.ranges, s) ∈ m.classes) ls w := by
  have h0 : Translator.Inv {} [] := by
    refine ⟨(by intro r hr; cases hr), rfl, ?_, by simp, by simp, by simp, by simp, by simp⟩
    intro a
    simp only [List.not_mem_nil, exists_const, or_self, iff_false]
    rintro ⟨h, -⟩
    exact Nat.not_lt_zero _ h
  obtain ⟨x, t1, a1, a2, a3⟩ := hirWalk_spec p hir hp _ _ h0
  obtain ⟨root, t2, b1, b2, b3, b4, b5, b6⟩ := oneSym_spec a3.inv a2 a3.good
  have hroot : t1.rootSym x = t1.oneSym x := by
    cases x with
    | nil => exact absurd rfl a2
    | cons α x => rfl
  have hletters : ∀ rs, (∃ a, (rs, a) ∈ t2.classMap.classes) ↔
      ∃ l ∈ hir.letters, l.ranges = rs := by
    intro rs
    constructor
    · rintro ⟨a, ha⟩
      rw [b5] at ha
      rcases a3.only _ ha with h | ⟨l, h1, h2⟩
      · simp at h
      · exact ⟨l, h1, h2.symm⟩
    · rintro ⟨l, h1, rfl⟩
      obtain ⟨s, hs⟩ := a3.known l h1
      exact ⟨s, b3.classes _ hs⟩
  refine ⟨t2.cfg.setRoots [root], t2.classMap, root, ?_, b2.wf, rfl, b4.1, ⟨b2.syms, ?_⟩,
    b2.asc.imp classLt_iff.1,
    ?_, hletters, ?_⟩
  · unfold cfgFromHir
    rw [a1]
    simp only [Res.bind_ok, hroot, b1]
  · rintro ⟨rs, s⟩ he
    obtain ⟨l, hl, rfl⟩ := (hletters rs).1 ⟨s, he⟩
    exact plain_letters hir hp l hl
  · intro a
    exact (b2.term a).trans (by simp)
  · intro w
    refine (b6 w).trans ?_
    rw [a3.lang]
    unfold Spell
    rw [b5]

/-- **C65** (partial: the bounds of every repetition fit the sequence rules). Translating an
expression without look-around succeeds. The terminals of the grammar are the class symbols; there
is one for each different class of the expression, in the order of the classes; and the root derives exactly the strings of
class symbols described by the expression. -/
theorem C65_language_partial (p : Profile) {hir : Hir} (hp : hir.Plain) :
    ∃ g m root, cfgFromHir p hir = .ok (g, m) ∧ g.WF ∧ g.roots = [root] ∧ root < g.numSyms ∧
      m.classes.Pairwise (fun e e' => ClassLt e.1 e'.1) ∧ (m.classes.map Prod.snd).Nodup ∧
      (∀ a, g.Term a ↔ ∃ rs, (rs, a) ∈ m.classes) ∧
      (∀ rs, (∃ a, (rs, a) ∈ m.classes) ↔ ∃ l ∈ hir.letters, l.ranges = rs) ∧
      ∀ w, g.Lang root w ↔ ∃ ls, hir.Matches ls ∧
        List.Forall₂ (fun l s => (l.ranges, s) ∈ m.classes) ls w := by
  obtain ⟨g, m, root, h1, h2, h3, h4, h5, h6, h7, h8, h9⟩ := cfgFromHir_spec p hp
  exact ⟨g, m, root, h1, h2, h3, h4, h6, h5.1, h7, h8, h9⟩

/-- The expression `(foo|[bc]a*){2,5}\\d|`. -/
def exHir : Hir :=
  .alternation [
    .concat [
      .repetition 2 (some 5) (.capture (.alternation [
        .literal [0x66, 0x6F, 0x6F],
        .concat [.cls [(0x62, 0x63)], .repetition 0 none (.literal [0x61])]])),
      .cls [(0x30, 0x39), (0x660, 0x669)]],
    .empty]

theorem exHir_plain : exHir.Plain := by
  simp [exHir, Hir.Plain, Hir.PlainAll, Sequence.InU32, Sequence.Fits, Apart]

/-- The rules made from the expression. -/
example : (fun (r : Cfg × LexerMap) => (r.1.rules.map fun r => (r.lhs, r.rhs), r.1.roots)) <$>
    cfgFromHir .debug exHir =
    .ok ([(4, []), (4, [6]), (6, [5]), (6, [6, 5]), (7, [1, 2, 2]), (7, [3, 4]), (0, [8, 9]),
      (9, [10]), (9, [11, 10]), (11, [7, 7]), (10, [8]), (10, [11]), (8, [7]), (13, [0, 12]),
      (13, [])], [13]) := by decide +kernel

example : (fun (r : Cfg × LexerMap) => r.2.classes) <$> cfgFromHir .debug exHir =
    .ok [([(48, 57), (1632, 1641)], 12), ([(97, 98)], 5), ([(98, 99)], 3), ([(102, 103)], 1),
      ([(111, 112)], 2)] := by decide +kernel

/-- **C65** is violated by large bounds of repetition: with debug checks translating
`a{2147483650}` panics. -/
theorem C65_violated_large_bound :
    cfgFromHir .debug (.repetition (2 ^ 31 + 2) (some (2 ^ 31 + 2)) (.literal [97])) = .panic := by
  decide +kernel

/-- **C65** is violated by look-around: the translation of `\\ba` panics. -/
theorem C65_violated_look (p : Profile) :
    cfgFromHir p (.concat [.look, .literal [97]]) = .panic := by
  cases p <;> decide +kernel

/-! ## The lexer map of an expression -/

/-- The ranges of the classes of an expression can be entered into the tables of a lexer map. -/
def Hir.Tabular (hir : Hir) : Prop :=
  ∀ rs, .cls rs ∈ hir.letters → ∀ r ∈ rs, (r.1 < 128 → r.2 < 256) ∧ IsChar (r.2 + 1)

theorem cfgFromHir_lexer (p : Profile) {hir : Hir} (hp : hir.Plain) :
    ∃ g m root, cfgFromHir p hir = .ok (g, m) ∧ g.roots = [root] ∧
      m.Proper ∧
      ((∃ m', m.compute = .ok m') ↔ hir.Tabular) ∧
      (∀ rs, (∃ a, (rs, a) ∈ m.classes) ↔ ∃ l ∈ hir.letters, l.ranges = rs) ∧
      ∀ w, g.Lang root w ↔ ∃ ls, hir.Matches ls ∧
        List.Forall₂ (fun l s => (l.ranges, s) ∈ m.classes) ls w := by
  obtain ⟨g, m, root, h1, h2, h3, h4, h5, h6, h7, h8, h9⟩ := cfgFromHir_spec p hp
  refine ⟨g, m, root, h1, h3, h5, ?_, h8, h9⟩
  rw [(C64_compute_partial m).2]
  constructor
  · intro h rs hl r hr
    obtain ⟨a, ha⟩ := (h8 rs).2 ⟨_, hl, rfl⟩
    exact h _ ha r hr
  · rintro h ⟨rs, a⟩ he r hr
    obtain ⟨l, hl, rfl⟩ := (h8 rs).1 ⟨a, he⟩
    cases l with
    | cls rs => exact h rs hl r hr
    | byte b =>
      have hb : b < 255 := plain_bytes hir hp b hl
      simp only [Letter.ranges, List.mem_singleton] at hr
      subst hr
      exact ⟨by simp only; omega, by simp only; omega, by simp only; omega⟩

/-- **C89** The lexer map made with a translated expression can be computed exactly if the ranges of
its classes fit the tables, and then looking up a character gives exactly the symbols of the letters
of the expression that contain it. -/
theorem C89_lookup (p : Profile) {hir : Hir} (hp : hir.Plain) :
    ∃ g m, cfgFromHir p hir = .ok (g, m) ∧ ((∃ m', m.compute = .ok m') ↔ hir.Tabular) ∧
      ∀ m', m.compute = .ok m' → ∀ c, ∃ syms, m'.get c = .ok syms ∧
        ∀ s, s ∈ syms ↔ ∃ l ∈ hir.letters, (l.ranges, s) ∈ m.classes ∧ InRanges l.ranges c := by
  obtain ⟨g, m, root, h1, h2, h3, h5, h6, h7⟩ := cfgFromHir_lexer p hp
  refine ⟨g, m, h1, h5, fun m' hm c => ?_⟩
  obtain ⟨l, a1, a2⟩ := get_spec h3 hm c
  refine ⟨l, a1, fun s => (a2 s).trans ⟨?_, ?_⟩⟩
  · rintro ⟨rs, b1, b2⟩
    obtain ⟨l, hl, rfl⟩ := (h6 rs).1 ⟨s, b1⟩
    exact ⟨l, hl, b1, b2⟩
  · rintro ⟨l, -, b1, b2⟩
    exact ⟨_, b1, b2⟩

theorem exHir_tabular : exHir.Tabular := by
  have : ∀ l ∈ exHir.letters, ∀ r ∈ l.ranges, (r.1 < 128 → r.2 < 256) ∧ IsChar (r.2 + 1) := by
    decide +kernel
  exact fun rs h => this _ h

/-! ## Texts -/

/-- **C90** When the map can be computed, a text is accepted by the grammar, each character being
read as one of the symbols looked up for it, if and only if its characters lie in the letters of a
string described by the expression. -/
theorem C90_text (p : Profile) {hir : Hir} (hp : hir.Plain) (ht : hir.Tabular) :
    ∃ g m m' root, cfgFromHir p hir = .ok (g, m) ∧ g.roots = [root] ∧ m.compute = .ok m' ∧
      ∀ text : List Nat,
        (∃ w, g.Lang root w ∧
          List.Forall₂ (fun c s => ∃ syms, m'.get c = .ok syms ∧ s ∈ syms) text w) ↔
        ∃ ls, hir.Matches ls ∧ List.Forall₂ (fun c (l : Letter) => InRanges l.ranges c) text ls := by
  obtain ⟨g, m, root, h1, h2, h3, h5, h6, h7⟩ := cfgFromHir_lexer p hp
  obtain ⟨m', hm⟩ := h5.2 ht
  refine ⟨g, m, m', root, h1, h2, hm, fun text => ⟨?_, ?_⟩⟩
  · rintro ⟨w, a1, a2⟩
    obtain ⟨ls, b1, b2⟩ := (h7 w).1 a1
    refine ⟨ls, b1, ?_⟩
    clear a1 b1
    induction b2 generalizing text with
    | nil => cases a2; exact .nil
    | @cons l s ls w hl b2 ih =>
      cases a2 with
      | @cons c _ text _ hc a2 =>
        refine .cons ?_ (ih _ a2)
        obtain ⟨syms, c1, c2⟩ := hc
        obtain ⟨syms', c3, c4⟩ := get_spec h3 hm c
        rw [c1] at c3
        cases c3
        obtain ⟨rs, c5, c6⟩ := (c4 s).1 c2
        have : (rs, s) = (l.ranges, s) :=
          List.inj_on_of_nodup_map h3.1 c5 hl rfl
        cases this
        exact c6
  · rintro ⟨ls, a1, a2⟩
    have hl : ∀ l ∈ ls, ∃ s, (l.ranges, s) ∈ m.classes := fun l h =>
      (h6 _).2 ⟨l, matches_letters hir ls a1 l h, rfl⟩
    have : ∃ w, List.Forall₂ (fun (l : Letter) s => (l.ranges, s) ∈ m.classes) ls w ∧
        List.Forall₂ (fun c s => ∃ syms, m'.get c = .ok syms ∧ s ∈ syms) text w := by
      clear a1
      induction a2 with
      | nil => exact ⟨[], .nil, .nil⟩
      | @cons c l text ls hc a2 ih =>
        obtain ⟨w, b1, b2⟩ := ih fun l h => hl l (by simp [h])
        obtain ⟨s, hs⟩ := hl l (by simp)
        obtain ⟨syms, c1, c2⟩ := get_spec h3 hm c
        exact ⟨s :: w, .cons hs b1, .cons ⟨syms, c1, (c2 s).2 ⟨_, hs, hc⟩⟩ b2⟩
    obtain ⟨w, b1, b2⟩ := this
    exact ⟨w, (h7 w).2 ⟨ls, a1, b1⟩, b2⟩

/-- The text `gpbc7`: each of its characters is the one after a letter or in a class. -/
example : ∃ ls, exHir.Matches ls ∧
    List.Forall₂ (fun c (l : Letter) => InRanges l.ranges c) [0x67, 0x70, 0x6F, 0x62, 0x62, 0x37]
      ls := by
  refine ⟨[.byte 0x66, .byte 0x6F, .byte 0x6F, .cls [(0x62, 0x63)], .byte 0x61,
    .cls [(0x30, 0x39), (0x660, 0x669)]], ?_, by decide +kernel⟩
  refine .inl ⟨[.byte 0x66, .byte 0x6F, .byte 0x6F, .cls [(0x62, 0x63)], .byte 0x61],
    [.cls [(0x30, 0x39), (0x660, 0x669)]], rfl, ?_, _, [], rfl, rfl, rfl⟩
  refine ⟨[[.byte 0x66, .byte 0x6F, .byte 0x6F], [.cls [(0x62, 0x63)], .byte 0x61]], by decide,
    fun e he => by cases he; decide, ?_, rfl⟩
  intro v hv
  simp only [List.mem_cons, List.not_mem_nil, or_false] at hv
  rcases hv with rfl | rfl
  · exact .inl rfl
  · refine .inr (.inl ⟨[.cls [(0x62, 0x63)]], [.byte 0x61], rfl, rfl, [.byte 0x61], [], rfl, ?_,
      rfl⟩)
    exact ⟨[[.byte 0x61]], by decide, fun e he => (by cases he), (by simp [Hir.Matches]), rfl⟩

/-! ## Texts and literals -/

/-- The characters lie in the letters. -/
abbrev Reads (text : List Char) (ls : List Letter) : Prop :=
  List.Forall₂ (fun c (l : Letter) => InRanges l.ranges c.toNat) text ls

theorem utf8_ascii {c : Char} {bs : List UInt8} {b : Nat} {text : List Char} (hb : b < 128)
    (h : String.utf8EncodeChar c ++ text.flatMap String.utf8EncodeChar = UInt8.ofNat b :: bs) :
    c.toNat = b ∧ text.flatMap String.utf8EncodeChar = bs := by
  have hd : ∀ {n : Nat}, UInt8.ofNat n = UInt8.ofNat b → n % 256 = b := by
    intro n hn
    have := congrArg UInt8.toNat hn
    simp only [UInt8.toNat_ofNat'] at this
    omega
  have hc : c.toNat = c.val.toNat := rfl
  unfold String.utf8EncodeChar at h
  dsimp only at h
  rw [← hc] at h
  split at h
  · rw [List.cons_append, List.cons.injEq] at h
    have := hd h.1
    exact ⟨by omega, h.2⟩
  · split at h
    · rw [List.cons_append, List.cons.injEq] at h
      have := hd h.1
      omega
    · split at h
      · rw [List.cons_append, List.cons.injEq] at h
        have := hd h.1
        omega
      · rw [List.cons_append, List.cons.injEq] at h
        have := hd h.1
        omega

theorem reads_literal {bytes : List Nat} (hb : ∀ b ∈ bytes, b < 128) {text : List Char}
    (h : text.flatMap String.utf8EncodeChar = bytes.map UInt8.ofNat) :
    Reads text (bytes.map .byte) := by
  induction bytes generalizing text with
  | nil =>
    cases text with
    | nil => exact .nil
    | cons c text =>
      have h1 : String.utf8EncodeChar c = [] := by
        simp only [List.flatMap_cons, List.map_nil, List.append_eq_nil_iff] at h
        exact h.1
      exact absurd h1 (by simp)
  | cons b bytes ih =>
    cases text with
    | nil => simp at h
    | cons c text =>
      rw [List.flatMap_cons, List.map_cons] at h
      obtain ⟨h1, h2⟩ := utf8_ascii (hb b (by simp)) h
      refine .cons ⟨(b, b + 1), by simp [Letter.ranges], ?_⟩ (ih (fun b h => hb b (by simp [h])) h2)
      simp only
      omega

theorem reads_append {t t' : List Char} {ls ls' : List Letter} (h : Reads t ls) (h' : Reads t' ls') :
    Reads (t ++ t') (ls ++ ls') := List.rel_append h h'

theorem reads_split {t : List Char} {ls ls' : List Letter} (h : Reads t (ls ++ ls')) :
    ∃ u v, t = u ++ v ∧ Reads u ls ∧ Reads v ls' := by
  induction ls generalizing t with
  | nil => exact ⟨[], t, rfl, .nil, h⟩
  | cons l ls ih =>
    cases h with
    | @cons c _ t _ hc h =>
      obtain ⟨u, v, rfl, h1, h2⟩ := ih h
      exact ⟨c :: u, v, rfl, .cons hc h1, h2⟩

mutual

theorem text_letters : ∀ (h : Hir), (∀ b, .byte b ∈ h.letters → b < 128) → ∀ text : List Char,
    h.MatchesText text → ∃ ls, h.Matches ls ∧ Reads text ls
  | .empty, _, text, h => by
    simp only [Hir.MatchesText] at h
    subst h
    exact ⟨[], by simp [Hir.Matches], .nil⟩
  | .literal bytes, hb, text, h => by
    rw [Hir.MatchesText] at h
    exact ⟨_, by rw [Hir.Matches], reads_literal (fun b hb' => hb b (by simpa [Hir.letters])) h⟩
  | .cls ranges, _, text, h => by
    simp only [Hir.MatchesText] at h
    obtain ⟨c, rfl, hc⟩ := h
    exact ⟨[.cls ranges], by rw [Hir.Matches], .cons hc .nil⟩
  | .look, _, text, h => by simp [Hir.MatchesText] at h
  | .repetition min max sub, hb, text, h => by
    rw [Hir.MatchesText] at h
    rw [Hir.letters] at hb
    obtain ⟨parts, h1, h2, h3, rfl⟩ := h
    have : ∀ parts : List (List Char), (∀ v ∈ parts, sub.MatchesText v) →
        ∃ lss : List (List Letter), lss.length = parts.length ∧ (∀ v ∈ lss, sub.Matches v) ∧
          Reads parts.flatten lss.flatten := by
      intro parts hp
      induction parts with
      | nil => exact ⟨[], rfl, by simp, .nil⟩
      | cons v parts ih =>
        obtain ⟨lss, a1, a2, a3⟩ := ih fun v h => hp v (by simp [h])
        obtain ⟨ls, b1, b2⟩ := text_letters sub hb v (hp v (by simp))
        refine ⟨ls :: lss, by simp [a1], ?_, reads_append b2 a3⟩
        rintro w (_ | ⟨_, hw⟩)
        · exact b1
        · exact a2 w hw
    obtain ⟨lss, a1, a2, a3⟩ := this parts h3
    refine ⟨lss.flatten, ?_, a3⟩
    rw [Hir.Matches]
    exact ⟨lss, a1 ▸ h1, fun e he => a1 ▸ h2 e he, a2, rfl⟩
  | .capture sub, hb, text, h => by
    rw [Hir.MatchesText] at h
    rw [Hir.letters] at hb
    obtain ⟨ls, h1, h2⟩ := text_letters sub hb text h
    exact ⟨ls, by rwa [Hir.Matches], h2⟩
  | .concat exprs, hb, text, h => by
    rw [Hir.MatchesText] at h
    rw [Hir.letters] at hb
    obtain ⟨ls, h1, h2⟩ := textAll_letters exprs hb text h
    exact ⟨ls, by rwa [Hir.Matches], h2⟩
  | .alternation exprs, hb, text, h => by
    rw [Hir.MatchesText] at h
    rw [Hir.letters] at hb
    obtain ⟨ls, h1, h2⟩ := textAny_letters exprs hb text h
    exact ⟨ls, by rwa [Hir.Matches], h2⟩

theorem textAll_letters : ∀ (hs : List Hir), (∀ b, .byte b ∈ Hir.lettersAll hs → b < 128) →
    ∀ text : List Char, Hir.MatchesTextAll hs text → ∃ ls, Hir.MatchesAll hs ls ∧ Reads text ls
  | [], _, text, h => by
    simp only [Hir.MatchesTextAll] at h
    subst h
    exact ⟨[], by simp [Hir.MatchesAll], .nil⟩
  | e :: es, hb, text, h => by
    rw [Hir.MatchesTextAll] at h
    rw [Hir.lettersAll] at hb
    obtain ⟨u, v, rfl, h1, h2⟩ := h
    obtain ⟨ls, a1, a2⟩ := text_letters e (fun b h => hb b (by simp [h])) u h1
    obtain ⟨ls', b1, b2⟩ := textAll_letters es (fun b h => hb b (by simp [h])) v h2
    refine ⟨ls ++ ls', ?_, reads_append a2 b2⟩
    rw [Hir.MatchesAll]
    exact ⟨ls, ls', rfl, a1, b1⟩

theorem textAny_letters : ∀ (hs : List Hir), (∀ b, .byte b ∈ Hir.lettersAll hs → b < 128) →
    ∀ text : List Char, Hir.MatchesTextAny hs text → ∃ ls, Hir.MatchesAny hs ls ∧ Reads text ls
  | [], _, text, h => by simp [Hir.MatchesTextAny] at h
  | e :: es, hb, text, h => by
    rw [Hir.MatchesTextAny] at h
    rw [Hir.lettersAll] at hb
    rcases h with h | h
    · obtain ⟨ls, a1, a2⟩ := text_letters e (fun b h => hb b (by simp [h])) text h
      refine ⟨ls, ?_, a2⟩
      rw [Hir.MatchesAny]
      exact .inl a1
    · obtain ⟨ls, a1, a2⟩ := textAny_letters es (fun b h => hb b (by simp [h])) text h
      refine ⟨ls, ?_, a2⟩
      rw [Hir.MatchesAny]
      exact .inr a1

end

mutual

theorem letters_text : ∀ (h : Hir), (∀ b, .byte b ∉ h.letters) → ∀ (text : List Char) ls,
    h.Matches ls → Reads text ls → h.MatchesText text
  | .empty, _, text, ls, h, hr => by
    simp only [Hir.Matches] at h
    subst h
    cases hr
    simp [Hir.MatchesText]
  | .literal bytes, hb, text, ls, h, hr => by
    simp only [Hir.Matches] at h
    subst h
    cases bytes with
    | nil =>
      cases hr
      simp [Hir.MatchesText]
    | cons b bytes => exact absurd (by simp [Hir.letters]) (hb b)
  | .cls ranges, _, text, ls, h, hr => by
    simp only [Hir.Matches] at h
    subst h
    cases hr with
    | cons hc hr =>
      cases hr
      rw [Hir.MatchesText]
      exact ⟨_, rfl, hc⟩
  | .look, _, text, ls, h, hr => by simp [Hir.Matches] at h
  | .repetition min max sub, hb, text, ls, h, hr => by
    rw [Hir.Matches] at h
    rw [Hir.letters] at hb
    obtain ⟨lss, h1, h2, h3, rfl⟩ := h
    have : ∀ (lss : List (List Letter)) (text : List Char), (∀ v ∈ lss, sub.Matches v) →
        Reads text lss.flatten → ∃ parts : List (List Char), parts.length = lss.length ∧
          (∀ v ∈ parts, sub.MatchesText v) ∧ text = parts.flatten := by
      intro lss
      induction lss with
      | nil =>
        intro text _ hr
        cases hr
        exact ⟨[], rfl, by simp, rfl⟩
      | cons v lss ih =>
        intro text hp hr
        obtain ⟨t1, t2, rfl, c1, c2⟩ := reads_split hr
        obtain ⟨parts, a1, a2, rfl⟩ := ih t2 (fun v h => hp v (by simp [h])) c2
        refine ⟨t1 :: parts, by simp [a1], ?_, rfl⟩
        rintro w (_ | ⟨_, hw⟩)
        · exact letters_text sub hb t1 v (hp v (by simp)) c1
        · exact a2 w hw
    obtain ⟨parts, a1, a2, a3⟩ := this lss text h3 hr
    rw [Hir.MatchesText]
    exact ⟨parts, a1 ▸ h1, fun e he => a1 ▸ h2 e he, a2, a3⟩
  | .capture sub, hb, text, ls, h, hr => by
    rw [Hir.Matches] at h
    rw [Hir.letters] at hb
    rw [Hir.MatchesText]
    exact letters_text sub hb text ls h hr
  | .concat exprs, hb, text, ls, h, hr => by
    rw [Hir.Matches] at h
    rw [Hir.letters] at hb
    rw [Hir.MatchesText]
    exact lettersAll_text exprs hb text ls h hr
  | .alternation exprs, hb, text, ls, h, hr => by
    rw [Hir.Matches] at h
    rw [Hir.letters] at hb
    rw [Hir.MatchesText]
    exact lettersAny_text exprs hb text ls h hr

theorem lettersAll_text : ∀ (hs : List Hir), (∀ b, .byte b ∉ Hir.lettersAll hs) →
    ∀ (text : List Char) ls, Hir.MatchesAll hs ls → Reads text ls → Hir.MatchesTextAll hs text
  | [], _, text, ls, h, hr => by
    simp only [Hir.MatchesAll] at h
    subst h
    cases hr
    simp [Hir.MatchesTextAll]
  | e :: es, hb, text, ls, h, hr => by
    rw [Hir.MatchesAll] at h
    rw [Hir.lettersAll] at hb
    obtain ⟨u, v, rfl, h1, h2⟩ := h
    obtain ⟨t1, t2, rfl, c1, c2⟩ := reads_split hr
    rw [Hir.MatchesTextAll]
    exact ⟨t1, t2, rfl, letters_text e (fun b h => hb b (by simp [h])) t1 u h1 c1,
      lettersAll_text es (fun b h => hb b (by simp [h])) t2 v h2 c2⟩

theorem lettersAny_text : ∀ (hs : List Hir), (∀ b, .byte b ∉ Hir.lettersAll hs) →
    ∀ (text : List Char) ls, Hir.MatchesAny hs ls → Reads text ls → Hir.MatchesTextAny hs text
  | [], _, text, ls, h, hr => by simp [Hir.MatchesAny] at h
  | e :: es, hb, text, ls, h, hr => by
    rw [Hir.MatchesAny] at h
    rw [Hir.lettersAll] at hb
    rw [Hir.MatchesTextAny]
    rcases h with h | h
    · exact .inl (letters_text e (fun b h => hb b (by simp [h])) text ls h hr)
    · exact .inr (lettersAny_text es (fun b h => hb b (by simp [h])) text ls h hr)

end

/-- The grammar accepts the text, each character being read as one of its symbols. -/
def Accepts (g : Cfg) (m : LexerMap) (root : Sym) (text : List Char) : Prop :=
  ∃ w, g.Lang root w ∧
    List.Forall₂ (fun (c : Char) s => ∃ syms, m.get c.toNat = .ok syms ∧ s ∈ syms) text w

theorem accepts_iff (p : Profile) {hir : Hir} (hp : hir.Plain) (ht : hir.Tabular) :
    ∃ g m m' root, cfgFromHir p hir = .ok (g, m) ∧ g.roots = [root] ∧ m.compute = .ok m' ∧
      ∀ text : List Char, Accepts g m' root text ↔ ∃ ls, hir.Matches ls ∧ Reads text ls := by
  obtain ⟨g, m, m', root, h1, h2, h3, h4⟩ := C90_text p hp ht
  refine ⟨g, m, m', root, h1, h2, h3, fun text => ?_⟩
  have := h4 (text.map Char.toNat)
  simp only [List.forall₂_map_left_iff] at this
  exact this

/-- **C91** (partial: only one direction, for expressions with ASCII literals). Every text described
by the expression is accepted. -/
theorem C91_accepts_partial (p : Profile) {hir : Hir} (hp : hir.Plain) (ht : hir.Tabular)
    (ha : ∀ b, .byte b ∈ hir.letters → b < 128) :
    ∃ g m m' root, cfgFromHir p hir = .ok (g, m) ∧ g.roots = [root] ∧ m.compute = .ok m' ∧
      ∀ text, hir.MatchesText text → Accepts g m' root text := by
  obtain ⟨g, m, m', root, h1, h2, h3, h4⟩ := accepts_iff p hp ht
  exact ⟨g, m, m', root, h1, h2, h3, fun text h => (h4 text).2 (text_letters hir ha text h)⟩

example : ∀ b, .byte b ∈ exHir.letters → b < 128 := by
  have : ∀ l ∈ exHir.letters, ∀ r ∈ l.ranges, r.1 < 128 ∨ r.2 ≠ r.1 + 1 := by decide +kernel
  intro b hb
  have := this _ hb (b, b + 1) (by simp [Letter.ranges])
  simpa using this

/-- **C91** (partial: for expressions without literals). The accepted texts are those described by
the expression. -/
theorem C91_classes_partial (p : Profile) {hir : Hir} (hp : hir.Plain) (ht : hir.Tabular)
    (ha : ∀ b, .byte b ∉ hir.letters) :
    ∃ g m m' root, cfgFromHir p hir = .ok (g, m) ∧ g.roots = [root] ∧ m.compute = .ok m' ∧
      ∀ text, Accepts g m' root text ↔ hir.MatchesText text := by
  obtain ⟨g, m, m', root, h1, h2, h3, h4⟩ := accepts_iff p hp ht
  refine ⟨g, m, m', root, h1, h2, h3, fun text => (h4 text).trans ⟨?_, ?_⟩⟩
  · rintro ⟨ls, a1, a2⟩
    exact letters_text hir ha text ls a1 a2
  · exact text_letters hir (fun b hb => absurd hb (ha b)) text

/-- The expression `[+-]?(\\d|[à-ÿ]{3})+`. -/
def exClasses : Hir :=
  .concat [.repetition 0 (some 1) (.cls [(0x2B, 0x2B), (0x2D, 0x2D)]),
    .repetition 1 none (.capture (.alternation [
      .cls [(0x30, 0x39), (0x660, 0x669)], .repetition 3 (some 3) (.cls [(0xE0, 0xFF)])]))]

example : exClasses.Plain ∧ exClasses.Tabular ∧ ∀ b, .byte b ∉ exClasses.letters := by
  refine ⟨?_, ?_, ?_⟩
  · simp [exClasses, Hir.Plain, Hir.PlainAll, Sequence.InU32, Sequence.Fits, Apart]
  · have : ∀ l ∈ exClasses.letters, ∀ r ∈ l.ranges, (r.1 < 128 → r.2 < 256) ∧ IsChar (r.2 + 1) := by
      decide +kernel
    exact fun rs h => this _ h
  · simp [exClasses, Hir.letters, Hir.lettersAll]

/-- **C91** is violated by every literal: the grammar of the expression `a` accepts the text `b`. -/
theorem C91_violated_literal (p : Profile) :
    ∃ g m m' root, cfgFromHir p (.literal [0x61]) = .ok (g, m) ∧ g.roots = [root] ∧
      m.compute = .ok m' ∧ Accepts g m' root ['b'] ∧ ¬ (Hir.literal [0x61]).MatchesText ['b'] := by
  obtain ⟨g, m, m', root, h1, h2, h3, h4⟩ := accepts_iff p (hir := .literal [0x61])
    (by simp [Hir.Plain]) (by intro rs h; simp [Hir.letters] at h)
  refine ⟨g, m, m', root, h1, h2, h3, (h4 _).2 ⟨[.byte 0x61], by simp [Hir.Matches], ?_⟩, ?_⟩
  · exact .cons (by decide) .nil
  · rw [Hir.MatchesText]
    decide

/-- **C91** is violated by literals outside ASCII: the grammar of the expression `é` does not accept
the text `é`. -/
theorem C91_violated_non_ascii (p : Profile) :
    ∃ g m m' root, cfgFromHir p (.literal [0xC3, 0xA9]) = .ok (g, m) ∧ g.roots = [root] ∧
      m.compute = .ok m' ∧ ¬ Accepts g m' root ['é'] ∧
      (Hir.literal [0xC3, 0xA9]).MatchesText ['é'] := by
  obtain ⟨g, m, m', root, h1, h2, h3, h4⟩ := accepts_iff p (hir := .literal [0xC3, 0xA9])
    (by simp [Hir.Plain]) (by intro rs h; simp [Hir.letters] at h)
  refine ⟨g, m, m', root, h1, h2, h3, ?_, ?_⟩
  · rw [h4]
    rintro ⟨ls, a1, a2⟩
    simp only [Hir.Matches] at a1
    subst a1
    simpa using a2.length_eq
  · rw [Hir.MatchesText]
    decide

end Verif
