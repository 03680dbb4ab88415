import Verif.Proofs.Lexer

/-! # Properties C62 – C64: the lexer map -/

namespace Verif

/-- **C62** (partial: different classes have different symbols and the ranges of a class do not
overlap). Looking a character up in a computed map returns exactly the symbols of the classes that
contain it. -/
theorem C62_lookup_partial {m m' : LexerMap} (hp : m.Proper) (h : m.compute = .ok m') (c : Nat) :
    ∃ l, m'.get c = .ok l ∧ ∀ s, s ∈ l ↔ ∃ rs, (rs, s) ∈ m.classes ∧ InRanges rs c :=
  get_spec hp h c

/-- The classes `[+-9k-o]`, `[à-öø-ÿ]` and `[ç-ぁ]`. -/
def exLexer : LexerMap :=
  { classes := [([(0x2B, 0x39), (0x6B, 0x6F)], 3), ([(0xE0, 0xF6), (0xF8, 0xFF)], 5),
      ([(0xE7, 0x3041)], 4)] }

example : exLexer.Proper := by decide +kernel

example : (do
    let m ← exLexer.compute
    let a ← m.get 0x6C
    let b ← m.get 0xF6
    let c ← m.get 0xF7
    let d ← m.get 0x3041
    let e ← m.get 0x3042
    .ok [a, b, c, d, e]) = .ok [[3], [4, 5], [4], [4], []] := by decide +kernel

/-- Two classes under one symbol: the literal `é` and the class `[é-ü]`. -/
def exShared : LexerMap := { classes := [([(0xE9, 0xEA)], 0), ([(0xE9, 0xFC)], 0)] }

/-- **C62** is violated when two classes share a symbol, which the public field `classes` allows:
the character `ì` is in the second class but is not found. -/
theorem C62_violated_shared_symbol :
    ∃ m', exShared.compute = .ok m' ∧ m'.get 0xEC = .ok [] ∧
      ∃ rs, (rs, 0) ∈ exShared.classes ∧ InRanges rs 0xEC := by
  refine ⟨{ exShared with
    ascii := List.replicate 256 [], ranges := [(0xE9, [0]), (0xEB, []), (0xFD, [])] }, ?_, ?_,
    [(0xE9, 0xFC)], ?_, ?_⟩ <;> decide +kernel

/-! ## Literals -/

theorem single_class {r : Nat × Nat} {s : Sym} (h1 : r.1 ≤ r.2) (h2 : r.1 < 128 → r.2 < 256)
    (h3 : IsChar (r.2 + 1)) : ∃ m', (⟨[([r], s)], [], []⟩ : LexerMap).compute = .ok m' ∧
      ∀ c, ∃ l, m'.get c = .ok l ∧ (s ∈ l ↔ r.1 ≤ c ∧ c ≤ r.2) := by
  have hp : (⟨[([r], s)], [], []⟩ : LexerMap).Proper := by
    refine ⟨by simp, ?_⟩
    intro e he
    simp only [List.mem_singleton] at he
    subst he
    exact ⟨by simpa using h1, by simp⟩
  rcases compute_cases ⟨[([r], s)], [], []⟩ with ⟨m', e, -⟩ | ⟨-, e, he, hn⟩
  · refine ⟨m', e, fun c => ?_⟩
    obtain ⟨l, a1, a2⟩ := get_spec hp e c
    refine ⟨l, a1, ?_⟩
    rw [a2]
    simp only [InRanges, List.mem_singleton, Prod.mk.injEq, and_true]
    exact ⟨fun ⟨_, h, r', h', h''⟩ => by rw [h, List.mem_singleton] at h'; rw [← h']; exact h'',
      fun h => ⟨_, rfl, r, by simp, h⟩⟩
  · obtain ⟨r', s'⟩ := e
    obtain ⟨rs, h4, h5⟩ := mem_pairs.1 he
    simp only [List.mem_singleton, Prod.mk.injEq] at h4
    obtain ⟨rfl, rfl⟩ := h4
    simp only [List.mem_singleton] at h5
    subst h5
    exact absurd ⟨h2, h3⟩ hn

/-- **C63** (partial: the class of a literal byte below 255 contains that character and the next
one, and nothing else). -/
theorem C63_byte_partial (p : Profile) {b : Nat} (hb : b < 255) (s : Sym) :
    ∃ rs m', LexerClasses.ofByte p b = .ok rs ∧
      (⟨[(rs, s)], [], []⟩ : LexerMap).compute = .ok m' ∧
      ∀ c, ∃ l, m'.get c = .ok l ∧ (s ∈ l ↔ c = b ∨ c = b + 1) := by
  obtain ⟨m', h1, h2⟩ := single_class (r := (b, b + 1)) (s := s) (by simp) (by simp; omega)
    ⟨by simp only; omega, by simp only; omega⟩
  refine ⟨[(b, b + 1)], m', by unfold LexerClasses.ofByte; rw [if_pos (by omega)], h1, fun c => ?_⟩
  obtain ⟨l, h3, h4⟩ := h2 c
  refine ⟨l, h3, h4.trans ?_⟩
  simp only
  omega

/-- **C63** (partial, for literal characters). -/
theorem C63_char_partial {a : Nat} (h1 : IsChar (a + 1)) (h2 : IsChar (a + 2)) (s : Sym) :
    ∃ rs m', LexerClasses.ofChar a = .ok rs ∧
      (⟨[(rs, s)], [], []⟩ : LexerMap).compute = .ok m' ∧
      ∀ c, ∃ l, m'.get c = .ok l ∧ (s ∈ l ↔ c = a ∨ c = a + 1) := by
  obtain ⟨m', h3, h4⟩ := single_class (r := (a, a + 1)) (s := s) (by simp) (by simp; omega) h2
  refine ⟨[(a, a + 1)], m', ?_, h3, fun c => ?_⟩
  · unfold LexerClasses.ofChar charFromU32
    rw [if_pos (isScalar_iff.2 h1)]
    rfl
  obtain ⟨l, h5, h6⟩ := h4 c
  refine ⟨l, h5, h6.trans ?_⟩
  simp only
  omega

example : IsChar (0x1F40C + 1) ∧ IsChar (0x1F40C + 2) := by decide

/-- **C63** is violated for every literal byte: the class also contains the next character. -/
theorem C63_violated_next_char (p : Profile) {b : Nat} (hb : b < 255) (s : Sym) :
    ∃ rs m' l, LexerClasses.ofByte p b = .ok rs ∧
      (⟨[(rs, s)], [], []⟩ : LexerMap).compute = .ok m' ∧ m'.get (b + 1) = .ok l ∧ s ∈ l := by
  obtain ⟨rs, m', h1, h2, h3⟩ := C63_byte_partial p hb s
  obtain ⟨l, h4, h5⟩ := h3 (b + 1)
  exact ⟨rs, m', l, h1, h2, h4, h5.2 (.inr rfl)⟩

/-- **C63** is violated for the last byte: in the debug profile it cannot be made into a class,
in the release profile its class contains all characters from 255 up. -/
theorem C63_violated_last_byte :
    LexerClasses.ofByte .debug 255 = .panic ∧
    ∃ rs m', LexerClasses.ofByte .release 255 = .ok rs ∧
      (⟨[(rs, 0)], [], []⟩ : LexerMap).compute = .ok m' ∧
      ∀ c, 255 ≤ c → m'.get c = .ok [0] := by
  refine ⟨rfl, [(255, 0)], ⟨[([(255, 0)], 0)], List.replicate 256 [], [(1, []), (255, [0])]⟩, rfl,
    by decide +kernel, fun c hc => ?_⟩
  unfold LexerMap.get
  rw [if_neg (by omega)]
  have h1 : decide (1 ≤ c) = true := by simp; omega
  have h2 : decide (255 ≤ c) = true := by simpa using hc
  simp [h1, h2]

/-- **C63** is violated for the characters before the surrogates and the last one: making them
into a class panics. -/
theorem C63_violated_last_chars :
    LexerClasses.ofChar 0xD7FF = .panic ∧ LexerClasses.ofChar 0x10FFFF = .panic := by
  decide +kernel

/-! ## Panics -/

/-- **C64** (partial: exactly the class sets for which computing succeeds). Computing never runs
forever; it succeeds if and only if every range that starts below 128 ends below 256 and every
range is followed by a character. -/
theorem C64_compute_partial (m : LexerMap) :
    m.compute ≠ .diverge ∧
    ((∃ m', m.compute = .ok m') ↔ ∀ e ∈ m.classes, ∀ r ∈ e.1,
      (r.1 < 128 → r.2 < 256) ∧ IsChar (r.2 + 1)) := by
  rcases compute_cases m with ⟨m', h1, h2, -⟩ | ⟨h1, ⟨r, s⟩, he, hn⟩
  · rw [h1]
    refine ⟨by simp, fun _ => ?_, fun _ => ⟨m', rfl⟩⟩
    rintro ⟨rs, s⟩ he r hr
    exact h2 (r, s) (mem_pairs.2 ⟨rs, he, hr⟩)
  · rw [h1]
    refine ⟨by simp, fun ⟨m', h⟩ => (by cases h), fun h => ?_⟩
    obtain ⟨rs, h3, h4⟩ := mem_pairs.1 he
    exact absurd (h _ h3 r h4) hn

example : ∀ e ∈ exLexer.classes, ∀ r ∈ e.1,
    (r.1 < 128 → r.2 < 256) ∧ IsChar (r.2 + 1) := by decide +kernel

/-- **C64** is violated by the class `[^a]`, by the class of all characters from `!` to `ÿ` and one
more, and by the classes that end with the last character or before the surrogates. -/
theorem C64_violated_ranges :
    (⟨[([(0, 0x60), (0x62, 0x10FFFF)], 0)], [], []⟩ : LexerMap).compute = .panic ∧
    (⟨[([(0x21, 0x100)], 0)], [], []⟩ : LexerMap).compute = .panic ∧
    (⟨[([(0x4E00, 0x10FFFF)], 0)], [], []⟩ : LexerMap).compute = .panic ∧
    (⟨[([(0x4E00, 0xD7FF), (0xE000, 0x10000)], 0)], [], []⟩ : LexerMap).compute = .panic := by
  decide +kernel

end Verif
