import Verif.Model.Symbol
import Mathlib.Data.List.Basic
import Mathlib.Data.List.Range
import Mathlib.Data.List.Nodup

/-! # Properties C01–C06, C75: symbols, names, serialisation, mappings -/

namespace Verif

/-! ## Helpers -/

theorem advance_ok {w : Width} {p : Profile} {n : RawSym} (h : n + 1 < w.max) :
    advance w p n = .ok (n + 1) := by
  have hw : w.max ≤ 2 ^ 32 - 1 := by cases w <;> simp [Width.max]
  have e : min (n + 1) (2 ^ 32 - 1) = n + 1 := by omega
  simp only [advance, e]
  rw [if_neg (by omega), if_neg (by rintro ⟨-, h'⟩; omega)]

theorem BSource.withNames_ok (w : Width) (p : Profile) (names : List (Option String)) :
    ∀ s : BSource, 1 ≤ s.next → s.next + names.length < w.max →
      s.withNames w p names =
        .ok ((List.range names.length).map (s.next + ·),
          ⟨s.next + names.length, s.names ++ names⟩) := by
  induction names with
  | nil => intro s _ _; simp [BSource.withNames]
  | cons name rest ih =>
    intro s h1 h
    simp only [List.length_cons] at h
    have h2 := ih ⟨s.next + 1, s.names ++ [name]⟩ (by simp) (by simp; omega)
    simp only [BSource.withNames, BSource.nextSym, advance_ok (w := w) (p := p)
      (show s.next + 1 < w.max by omega), Res.bind_ok, h2]
    simp only [List.length_cons, List.range_succ_eq_map, List.map_cons, List.map_map,
      List.append_assoc, List.singleton_append, Nat.add_zero]
    congr 2
    · congr 1
      apply List.map_congr_left
      intro a _
      simp only [Function.comp_apply]
      omega
    · congr 1
      omega

/-! ## C01 -/

/-- **C01.** Below capacity every run of generating calls succeeds and hands out the numbers
0, 1, 2, … in order, without repetition, and `num_syms` counts them. -/
theorem C01_fresh_symbols (w : Width) (p : Profile) (names : List (Option String))
    (h : names.length + 1 < w.max) :
    ∃ syms s, BSource.withNames w p BSource.new names = .ok (syms, s) ∧
      syms.map rawUsize = List.range names.length ∧
      syms.Nodup ∧
      s.numSyms = names.length := by
  refine ⟨_, _, BSource.withNames_ok w p names BSource.new (by decide) ?_, ?_, ?_, ?_⟩
  · simp only [BSource.new, firstRaw]; omega
  · simp only [BSource.new, firstRaw, List.map_map]
    conv_rhs => rw [← List.map_id (List.range names.length)]
    apply List.map_congr_left
    intro a _
    simp [rawUsize]
  · refine List.Nodup.map ?_ List.nodup_range
    intro a b hab
    simp only at hab
    omega
  · simp only [BSource.numSyms, rawUsize, BSource.new, firstRaw]; omega

example : (List.replicate 200 (some "a")).length + 1 < Width.max .u8 := by
  rw [List.length_replicate]; decide

/-- **C01 (interleaving).** Splitting a run in two does not matter: symbols generated later
are new with respect to those generated earlier, from any state a run can reach. -/
theorem C01_later_symbols_new (w : Width) (p : Profile) (first later : List (Option String))
    (h : first.length + later.length + 1 < w.max) :
    ∃ syms₁ s₁ syms₂ s₂,
      BSource.withNames w p BSource.new first = .ok (syms₁, s₁) ∧
      BSource.withNames w p s₁ later = .ok (syms₂, s₂) ∧
      (∀ a ∈ syms₁, a ∉ syms₂) ∧ syms₂.Nodup ∧
      s₂.numSyms = first.length + later.length := by
  have h1 := BSource.withNames_ok w p first BSource.new (by decide)
    (by simp only [BSource.new, firstRaw]; omega)
  refine ⟨_, _, _, _, h1, BSource.withNames_ok w p later _ ?_ ?_, ?_, ?_, ?_⟩
  · simp only [BSource.new, firstRaw]; omega
  · simp only [BSource.new, firstRaw]; omega
  · intro a ha hb
    simp only [BSource.new, firstRaw, List.mem_map, List.mem_range] at ha hb
    omega
  · refine List.Nodup.map ?_ List.nodup_range
    intro a b hab
    simp only at hab
    omega
  · simp only [BSource.numSyms, rawUsize, BSource.new, firstRaw]; omega

/-! ## C02 -/

theorem advance_mono {w : Width} {p : Profile} (hw : ¬(w = .u32 ∧ p = .release)) {n m : RawSym}
    (hn : n ≤ w.max) (h : advance w p n = .ok m) : m = n + 1 ∧ m ≤ w.max := by
  have key : w.max ≤ 2 ^ 32 - 1 := by cases w <;> simp [Width.max]
  simp only [advance] at h
  split at h
  · cases h
  · rename_i h1
    split at h
    · cases h
    · rename_i h2
      simp only [Res.ok.injEq] at h
      subst h
      refine ⟨?_, by omega⟩
      by_contra hne
      have hmax : 2 ^ 32 - 1 < n + 1 := by omega
      have e1 : w.max = 2 ^ 32 - 1 := by omega
      have : w = .u32 := by
        cases w <;> simp [Width.max] at e1 ⊢
      have hp : p = .debug := by
        cases p
        · rfl
        · exact absurd ⟨this, rfl⟩ hw
      exact h2 ⟨hp, by omega⟩

theorem BSource.withNames_mono {w : Width} {p : Profile} (hw : ¬(w = .u32 ∧ p = .release))
    (names : List (Option String)) :
    ∀ (s s' : BSource) (syms : List RawSym), s.next ≤ w.max →
      s.withNames w p names = .ok (syms, s') →
      syms = (List.range names.length).map (s.next + ·) ∧ s'.next = s.next + names.length := by
  induction names with
  | nil =>
    intro s s' syms _ h
    simp only [BSource.withNames, Res.ok.injEq, Prod.mk.injEq] at h
    obtain ⟨rfl, rfl⟩ := h
    simp
  | cons name rest ih =>
    intro s s' syms hn h
    simp only [BSource.withNames, BSource.nextSym] at h
    obtain ⟨⟨a, s1⟩, h1, h⟩ := Res.bind_eq_ok.1 h
    obtain ⟨m, hm, h1⟩ := Res.bind_eq_ok.1 h1
    simp only [Res.ok.injEq, Prod.mk.injEq] at h1
    obtain ⟨rfl, rfl⟩ := h1
    obtain ⟨⟨as, s2⟩, h2, h⟩ := Res.bind_eq_ok.1 h
    simp only [Res.ok.injEq, Prod.mk.injEq] at h
    obtain ⟨rfl, rfl⟩ := h
    obtain ⟨rfl, hle⟩ := advance_mono hw hn hm
    obtain ⟨rfl, e⟩ := ih ⟨s.next + 1, s.names ++ [name]⟩ s2 as hle h2
    constructor
    · simp only [List.length_cons, List.range_succ_eq_map, List.map_cons, List.map_map,
        Nat.add_zero]
      congr 1
      apply List.map_congr_left
      intro a _
      simp only [Function.comp_apply]
      omega
    · simp only [List.length_cons, e]; omega

/-- **C02, the part that holds.** For 8- and 16-bit symbols, and for 32-bit symbols in a debug
build, a run either panics or hands out pairwise different symbols, for any number of calls. -/
theorem C02_no_silent_reuse_partial (w : Width) (p : Profile)
    (hw : ¬(w = .u32 ∧ p = .release)) (names : List (Option String)) (syms : List RawSym)
    (s : BSource) (h : BSource.withNames w p BSource.new names = .ok (syms, s)) :
    syms.Nodup := by
  obtain ⟨rfl, -⟩ := BSource.withNames_mono hw names _ _ _
    (by cases w <;> simp [Width.max, BSource.new, firstRaw]) h
  refine List.Nodup.map ?_ List.nodup_range
  intro a b hab
  simp only at hab
  omega

example : ¬(Width.u8 = .u32 ∧ Profile.release = .release) ∧
    ∃ syms s, BSource.withNames .u8 .release BSource.new (List.replicate 10 none) =
      .ok (syms, s) := ⟨by decide, _, _, rfl⟩

theorem withNames_saturated (names : List (Option String)) :
    ∀ s : BSource, s.next = 2 ^ 32 - 1 → ∃ s', s'.next = 2 ^ 32 - 1 ∧
      s.withNames .u32 .release names = .ok (List.replicate names.length (2 ^ 32 - 1), s') := by
  induction names with
  | nil => intro s h; exact ⟨s, h, rfl⟩
  | cons name rest ih =>
    intro s h
    obtain ⟨s', h', e⟩ := ih ⟨2 ^ 32 - 1, s.names ++ [name]⟩ rfl
    refine ⟨s', h', ?_⟩
    have ha : advance .u32 .release (2 ^ 32 - 1) = .ok (2 ^ 32 - 1) := by decide
    simp only [BSource.withNames, BSource.nextSym, ha, Res.bind_ok, e, h, List.length_cons,
      List.replicate_succ]

theorem BSource.withNames_append (w : Width) (p : Profile) (a b : List (Option String)) :
    ∀ s : BSource, s.withNames w p (a ++ b) = (do
      let (x, s) ← s.withNames w p a
      let (y, s) ← s.withNames w p b
      .ok (x ++ y, s)) := by
  induction a with
  | nil =>
    intro s
    simp only [List.nil_append, BSource.withNames, Res.bind_ok]
    cases s.withNames w p b <;> rfl
  | cons n a ih =>
    intro s
    simp only [List.cons_append, BSource.withNames, ih]
    cases s.nextSym w p n with
    | panic => rfl
    | diverge => rfl
    | ok r =>
      simp only [Res.bind_ok]
      cases r.2.withNames w p a with
      | panic => rfl
      | diverge => rfl
      | ok q =>
        simp only [Res.bind_ok]
        cases q.2.withNames w p b <;> rfl

/-- **C02 is violated** by 32-bit symbols in a release build: there is a run that succeeds and
hands out the same symbol twice (the counter saturates). -/
theorem C02_violated_u32_release :
    ∃ names syms s, BSource.withNames .u32 .release BSource.new names = .ok (syms, s) ∧
      ¬ syms.Nodup := by
  -- below the last step everything is regular, then the counter is pushed to its maximum
  obtain ⟨pre, hl⟩ : ∃ pre : List (Option String), pre.length = 2 ^ 32 - 3 :=
    ⟨List.replicate (2 ^ 32 - 3) none, List.length_replicate⟩
  have h1 := BSource.withNames_ok .u32 .release pre BSource.new (by decide)
    (by rw [hl]; decide)
  obtain ⟨s', -, h2⟩ := withNames_saturated [none, none]
    ⟨2 ^ 32 - 1, (BSource.new.names ++ pre) ++ [none]⟩ rfl
  refine ⟨pre ++ ([none] ++ [none, none]),
    (List.range pre.length).map (BSource.new.next + ·) ++
      ([2 ^ 32 - 2] ++ List.replicate 2 (2 ^ 32 - 1)), s', ?_, ?_⟩
  · rw [BSource.withNames_append, h1]
    simp only [Res.bind_ok]
    rw [BSource.withNames_append]
    have h3 : BSource.withNames .u32 .release
        ⟨BSource.new.next + pre.length, BSource.new.names ++ pre⟩ [none] =
        .ok ([2 ^ 32 - 2], ⟨2 ^ 32 - 1, (BSource.new.names ++ pre) ++ [none]⟩) := by
      have hn : BSource.new.next + pre.length = 2 ^ 32 - 2 := by
        rw [hl]; decide
      have ha : advance .u32 .release (2 ^ 32 - 2) = .ok (2 ^ 32 - 1) := by decide
      simp only [BSource.withNames, BSource.nextSym, hn, ha, Res.bind_ok]
    rw [h3]
    simp only [Res.bind_ok]
    rw [h2]
    simp only [Res.bind_ok, List.length_cons, List.length_nil, Nat.zero_add, Nat.reduceAdd]
  · intro hnd
    have := (List.nodup_append.1 (List.nodup_append.1 hnd).2.1).2.1
    simp [List.replicate_succ] at this

/-- The symbols repeated in `C02_violated_u32_release` follow every run long enough: once the
counter is saturated every further call returns the same symbol. -/
theorem C02_saturated_forever (s : BSource) (h : s.next = 2 ^ 32 - 1)
    (names : List (Option String)) :
    ∃ s', s.withNames .u32 .release names =
      .ok (List.replicate names.length (2 ^ 32 - 1), s') :=
  let ⟨s', _, e⟩ := withNames_saturated names s h
  ⟨s', e⟩

/-! ## The unbounded source agrees with the bounded one -/

theorem SymbolSource.withNames_eq (names : List (Option String)) :
    ∀ s : SymbolSource, s.withNames names =
      ((List.range names.length).map (s.numSyms + ·),
        ⟨s.numSyms + names.length, s.names ++ names⟩) := by
  induction names with
  | nil => intro s; simp [SymbolSource.withNames]
  | cons name rest ih =>
    intro s
    simp only [SymbolSource.withNames, SymbolSource.nextSym, ih, List.length_cons,
      List.range_succ_eq_map, List.map_cons, List.map_map, Nat.add_zero, List.append_assoc,
      List.singleton_append, Prod.mk.injEq, SymbolSource.mk.injEq, and_true, List.cons.injEq,
      true_and]
    constructor
    · apply List.map_congr_left
      intro a _
      simp only [Function.comp_apply]
      omega
    · omega

/-- **C01 (link to the grammar model).** Below capacity the bounded source of `cfg-symbol` and
the unbounded source used in the grammar model return the same symbols, count and names. -/
theorem C01_bounded_agrees (w : Width) (p : Profile) (names : List (Option String))
    (h : names.length + 1 < w.max) :
    ∃ syms s, BSource.withNames w p BSource.new names = .ok (syms, s) ∧
      (SymbolSource.new.withNames names).1 = syms.map rawUsize ∧
      (SymbolSource.new.withNames names).2 = ⟨s.numSyms, s.names⟩ := by
  refine ⟨_, _, BSource.withNames_ok w p names BSource.new (by decide) ?_, ?_, ?_⟩
  · simp only [BSource.new, firstRaw]; omega
  · rw [SymbolSource.withNames_eq]
    simp only [SymbolSource.new, BSource.new, firstRaw, List.map_map]
    apply List.map_congr_left
    intro a _
    simp [rawUsize]
  · rw [SymbolSource.withNames_eq]
    simp only [SymbolSource.new, BSource.new, firstRaw, BSource.numSyms, rawUsize,
      SymbolSource.mk.injEq, and_true]
    omega

/-! ## C03 -/

/-- **C03.** After any run, followed by any further run, the i-th generated symbol reports
exactly the name it was generated with; anonymous symbols display as `g<number>`. -/
theorem C03_names_stay (names later : List (Option String)) (i : Nat) (hi : i < names.length) :
    let s := ((SymbolSource.new.withNames names).2.withNames later).2
    s.originalNameOf i = names[i] ∧
      s.nameOf i = (match names[i] with
        | some n => n
        | none => "g" ++ toString i) := by
  have e : (names ++ later)[i]? = some names[i] := by
    rw [List.getElem?_append_left hi, List.getElem?_eq_getElem hi]
  simp only [SymbolSource.withNames_eq, SymbolSource.new, List.nil_append,
    SymbolSource.originalNameOf, SymbolSource.nameOf, e, true_and]
  cases names[i] <;> rfl

/-- **C03 (unknown symbols).** A symbol that was never generated has no name. -/
theorem C03_unknown (names : List (Option String)) (i : Nat) (hi : names.length ≤ i) :
    let s := (SymbolSource.new.withNames names).2
    s.originalNameOf i = none ∧ s.nameOf i = "g" ++ toString i := by
  simp [SymbolSource.withNames_eq, SymbolSource.new, SymbolSource.originalNameOf,
    SymbolSource.nameOf, List.getElem?_eq_none hi]

example : ((SymbolSource.new.withNames [some "start", none, some "b"]).2.withNames
    [some "c"]).2.nameOf 1 = "g1" := by decide

/-! ## C04 -/

theorem nameMap_aux (l : List (Option String)) : ∀ (k : Nat) (m : String → Option Sym) (x : String),
    ((l.zipIdx k).filterMap fun (opt, i) => opt.map fun name => (name, i)).foldl
      (fun m (name, i) => fun x => if x = name then some i else m x) m x =
    match (l.zipIdx k).filterMap (fun (opt, i) => if opt = some x then some i else none)
      |>.getLast? with
    | some i => some i
    | none => m x := by
  induction l with
  | nil => intro k m x; rfl
  | cons o l ih =>
    intro k m x
    rw [List.zipIdx_cons, List.filterMap_cons, List.filterMap_cons]
    rcases o with _ | n
    · simpa using ih (k + 1) m x
    · simp only [Option.map_some, List.foldl_cons, ih, Option.some.injEq]
      by_cases hx : n = x
      · subst hx
        simp only [if_true]
        rw [List.getLast?_cons]
        cases h : (List.filterMap (fun (opt, i) => if opt = some n then some i else none)
          (l.zipIdx (k + 1))).getLast? <;> simp
      · rw [if_neg hx, if_neg (fun e => hx e.symm)]

/-- **C04.** A name maps to symbol `i` exactly when `i` carries that name and no symbol
generated later does. -/
theorem C04_name_map (names : List (Option String)) (x : String) (i : Nat) :
    (SymbolSource.new.withNames names).2.nameMap x = some i ↔
      names[i]? = some (some x) ∧ ∀ j, i < j → names[j]? ≠ some (some x) := by
  simp only [SymbolSource.withNames_eq, SymbolSource.new, List.nil_append, SymbolSource.nameMap]
  rw [nameMap_aux]
  -- reduce to the last index with the name
  have key : ∀ (l : List (Option String)) (k : Nat),
      ((l.zipIdx k).filterMap (fun (opt, i) => if opt = some x then some i else none)).getLast? =
        some i ↔ (k ≤ i ∧ l[i - k]? = some (some x) ∧
          ∀ j, i < j → l[j - k]? ≠ some (some x)) := by
    intro l
    induction l with
    | nil => intro k; simp
    | cons o l ih =>
      intro k
      rw [List.zipIdx_cons, List.filterMap_cons]
      by_cases ho : o = some x
      · subst ho
        simp only [if_true, List.getLast?_cons]
        cases hl : (List.filterMap (fun (opt, i) => if opt = some x then some i else none)
            (l.zipIdx (k + 1))).getLast? with
        | none =>
          have hnone : ∀ j : Nat, l[j]? ≠ some (some x) := by
            intro j hj
            have hmem : (j + (k + 1)) ∈ (l.zipIdx (k + 1)).filterMap
                (fun (opt, i) => if opt = some x then some i else none) := by
              rw [List.mem_filterMap]
              refine ⟨(some x, j + (k + 1)), ?_, by simp⟩
              rw [List.mk_mem_zipIdx_iff_le_and_getElem?_sub]
              exact ⟨by omega, by simpa using hj⟩
            rw [List.getLast?_eq_none_iff] at hl
            rw [hl] at hmem
            simp at hmem
          simp only [Option.getD_none, Option.some.injEq]
          constructor
          · rintro rfl
            refine ⟨le_rfl, by simp, ?_⟩
            intro j hj
            obtain ⟨d, rfl⟩ : ∃ d, j = k + 1 + d := ⟨j - (k + 1), by omega⟩
            have : k + 1 + d - k = d + 1 := by omega
            rw [this, List.getElem?_cons_succ]
            exact hnone d
          · rintro ⟨h1, h2, -⟩
            by_contra hne
            obtain ⟨d, rfl⟩ : ∃ d, i = k + 1 + d := ⟨i - (k + 1), by omega⟩
            have : k + 1 + d - k = d + 1 := by omega
            rw [this, List.getElem?_cons_succ] at h2
            exact hnone d h2
        | some i' =>
          simp only [Option.getD_some, Option.some.injEq]
          have := ih (k + 1)
          rw [hl, Option.some.injEq] at this
          rw [this]
          constructor
          · rintro ⟨h1, h2, h3⟩
            refine ⟨by omega, ?_, ?_⟩
            · have : i - k = (i - (k + 1)) + 1 := by omega
              rw [this, List.getElem?_cons_succ]; exact h2
            · intro j hj
              have : j - k = (j - (k + 1)) + 1 := by omega
              rw [this, List.getElem?_cons_succ]; exact h3 j hj
          · rintro ⟨h1, h2, h3⟩
            -- `i'` is a witness above `k`, so `i ≠ k`
            have hi' : i' ∈ (l.zipIdx (k + 1)).filterMap
                (fun (opt, i) => if opt = some x then some i else none) :=
              List.mem_of_getLast? hl
            rw [List.mem_filterMap] at hi'
            obtain ⟨⟨o, m⟩, hm, e⟩ := hi'
            rw [List.mk_mem_zipIdx_iff_le_and_getElem?_sub] at hm
            simp only [Option.ite_none_right_eq_some, Option.some.injEq] at e
            obtain ⟨rfl, rfl⟩ := e
            have hik : k < i := by
              rcases Nat.lt_or_ge k i with h | h
              · exact h
              · exfalso
                have : i = k := by omega
                subst this
                refine h3 m (by omega) ?_
                have : m - i = (m - (i + 1)) + 1 := by omega
                rw [this, List.getElem?_cons_succ]; exact hm.2
            refine ⟨by omega, ?_, ?_⟩
            · have : i - k = (i - (k + 1)) + 1 := by omega
              rw [this, List.getElem?_cons_succ] at h2; exact h2
            · intro j hj
              have : j - k = (j - (k + 1)) + 1 := by omega
              have h4 := h3 j hj
              rw [this, List.getElem?_cons_succ] at h4; exact h4
      · simp only [if_neg ho, ih (k + 1)]
        constructor
        · rintro ⟨h1, h2, h3⟩
          refine ⟨by omega, ?_, ?_⟩
          · have : i - k = (i - (k + 1)) + 1 := by omega
            rw [this, List.getElem?_cons_succ]; exact h2
          · intro j hj
            have : j - k = (j - (k + 1)) + 1 := by omega
            rw [this, List.getElem?_cons_succ]; exact h3 j hj
        · rintro ⟨h1, h2, h3⟩
          have hik : k < i := by
            rcases Nat.lt_or_ge k i with h | h
            · exact h
            · exfalso
              have : i = k := by omega
              subst this
              simp only [Nat.sub_self, List.getElem?_cons_zero, Option.some.injEq] at h2
              exact ho h2
          refine ⟨by omega, ?_, ?_⟩
          · have : i - k = (i - (k + 1)) + 1 := by omega
            rw [this, List.getElem?_cons_succ] at h2; exact h2
          · intro j hj
            have : j - k = (j - (k + 1)) + 1 := by omega
            have h4 := h3 j hj
            rw [this, List.getElem?_cons_succ] at h4; exact h4
  have := key names 0
  simp only [Nat.zero_le, true_and, Nat.sub_zero] at this
  rw [← this]
  cases (List.filterMap (fun (opt, i) => if opt = some x then some i else none)
    names.zipIdx).getLast? <;> simp

/-- **C04 (absent names).** A name is not in the map exactly when it was never given. -/
theorem C04_name_map_none (names : List (Option String)) (x : String) :
    (SymbolSource.new.withNames names).2.nameMap x = none ↔ some x ∉ names := by
  constructor
  · intro h hx
    -- take the last index carrying the name
    have : ∃ i : Nat, names[i]? = some (some x) ∧ ∀ j, i < j → names[j]? ≠ some (some x) := by
      clear h
      induction names using List.reverseRecOn with
      | nil => simp at hx
      | append_singleton l o ih =>
        by_cases ho : o = some x
        · refine ⟨l.length, by simp [ho], ?_⟩
          intro j hj
          rw [List.getElem?_eq_none (by simp; omega)]
          simp
        · have hl : some x ∈ l := by
            rcases List.mem_append.1 hx with h | h
            · exact h
            · simp only [List.mem_singleton] at h; exact absurd h.symm ho
          obtain ⟨i, hi, hj⟩ := ih hl
          have hil : i < l.length := by
            by_contra hc
            rw [List.getElem?_eq_none (by omega)] at hi
            simp at hi
          refine ⟨i, by rw [List.getElem?_append_left hil]; exact hi, ?_⟩
          intro j hij
          rcases Nat.lt_trichotomy j l.length with h | h | h
          · rw [List.getElem?_append_left h]; exact hj j hij
          · subst h; simpa using ho
          · rw [List.getElem?_eq_none (by simp; omega)]; simp
    obtain ⟨i, hi⟩ := this
    rw [(C04_name_map names x i).2 hi] at h
    cases h
  · intro hx
    cases h : (SymbolSource.new.withNames names).2.nameMap x with
    | none => rfl
    | some i =>
      exact absurd (List.mem_of_getElem? ((C04_name_map names x i).1 h).1) hx

example : (SymbolSource.new.withNames [some "a", some "b", some "a"]).2.nameMap "a" = some 2 := by
  decide

/-! ## C05 -/

/-- **C05 (miniserde round trip).** -/
theorem C05_mini_round_trip (w : Width) (n : RawSym) (h1 : 1 ≤ n) (h2 : n ≤ w.max) :
    miniDe w (miniSer n) = some n := by
  have hw : w.max ≤ 2 ^ 32 - 1 := by cases w <;> simp [Width.max]
  have e : (n - 1 + 1) % 2 ^ 32 = n := by omega
  have h3 : n - 1 < w.max := by omega
  have h4 : ¬ n = 0 := by omega
  have h5 : ¬ w.max < n := by omega
  simp only [miniDe, miniSer, e, h3, h4, h5, if_true, if_false]

/-- **C05 (rejection).** Deserialisation of a number succeeds exactly when the number is below
the maximum, and then gives the symbol with that number. -/
theorem C05_mini_de (w : Width) (n : Nat) :
    (n < w.max → ∃ s, miniDe w n = some s ∧ rawUsize s = n ∧ 1 ≤ s ∧ s ≤ w.max) ∧
      (w.max ≤ n → miniDe w n = none) := by
  have hw : w.max ≤ 2 ^ 32 - 1 := by cases w <;> simp [Width.max]
  constructor
  · intro h
    have e : (n + 1) % 2 ^ 32 = n + 1 := by omega
    refine ⟨n + 1, ?_, by simp [rawUsize], by omega, by omega⟩
    simp only [miniDe]
    rw [if_pos h, e, if_neg (by omega), if_neg (by omega)]
  · intro h
    simp only [miniDe]
    rw [if_neg (by omega)]

example : miniDe .u16 65534 = some 65535 ∧ miniDe .u16 65535 = none := by decide

/-- **C05**, the accepted numbers of each width. -/
theorem C05_accepted_numbers (n : Nat) :
    ((miniDe .u8 n).isSome ↔ n < 255) ∧ ((miniDe .u16 n).isSome ↔ n < 65535) ∧
      ((miniDe .u32 n).isSome ↔ n < 4294967295) := by
  have key : ∀ w, (miniDe w n).isSome ↔ n < w.max := by
    intro w
    obtain ⟨h1, h2⟩ := C05_mini_de w n
    constructor
    · intro h
      by_contra hc
      rw [h2 (by omega)] at h
      simp at h
    · intro h
      obtain ⟨s, h3, -⟩ := h1 h
      rw [h3]
      rfl
  exact ⟨key .u8, key .u16, key .u32⟩

/-- **C05 (binary round trip).** Reading at the offset where a symbol was written returns the
symbol and moves the offset past it, whatever precedes and follows. -/
theorem C05_nano_round_trip (n : RawSym) (h1 : 1 ≤ n) (h2 : n ≤ Width.max .u32)
    (before after : List Nat) :
    nanoDe before.length (nanoSer n before ++ after) = .ok (some (n, before.length + 4)) := by
  simp only [Width.max] at h2
  simp only [nanoDe, nanoSer, u32ToBytes, List.append_assoc, List.drop_left', List.cons_append]
  have e : n % 256 + 256 * (n / 256 % 256) + 65536 * (n / 65536 % 256) +
      16777216 * (n / 16777216 % 256) = n := by omega
  rw [e, if_neg (by omega)]

/-- **C05 (bad input).** Four zero bytes are not a symbol; the binary reader panics on them
instead of returning an error. -/
theorem C05_nano_zero_panics (before after : List Nat) :
    nanoDe before.length (before ++ 0 :: 0 :: 0 :: 0 :: after) = .panic := by
  simp [nanoDe, List.drop_left']

/-! ## C06 -/

/-- A mapping is consistent if its two tables are inverse to each other. -/
def Mapping.Consistent (m : Mapping) : Prop :=
  ∀ e i : Nat, m.toInternal[e]? = some (some i) ↔ m.toExternal[i]? = some e

theorem mapM_ok {α β : Type} {f : α → Res β} {l : List α} {g : α → β}
    (h : ∀ a ∈ l, f a = .ok (g a)) : l.mapM f = .ok (l.map g) := by
  induction l with
  | nil => rfl
  | cons a l ih =>
    rw [List.mapM_cons, h a (by simp), ih (fun b hb => h b (by simp [hb]))]
    rfl

/-- **C06.** Composition of two consistent mappings, where the second one's external symbols
are among the first one's internal symbols: the call succeeds, both directions are the compositions,
and the result is consistent. -/
theorem C06_translate (m n : Mapping) (hm : m.Consistent) (hn : n.Consistent)
    (hsize : n.toInternal.length ≤ m.toExternal.length) :
    ∃ r, m.translate n = .ok r ∧
      (∀ e i : Nat, r.toInternal[e]? = some (some i) ↔
        ∃ k, m.toInternal[e]? = some (some k) ∧ n.toInternal[k]? = some (some i)) ∧
      (∀ i e : Nat, r.toExternal[i]? = some e ↔
        ∃ k, n.toExternal[i]? = some k ∧ m.toExternal[k]? = some e) ∧
      r.toInternal.length = m.toInternal.length ∧
      r.Consistent := by
  have hin : ∀ k ∈ n.toExternal, k < m.toExternal.length := by
    intro k hk
    obtain ⟨i, hi⟩ := List.getElem?_of_mem hk
    have := (hn k i).2 hi
    by_contra hc
    rw [List.getElem?_eq_none (by omega)] at this
    cases this
  have hmap : n.toExternal.mapM (fun middle => Res.index m.toExternal middle) = .ok (n.toExternal.map fun k => m.toExternal.getD k 0) := by
    apply mapM_ok
    intro k hk
    have := hin k hk
    rw [Res.index_lt this]
    simp [this]
  have hint : ∀ e i : Nat, (m.toInternal.map fun internal =>
      match internal with
      | some sym => (n.toInternal[sym]?).bind fun x => x
      | none => none)[e]? = some (some i) ↔
        ∃ k, m.toInternal[e]? = some (some k) ∧ n.toInternal[k]? = some (some i) := by
    intro e i
    rw [List.getElem?_map]
    rcases m.toInternal[e]? with _ | _ | k
    · simp
    · simp
    · simp only [Option.map_some, Option.some.injEq]
      constructor
      · intro h
        refine ⟨k, rfl, ?_⟩
        cases h' : n.toInternal[k]? with
        | none => rw [h'] at h; simp at h
        | some x => rw [h'] at h; simpa using h
      · rintro ⟨k', rfl, h⟩
        rw [h]; rfl
  have hext : ∀ i e : Nat, (n.toExternal.map fun k => m.toExternal.getD k 0)[i]? = some e ↔
        ∃ k, n.toExternal[i]? = some k ∧ m.toExternal[k]? = some e := by
    intro i e
    rw [List.getElem?_map]
    cases h : n.toExternal[i]? with
    | none => simp
    | some k =>
      have := hin k (List.mem_of_getElem? h)
      simp [List.getElem?_eq_getElem this]
  refine ⟨⟨_, _⟩, ?_, hint, hext, by simp, ?_⟩
  · simp only [Mapping.translate, hmap, Res.bind_ok]
    rfl
  · intro e i
    rw [hint, hext]
    constructor
    · rintro ⟨k, h1, h2⟩
      exact ⟨k, (hn k i).1 h2, (hm e k).1 h1⟩
    · rintro ⟨k, h1, h2⟩
      exact ⟨k, (hm e k).2 h2, (hn k i).2 h1⟩

/-- The hypotheses of `C06_translate` are met by two different permutations, the second partial. -/
example : (⟨[some 1, some 2, some 0], [2, 0, 1]⟩ : Mapping).translate
    ⟨[some 1, none, some 0], [2, 0]⟩ = .ok ⟨[none, some 0, some 1], [1, 2]⟩ := by decide

example : (⟨[some 1, none, some 0], [2, 0]⟩ : Mapping).Consistent := by
  intro e i
  rcases e with _ | _ | _ | e <;> rcases i with _ | _ | i <;> simp

/-- **C06.** A new mapping is consistent, and translating a mapping by a new one gives a new one
with as many external symbols: no symbol has an internal number. -/
theorem C06_new (m : Mapping) (k : Nat) :
    (Mapping.new k).Consistent ∧ m.translate (Mapping.new k) = .ok (Mapping.new m.toInternal.length) := by
  constructor
  · intro e i
    unfold Mapping.new
    simp [List.getElem?_replicate]
  · unfold Mapping.translate Mapping.new
    simp only [List.mapM_nil]
    show Res.ok _ = Res.ok _
    congr 2
    refine List.eq_replicate_iff.2 ⟨by simp, ?_⟩
    intro b hb
    obtain ⟨x, -, rfl⟩ := List.mem_map.1 hb
    cases x with
    | none => rfl
    | some s => by_cases h : s < k <;> simp [h]

example : (⟨[some 1, none, some 0], [2, 0]⟩ : Mapping).translate (Mapping.new 1) =
    .ok ⟨[none, none, none], []⟩ := by decide

/-! ## C75 -/

/-- **C75, the part that holds.** `truncate` to a length from 1 up to one below the maximum
keeps exactly the first names, and the next symbol generated has the truncated length as its
number. -/
theorem C75_truncate_partial (w : Width) (p : Profile) (s : BSource) (n : Nat) (h1 : 1 ≤ n)
    (h2 : n < w.max) :
    ∃ s', s.truncate w n = .ok s' ∧ s'.numSyms = n ∧ s'.names = s.names.take n ∧
      (n + 2 < w.max → ∀ name, ∃ sym s'', s'.nextSym w p name = .ok (sym, s'') ∧
        rawUsize sym = n ∧ s''.numSyms = n + 1 ∧
        (n ≤ s.names.length → s''.names[n]? = some name)) := by
  have hw : w.max ≤ 2 ^ 32 - 1 := by cases w <;> simp [Width.max]
  refine ⟨⟨n + 1, s.names.take n⟩, ?_, by simp [BSource.numSyms, rawUsize], rfl, ?_⟩
  · simp only [BSource.truncate]
    rw [if_neg (by omega), if_neg (by omega), if_neg (by omega), if_neg (by omega)]
  · intro h3 name
    refine ⟨n + 1, ⟨n + 1 + 1, s.names.take n ++ [name]⟩, ?_, by simp [rawUsize],
      by simp [BSource.numSyms, rawUsize], ?_⟩
    · simp only [BSource.nextSym, advance_ok (w := w) (p := p) (show n + 1 + 1 < w.max by omega),
        Res.bind_ok]
    · intro h4
      have : (s.names.take n).length = n := by rw [List.length_take]; omega
      rw [List.getElem?_append_right (by omega), this]
      simp

/-- **C75 is violated** when the documented range is used to enlarge a source: the number of
symbols grows but the table of names does not, so the name given to the next symbol is stored
at another symbol's place. -/
theorem C75_violated_grow :
    ∃ (s s' s'' : BSource) (sym : RawSym), s.truncate .u32 3 = .ok s' ∧
      s'.nextSym .u32 .debug (some "x") = .ok (sym, s'') ∧
      rawUsize sym = 3 ∧ s''.names[3]? = none ∧ s''.names[0]? = some (some "x") :=
  ⟨BSource.new, ⟨4, []⟩, ⟨5, [some "x"]⟩, 4, by decide +kernel, by decide +kernel, by decide,
    by decide, by decide⟩

example : (1 : Nat) ≤ 3 ∧ 3 < Width.max .u8 := by decide

/-- **C75 is violated** at the documented upper end `T::MAX`: truncating to the maximum panics
for every width, although the documentation allows `1 ..= T::MAX`. -/
theorem C75_violated_at_max (w : Width) (s : BSource) : s.truncate w w.max = .panic := by
  cases w <;> simp [BSource.truncate, Width.max]

/-- **C75 (documented panics).** Zero and values above the maximum panic. -/
theorem C75_truncate_panics (w : Width) (s : BSource) (n : Nat) (h : n = 0 ∨ w.max < n) :
    s.truncate w n = .panic := by
  rcases h with rfl | h
  · simp [BSource.truncate]
  · simp only [BSource.truncate, h, if_true, ite_self]

end Verif
