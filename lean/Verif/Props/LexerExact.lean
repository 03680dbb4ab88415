import Verif.Props.Lexer

/-! # Property C62, exact form, and property C137: recomputing lexer maps -/

namespace Verif

/-- The ends of the ranges of all classes, in the order of the classes: where a range of a symbol
begins (`true`) and the position after its end (`false`). -/
def rangeEnds (classes : List (LexerClasses × Sym)) : List (Nat × Bool × Sym) :=
  classes.flatMap fun e => e.1.flatMap fun r => [(r.1, true, e.2), (r.2 + 1, false, e.2)]

/-- Among the ends of ranges of the symbol `s` up to the character `c`, the one that is furthest to
the right (the last one of these in the order of the classes) is the begin of a range. -/
def OpenAt (classes : List (LexerClasses × Sym)) (s : Sym) (c : Nat) : Prop :=
  ∃ pre k post, rangeEnds classes = pre ++ (k, true, s) :: post ∧ k ≤ c ∧
    (∀ e ∈ pre, e.2.2 = s → e.1 ≤ c → e.1 ≤ k) ∧ ∀ e ∈ post, e.2.2 = s → e.1 ≤ c → e.1 < k

theorem changes_rangeEnds (m : LexerMap) : changes m.pairs = rangeEnds m.classes := by
  unfold changes LexerMap.pairs rangeEnds
  rw [List.flatMap_assoc]
  congr 1
  funext e
  rw [List.flatMap_map]

/-- The rightmost end, the later one among equals. -/
def rightmost (l : List (Nat × Bool × Sym)) : Option (Nat × Bool × Sym) :=
  l.foldl (fun acc e => match acc with
    | none => some e
    | some a => if a.1 ≤ e.1 then some e else some a) none

theorem rightmost_concat (l : List (Nat × Bool × Sym)) (e : Nat × Bool × Sym) :
    rightmost (l ++ [e]) = match rightmost l with
      | none => some e
      | some a => if a.1 ≤ e.1 then some e else some a := by
  unfold rightmost
  rw [List.foldl_append]
  rfl

theorem rightmost_iff (l : List (Nat × Bool × Sym)) (a : Nat × Bool × Sym) :
    rightmost l = some a ↔ ∃ pre post, l = pre ++ a :: post ∧ (∀ e ∈ pre, e.1 ≤ a.1) ∧
      ∀ e ∈ post, e.1 < a.1 := by
  induction l using List.reverseRecOn generalizing a with
  | nil => simp [rightmost]
  | append_singleton l e ih =>
    rw [rightmost_concat]
    have hnone : rightmost l = none → l = [] := by
      intro h
      rcases List.eq_nil_or_concat l with rfl | ⟨l', x, rfl⟩
      · rfl
      · rw [List.concat_eq_append, rightmost_concat] at h
        cases h' : rightmost l' with
        | none => rw [h'] at h; simp at h
        | some y => rw [h'] at h; simp only at h; split at h <;> simp at h
    cases h : rightmost l with
    | none =>
      have := hnone h
      subst this
      simp only [Option.some.injEq, List.nil_append]
      constructor
      · rintro rfl; exact ⟨[], [], rfl, by simp, by simp⟩
      · rintro ⟨pre, post, h1, -, -⟩
        cases pre with
        | nil => simp at h1; exact h1.1
        | cons x pre => simp at h1
    | some b =>
      obtain ⟨pre, post, h1, h2, h3⟩ := (ih b).1 h
      simp only
      have hmax : ∀ x ∈ l, x.1 ≤ b.1 := by
        intro x hx
        rw [h1] at hx
        rcases List.mem_append.1 hx with hx | hx
        · exact h2 x hx
        · rcases List.mem_cons.1 hx with rfl | hx
          · exact le_refl _
          · exact Nat.le_of_lt (h3 x hx)
      constructor
      · intro h4
        split at h4
        · rename_i hle
          cases h4
          exact ⟨l, [], rfl, fun x hx => le_trans (hmax x hx) hle, by simp⟩
        · rename_i hle
          cases h4
          refine ⟨pre, post ++ [e], by rw [h1]; simp, h2, fun x hx => ?_⟩
          rcases List.mem_append.1 hx with hx | hx
          · exact h3 x hx
          · rw [List.mem_singleton.1 hx]; omega
      · rintro ⟨pre', post', h4, h5, h6⟩
        rcases List.eq_nil_or_concat post' with rfl | ⟨post'', y, rfl⟩
        · obtain ⟨rfl, h7⟩ := List.append_inj' h4 rfl
          cases h7
          have : b ∈ l := by rw [h1]; simp
          rw [if_pos (h5 b this)]
        · rw [List.concat_eq_append] at h4 h6
          have h7 : l ++ [e] = (pre' ++ a :: post'') ++ [y] := by rw [h4]; simp
          obtain ⟨h8, h9⟩ := List.append_inj' h7 rfl
          cases h9
          have h10 := h6 e (by simp)
          have h11 : rightmost l = some a :=
            (ih a).2 ⟨pre', post'', h8, h5, fun x hx => h6 x (by simp [hx])⟩
          rw [h] at h11
          cases h11
          rw [if_neg (by omega)]

theorem present_last (s : Sym) (l : List (Nat × Bool × Sym)) (h : ∀ e ∈ l, e.2.2 = s) :
    present s false (l.map Prod.snd) = (l.getLast?.map fun e => e.2.1).getD false := by
  induction l using List.reverseRecOn with
  | nil => rfl
  | append_singleton l e ih =>
    rw [List.map_append, present_append]
    have := h e (by simp)
    simp [present, this]

/-- The changes of a symbol up to a character in the stored order end with the rightmost one. -/
theorem pushed_last (s : Sym) (c : Nat) (l : List (Nat × Bool × Sym)) :
    (pushed [] l).Pairwise (fun a b => a.1 < b.1) ∧
    ((flat (pushed [] l)).filter fun e => e.2.2 == s && decide (e.1 ≤ c)).getLast? =
      rightmost (l.filter fun e => e.2.2 == s && decide (e.1 ≤ c)) := by
  induction l using List.reverseRecOn with
  | nil => exact ⟨by simp [pushed], rfl⟩
  | append_singleton l e ih =>
    obtain ⟨i1, i2⟩ := ih
    have hp : pushed [] (l ++ [e]) = (pushed [] l).pushAt e.1 e.2 := by simp [pushed]
    obtain ⟨⟨A, B, a1, a2, a3, a4⟩, a5, -⟩ := pushAt_flat e.1 e.2 _ i1
    rw [hp]
    refine ⟨a5, ?_⟩
    rw [a2]
    rw [a1, List.filter_append] at i2
    rw [List.filter_append, List.filter_append]
    by_cases hpe : (e.2.2 == s && decide (e.1 ≤ c)) = true
    · rw [List.filter_cons_of_pos (p := fun e : Nat × Bool × Sym => e.2.2 == s && decide (e.1 ≤ c)) (a := (e.1, e.2)) hpe,
        List.filter_cons_of_pos (p := fun e : Nat × Bool × Sym => e.2.2 == s && decide (e.1 ≤ c)) (a := e) hpe, List.filter_nil, rightmost_concat, ← i2]
      rcases List.eq_nil_or_concat (B.filter fun e => e.2.2 == s && decide (e.1 ≤ c)) with hB | ⟨B', b, hB⟩
      · rw [hB, List.append_nil]
        rcases List.eq_nil_or_concat (A.filter fun e => e.2.2 == s && decide (e.1 ≤ c)) with hA | ⟨A', a, hA⟩
        · rw [hA]; rfl
        · rw [hA, List.concat_eq_append, List.getLast?_append, List.getLast?_append]
          have : a ∈ A := List.mem_of_mem_filter (p := fun e => e.2.2 == s && decide (e.1 ≤ c))
            (by rw [hA]; simp)
          simp [a3 a this]
      · rw [hB, List.concat_eq_append]
        have : b ∈ B := List.mem_of_mem_filter (p := fun e => e.2.2 == s && decide (e.1 ≤ c))
          (by rw [hB]; simp)
        have h := a4 b this
        rw [show ∀ A : List (Nat × Bool × Sym), A ++ (e.1, e.2) :: (B' ++ [b])
          = (A ++ (e.1, e.2) :: B') ++ [b] by simp, List.getLast?_concat,
          ← List.append_assoc, List.getLast?_concat]
        simp only
        rw [if_neg (by omega)]
    · rw [List.filter_cons_of_neg (p := fun e : Nat × Bool × Sym => e.2.2 == s && decide (e.1 ≤ c)) (a := (e.1, e.2)) hpe,
        List.filter_cons_of_neg (p := fun e : Nat × Bool × Sym => e.2.2 == s && decide (e.1 ≤ c)) (a := e) hpe, List.filter_nil, List.append_nil]
      exact i2

theorem filter_split {α : Type} {p : α → Bool} {l pre' post' : List α} {a : α}
    (h : l.filter p = pre' ++ a :: post') :
    ∃ pre post, l = pre ++ a :: post ∧ pre.filter p = pre' ∧ post.filter p = post' := by
  induction l generalizing pre' with
  | nil => simp at h
  | cons x l ih =>
    rw [List.filter_cons] at h
    split at h
    · rename_i hx
      cases pre' with
      | nil =>
        simp only [List.nil_append, List.cons.injEq] at h
        exact ⟨[], l, by rw [h.1]; rfl, rfl, h.2⟩
      | cons y pre' =>
        simp only [List.cons_append, List.cons.injEq] at h
        obtain ⟨pre, post, h1, h2, h3⟩ := ih h.2
        exact ⟨x :: pre, post, by rw [h1]; rfl, by rw [List.filter_cons_of_pos hx, h2, h.1], h3⟩
    · rename_i hx
      obtain ⟨pre, post, h1, h2, h3⟩ := ih h
      exact ⟨x :: pre, post, by rw [h1]; rfl, by rw [List.filter_cons_of_neg hx, h2], h3⟩

theorem openAt_iff (classes : List (LexerClasses × Sym)) (s : Sym) (c : Nat) :
    ((rightmost ((rangeEnds classes).filter fun e => e.2.2 == s && decide (e.1 ≤ c))).map
      fun e => e.2.1).getD false = true ↔ OpenAt classes s c := by
  constructor
  · intro h
    cases h' : rightmost ((rangeEnds classes).filter fun e => e.2.2 == s && decide (e.1 ≤ c)) with
    | none => rw [h'] at h; simp at h
    | some a =>
      rw [h'] at h
      obtain ⟨k, b, t⟩ := a
      simp only [Option.map_some, Option.getD_some] at h
      subst h
      obtain ⟨pre', post', h1, h2, h3⟩ := (rightmost_iff _ _).1 h'
      have hm : (k, true, t) ∈ (rangeEnds classes).filter
          fun e => e.2.2 == s && decide (e.1 ≤ c) := by rw [h1]; simp
      have := (List.mem_filter.1 hm).2
      simp only [Bool.and_eq_true, beq_iff_eq, decide_eq_true_eq] at this
      obtain ⟨rfl, hk⟩ := this
      obtain ⟨pre, post, h4, rfl, rfl⟩ := filter_split h1
      refine ⟨pre, k, post, h4, hk, fun e he e1 e2 => h2 e ?_, fun e he e1 e2 => h3 e ?_⟩
      · exact List.mem_filter.2 ⟨he, by simp [e1, e2]⟩
      · exact List.mem_filter.2 ⟨he, by simp [e1, e2]⟩
  · rintro ⟨pre, k, post, h1, h2, h3, h4⟩
    have : rightmost ((rangeEnds classes).filter fun e => e.2.2 == s && decide (e.1 ≤ c)) =
        some (k, true, s) := by
      rw [rightmost_iff, h1, List.filter_append, List.filter_cons_of_pos (by simp [h2])]
      refine ⟨_, _, rfl, fun e he => ?_, fun e he => ?_⟩
      · obtain ⟨h5, h6⟩ := List.mem_filter.1 he
        simp only [Bool.and_eq_true, beq_iff_eq, decide_eq_true_eq] at h6
        exact h3 e h5 h6.1 h6.2
      · obtain ⟨h5, h6⟩ := List.mem_filter.1 he
        simp only [Bool.and_eq_true, beq_iff_eq, decide_eq_true_eq] at h6
        exact h4 e h5 h6.1 h6.2
    rw [this]
    rfl

/-! ASCII -/

theorem pushAscii_fold_list {s : Sym} (n lo : Nat) {result r' : List (List Sym)}
    (h : (List.range' lo n).foldlM (pushAscii s) result = .ok r') (c : Nat) :
    r'[c]? = (result[c]?).map fun l => if lo ≤ c ∧ c < lo + n then l ++ [s] else l := by
  induction n generalizing lo result with
  | zero =>
    cases h
    have : ¬ (lo ≤ c ∧ c < lo + 0) := by omega
    simp only [this, if_false]
    simp
  | succ n ih =>
    rw [List.range'_succ, List.foldlM_cons] at h
    obtain ⟨r1, h1, h2⟩ := Res.bind_eq_ok.1 h
    have hlt : lo < result.length := by
      by_contra hn
      unfold pushAscii at h1
      rw [Res.index_panic (by omega)] at h1
      cases h1
    rw [pushAscii_lt hlt] at h1
    cases h1
    rw [ih (lo + 1) h2, List.getElem?_set]
    by_cases hc : lo = c
    · subst hc
      rw [if_pos rfl, if_pos hlt, List.getElem?_eq_getElem hlt]
      simp
    · rw [if_neg hc]
      congr 1
      funext l
      have : (lo + 1 ≤ c ∧ c < lo + 1 + n) ↔ (lo ≤ c ∧ c < lo + (n + 1)) := by omega
      simp only [this]

theorem ascii_fold_list (pairs : List ((Nat × Nat) × Sym)) {result r' : List (List Sym)}
    (h : pairs.foldlM asciiRange result = .ok r') (hok : ∀ e ∈ pairs, AsciiOk e) (c : Nat)
    (hc : c < 128) :
    r'[c]? = (result[c]?).map fun l =>
      l ++ (pairs.filter fun e => decide (e.1.1 ≤ c ∧ c ≤ e.1.2)).map Prod.snd := by
  induction pairs generalizing result with
  | nil => cases h; simp
  | cons e pairs ih =>
    rw [List.foldlM_cons] at h
    obtain ⟨r1, h1, h2⟩ := Res.bind_eq_ok.1 h
    rw [ih h2 (fun e he => hok e (by simp [he]))]
    have hr1 : r1[c]? = (result[c]?).map fun l => if e.1.1 ≤ c ∧ c ≤ e.1.2 then l ++ [e.2] else l := by
      unfold asciiRange at h1
      split at h1
      · rename_i hlt
        rw [pushAscii_fold_list _ _ h1]
        have h3 := hok e (by simp) hlt
        congr 1
        funext l
        have : (e.1.1 ≤ c ∧ c < e.1.1 + (min e.1.2 256 + 1 - e.1.1)) ↔ (e.1.1 ≤ c ∧ c ≤ e.1.2) := by
          omega
        simp only [this]
      · rename_i hlt
        cases h1
        have : ¬ (e.1.1 ≤ c ∧ c ≤ e.1.2) := by omega
        simp [this]
    rw [hr1, Option.map_map]
    congr 1
    funext l
    simp only [Function.comp_apply]
    by_cases hin : e.1.1 ≤ c ∧ c ≤ e.1.2
    · rw [if_pos hin, List.filter_cons_of_pos (by simpa using hin)]
      simp
    · rw [if_neg hin, List.filter_cons_of_neg (by simpa using hin)]

/-- **C62** (partial in that the answer is not always that of the property; exact for every map
that can be computed). For an ASCII character the answer lists, in the order of the classes, the
symbol of a class once for every range of it that contains the character. For any other character
the answer is ascending and has the symbols for which the rightmost end of a range up to the
character is the begin of a range. -/
theorem C62_exact_partial {m m' : LexerMap} (h : m.compute = .ok m') (c : Nat) :
    (c < 128 → m'.get c = .ok (m.classes.flatMap fun e =>
      (e.1.filter fun r => decide (r.1 ≤ c ∧ c ≤ r.2)).map fun _ => e.2)) ∧
    (128 ≤ c → ∃ l, m'.get c = .ok l ∧ l.Pairwise (· < ·) ∧ ∀ s, s ∈ l ↔ OpenAt m.classes s c) := by
  rcases compute_cases m with ⟨m1, h1, h2, h3, h4, h5, h6⟩ | ⟨h1, -⟩
  case inr => rw [h] at h1; cases h1
  rw [h] at h1
  cases h1
  constructor
  · intro hc
    unfold LexerMap.compute at h
    obtain ⟨ascii, e1, e2⟩ := Res.bind_eq_ok.1 h
    obtain ⟨ranges, e3, e4⟩ := Res.bind_eq_ok.1 e2
    cases e4
    have := ascii_fold_list m.pairs e1 (fun e he => (h2 e he).1) c hc
    rw [List.getElem?_replicate, if_pos (by omega)] at this
    unfold LexerMap.get
    rw [if_pos hc, Res.index_ok, this]
    simp only [Option.map_some, List.nil_append, Option.some.injEq]
    unfold LexerMap.pairs
    rw [List.filter_flatMap, List.map_flatMap]
    congr 1
    funext e
    rw [List.filter_map, List.map_map]
    rfl
  · intro hc
    unfold LexerMap.get
    rw [if_neg (by omega)]
    refine ⟨_, rfl, ?_⟩
    have p1 := fun s => pushed_last s c (changes m.pairs)
    rw [h6, sweep_get _ (p1 0).1]
    refine ⟨foldl_workChange_sorted _ .nil, fun s => ?_⟩
    rw [mem_work, present_filter]
    have hcomm : ((flat ((pushed [] (changes m.pairs)).filter (·.1 ≤ c))).map Prod.snd).filter
        (fun c => c.2 == s) = ((flat (pushed [] (changes m.pairs))).filter
          fun e => e.2.2 == s && decide (e.1 ≤ c)).map Prod.snd := by
      rw [flat_filter, List.filter_map, List.filter_filter]
      rfl
    rw [hcomm]
    simp only [List.not_mem_nil, decide_false]
    rw [present_last s _ (by
      intro e he
      have := (List.mem_filter.1 he).2
      simp only [Bool.and_eq_true, beq_iff_eq] at this
      exact this.1), (p1 s).2, changes_rangeEnds]
    exact openAt_iff m.classes s c

/-- **C62**, one direction for every map whose ranges are not inverted: a symbol is found only if
one of its classes contains the character. So sharing a symbol between classes can lose matches but
never invents one. -/
theorem C62_sound_partial {m m' : LexerMap} (h : m.compute = .ok m')
    (hr : ∀ e ∈ m.classes, ∀ r ∈ e.1, r.1 ≤ r.2) (c : Nat) :
    ∃ l, m'.get c = .ok l ∧ (∀ s ∈ l, ∃ rs, (rs, s) ∈ m.classes ∧ InRanges rs c) ∧
      (c < 128 → ∀ s, (∃ rs, (rs, s) ∈ m.classes ∧ InRanges rs c) → s ∈ l) := by
  obtain ⟨h1, h2⟩ := C62_exact_partial h c
  by_cases hc : c < 128
  · refine ⟨_, h1 hc, fun s hs => ?_, fun _ s hs => ?_⟩
    · simp only [List.mem_flatMap, List.mem_map, List.mem_filter, decide_eq_true_eq] at hs
      obtain ⟨e, he, r, ⟨hr1, hr2⟩, rfl⟩ := hs
      exact ⟨e.1, he, r, hr1, hr2⟩
    · obtain ⟨rs, h3, r, h4, h5⟩ := hs
      simp only [List.mem_flatMap, List.mem_map, List.mem_filter, decide_eq_true_eq]
      exact ⟨(rs, s), h3, r, ⟨h4, h5⟩, rfl⟩
  · obtain ⟨l, h3, h4, h5⟩ := h2 (by omega)
    refine ⟨l, h3, fun s hs => ?_, fun h => absurd h hc⟩
    obtain ⟨pre, k, post, e1, e2, e3, e4⟩ := (h5 s).1 hs
    -- the end that belongs to the begin comes after it
    have key : ∀ (classes : List (LexerClasses × Sym)), (∀ e ∈ classes, ∀ r ∈ e.1, r.1 ≤ r.2) →
        ∀ pre post, rangeEnds classes = pre ++ (k, true, s) :: post →
        ∃ rs, (rs, s) ∈ classes ∧ ∃ r ∈ rs, r.1 = k ∧ (r.2 + 1, false, s) ∈ post := by
      intro classes
      induction classes with
      | nil => intro _ pre post h; simp [rangeEnds] at h
      | cons e classes ih =>
        obtain ⟨rs, t⟩ := e
        intro hr
        have hcl := ih fun e he => hr e (by simp [he])
        have hsub : ∀ rs' : List (Nat × Nat), (∀ r ∈ rs', r ∈ rs) → ∀ pre post,
            (rs'.flatMap fun r => [(r.1, true, t), (r.2 + 1, false, t)]) ++ rangeEnds classes
              = pre ++ (k, true, s) :: post →
            ∃ rs₁, (rs₁, s) ∈ (rs, t) :: classes ∧ ∃ r ∈ rs₁, r.1 = k ∧ (r.2 + 1, false, s) ∈ post := by
          intro rs'
          induction rs' with
          | nil =>
            intro _ pre post h
            obtain ⟨rs₁, a1, a2⟩ := hcl pre post h
            exact ⟨rs₁, by simp [a1], a2⟩
          | cons r rs' ih' =>
            intro hin pre post h
            rw [List.flatMap_cons] at h
            match pre, h with
            | [], h =>
              simp only [List.nil_append, List.cons_append, List.cons.injEq, Prod.mk.injEq] at h
              obtain ⟨⟨g1, -, g2⟩, g3⟩ := h
              subst g2
              exact ⟨rs, by simp, r, hin r (by simp), g1, by rw [← g3]; simp⟩
            | [x], h =>
              simp only [List.nil_append, List.cons_append, List.cons.injEq, Prod.mk.injEq] at h
              exact absurd h.2.1.2.1 (by simp)
            | x :: y :: pre, h =>
              simp only [List.nil_append, List.cons_append, List.cons.injEq] at h
              exact ih' (fun r hr => hin r (by simp [hr])) pre post h.2.2
        intro pre post h
        exact hsub rs (fun r h => h) pre post h
    obtain ⟨rs, a1, r, a2, a3, a4⟩ := key m.classes hr pre post e1
    have hle := hr _ a1 r a2
    refine ⟨rs, a1, r, a2, by omega, ?_⟩
    by_contra hn
    have := e4 _ a4 rfl (by simp only; omega)
    simp only at this
    omega

/-- The class `[é-ü]` under the symbol of `é` (see `exShared`): the begin of both at `é` is followed
by the end of the first. -/
example : OpenAt exShared.classes 0 0xEA ∧ ¬ OpenAt exShared.classes 0 0xEC := by
  refine ⟨⟨[(0xE9, true, 0), (0xEB, false, 0)], 0xE9, [(0xFD, false, 0)], rfl, by decide,
    by decide, by decide⟩, ?_⟩
  rintro ⟨pre, k, post, h1, h2, h3, h4⟩
  have hm : ((0xEB, false, 0) : Nat × Bool × Sym) ∈ pre ++ (k, true, 0) :: post := by
    rw [← h1]; decide
  have hk : ((k, true, 0) : Nat × Bool × Sym) ∈ rangeEnds exShared.classes := by rw [h1]; simp
  have : k = 0xE9 := by
    have h : ∀ e ∈ rangeEnds exShared.classes, e.2.1 = true → e.1 = 0xE9 := by decide
    exact h _ hk rfl
  subst this
  rcases List.mem_append.1 hm with hm | hm
  · exact absurd (h3 _ hm rfl (by decide)) (by decide)
  · rcases List.mem_cons.1 hm with hm | hm
    · simp at hm
    · exact absurd (h4 _ hm rfl (by decide)) (by decide)

example : ∀ e ∈ exShared.classes, ∀ r ∈ e.1, r.1 ≤ r.2 := by decide

/-! ## C137 -/

/-- **C137.** What `compute` does depends on the classes only: tables from an earlier run are
replaced, computing again changes nothing, and the classes are kept. -/
theorem C137_recompute (m : LexerMap) (ascii : List (List Sym)) (ranges : BMap (List Sym)) :
    ({ m with ascii := ascii, ranges := ranges } : LexerMap).compute = m.compute ∧
    ∀ m', m.compute = .ok m' → m'.classes = m.classes ∧ m'.compute = .ok m' := by
  refine ⟨rfl, fun m' h => ?_⟩
  have hc : m'.classes = m.classes := by
    unfold LexerMap.compute at h
    obtain ⟨a, -, h⟩ := Res.bind_eq_ok.1 h
    obtain ⟨r, -, h⟩ := Res.bind_eq_ok.1 h
    cases h
    rfl
  refine ⟨hc, ?_⟩
  rw [← h]
  obtain ⟨cl, a, r⟩ := m'
  simp only at hc
  subst hc
  rfl

/-- **C137**, before computing: looking up an ASCII character panics, any other character is found
in no class. -/
theorem C137_uncomputed (classes : List (LexerClasses × Sym)) (c : Nat) :
    (c < 128 → ({ classes := classes } : LexerMap).get c = .panic) ∧
    (128 ≤ c → ({ classes := classes } : LexerMap).get c = .ok []) := by
  unfold LexerMap.get
  refine ⟨fun h => ?_, fun h => ?_⟩
  · rw [if_pos h]; rfl
  · rw [if_neg (by omega)]; rfl

/-- **C137**, adding a class with a symbol of its own adds this symbol to the answers for the
characters of the class and changes no other answer. -/
theorem C137_add_class {m m₁ m₂ : LexerMap} {rs : LexerClasses} {s : Sym}
    (hp : m.Proper) (hs : ∀ e ∈ m.classes, e.2 ≠ s) (hrs : Apart rs)
    (h1 : m.compute = .ok m₁)
    (h2 : ({ m₁ with classes := insertClass rs s m₁.classes } : LexerMap).compute = .ok m₂) (c : Nat) :
    ∃ l₁ l₂, m₁.get c = .ok l₁ ∧ m₂.get c = .ok l₂ ∧ (∀ t, t ≠ s → (t ∈ l₂ ↔ t ∈ l₁)) ∧
      (s ∈ l₂ ↔ InRanges rs c) := by
  have hperm : ∀ l : List (LexerClasses × Sym), (insertClass rs s l).Perm ((rs, s) :: l) := by
    intro l
    induction l with
    | nil => exact .refl _
    | cons e l ih =>
      unfold insertClass
      split
      · exact .refl _
      · exact (ih.cons e).trans (.swap _ _ _)
  have hc : m₁.classes = m.classes := ((C137_recompute m [] []).2 m₁ h1).1
  rw [hc] at h2
  have hp2 : ({ m₁ with classes := insertClass rs s m.classes } : LexerMap).Proper := by
    refine ⟨?_, fun e he => ?_⟩
    · refine (((hperm m.classes).map Prod.snd).nodup_iff).2 ?_
      rw [List.map_cons, List.nodup_cons]
      refine ⟨fun h => ?_, hp.1⟩
      obtain ⟨e, he, e'⟩ := List.mem_map.1 h
      exact hs e he e'
    · rcases List.mem_cons.1 ((hperm _).mem_iff.1 he) with rfl | he
      · exact hrs
      · exact hp.2 e he
  obtain ⟨l₁, a1, a2⟩ := C62_lookup_partial hp h1 c
  obtain ⟨l₂, b1, b2⟩ := C62_lookup_partial hp2 h2 c
  refine ⟨l₁, l₂, a1, b1, fun t ht => ?_, ?_⟩
  · rw [a2, b2]
    simp only [(hperm _).mem_iff, List.mem_cons, Prod.mk.injEq, ht, and_false, false_or]
  · rw [b2]
    simp only [(hperm _).mem_iff, List.mem_cons, Prod.mk.injEq, and_true]
    constructor
    · rintro ⟨rs', rfl | h, h'⟩
      · exact h'
      · exact absurd rfl (hs _ h)
    · intro h; exact ⟨rs, .inl rfl, h⟩

/-- The class `[ö-ú]` added to `exLexer`. -/
example : (do
    let m ← exLexer.compute
    let m ← ({ m with classes := insertClass [(0xF6, 0xFA)] 9 m.classes } : LexerMap).compute
    let a ← m.get 0xF6
    let b ← m.get 0xFB
    .ok (a, b)) = .ok ([4, 5, 9], [4, 5]) := by decide +kernel

example : (∀ e ∈ exLexer.classes, e.2 ≠ 9) ∧ Apart [(0xF6, 0xFA)] := by
  refine ⟨by decide, ?_, ?_⟩ <;> simp

end Verif
