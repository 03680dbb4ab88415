import Verif.Spec.Regexp
import Verif.Proofs.Tactics
import Mathlib.Data.List.Induction

/-! # Proofs about the lexer map -/

namespace Verif

/-! ## The table for ASCII characters -/

theorem pushAscii_lt {s : Sym} {result : List (List Sym)} {a : Nat} (h : a < result.length) :
    pushAscii s result a = .ok (result.set a (result[a] ++ [s])) := by
  unfold pushAscii
  rw [Res.index_lt h]
  rfl

theorem pushAscii_fold {s : Sym} (n lo : Nat) {result : List (List Sym)}
    (h : n = 0 ∨ lo + n ≤ result.length) :
    ∃ r', (List.range' lo n).foldlM (pushAscii s) result = .ok r' ∧ r'.length = result.length ∧
      ∀ c t, (∃ l, r'[c]? = some l ∧ t ∈ l) ↔
        (∃ l, result[c]? = some l ∧ t ∈ l) ∨ (t = s ∧ lo ≤ c ∧ c < lo + n) := by
  induction n generalizing lo result with
  | zero => exact ⟨result, rfl, rfl, fun c t => by simp⟩
  | succ n ih =>
    have h' : lo + (n + 1) ≤ result.length := h.resolve_left (by omega)
    rw [List.range'_succ, List.foldlM_cons, pushAscii_lt (by omega), Res.bind_ok]
    obtain ⟨r', h1, h2, h3⟩ := ih (lo + 1)
      (result := result.set lo (result[lo]'(by omega) ++ [s])) (.inr (by simp; omega))
    refine ⟨r', h1, by simpa using h2, fun c t => ?_⟩
    rw [h3, List.getElem?_set]
    by_cases hc : lo = c
    · subst hc
      rw [if_pos rfl, if_pos (by omega)]
      simp only [Option.some.injEq, exists_eq_left', List.mem_append, List.mem_singleton]
      rw [List.getElem?_eq_getElem (by omega)]
      simp only [Option.some.injEq, exists_eq_left']
      constructor
      · rintro ((h | h) | h)
        · exact .inl h
        · exact .inr ⟨h, by omega, by omega⟩
        · omega
      · rintro (h | h)
        · exact .inl (.inl h)
        · exact .inl (.inr h.1)
    · rw [if_neg hc]
      constructor
      · rintro (h | h)
        · exact .inl h
        · exact .inr ⟨h.1, by omega, by omega⟩
      · rintro (h | h)
        · exact .inl h
        · exact .inr ⟨h.1, by omega, by omega⟩

theorem pushAscii_fold_panic {s : Sym} (n lo : Nat) {result : List (List Sym)}
    (h : lo ≤ result.length ∧ result.length < lo + n) :
    (List.range' lo n).foldlM (pushAscii s) result = .panic := by
  induction n generalizing lo result with
  | zero => omega
  | succ n ih =>
    rw [List.range'_succ, List.foldlM_cons]
    by_cases hl : lo < result.length
    · rw [pushAscii_lt hl, Res.bind_ok]
      exact ih (lo + 1) (by simp; omega)
    · unfold pushAscii
      rw [Res.index_panic (by omega)]
      rfl

/-- A range that the first loop of `compute` can handle. -/
def AsciiOk (e : (Nat × Nat) × Sym) : Prop := e.1.1 < 128 → e.1.2 < 256

instance (e : (Nat × Nat) × Sym) : Decidable (AsciiOk e) :=
  inferInstanceAs (Decidable (_ → _))

theorem asciiRange_ok {result : List (List Sym)} (hl : result.length = 256)
    {e : (Nat × Nat) × Sym} (h : AsciiOk e) :
    ∃ r', asciiRange result e = .ok r' ∧ r'.length = 256 ∧
      ∀ c t, c < 128 → ((∃ l, r'[c]? = some l ∧ t ∈ l) ↔
        (∃ l, result[c]? = some l ∧ t ∈ l) ∨ (t = e.2 ∧ e.1.1 ≤ c ∧ c ≤ e.1.2)) := by
  unfold asciiRange
  by_cases h1 : e.1.1 < 128
  · rw [if_pos h1]
    have h2 := h h1
    obtain ⟨r', a1, a2, a3⟩ := pushAscii_fold (s := e.2) (min e.1.2 256 + 1 - e.1.1) e.1.1
      (result := result) (by omega)
    exact ⟨r', a1, a2.trans hl, fun c t hc => by
      rw [a3]
      constructor
      · rintro (h | ⟨h, h', h''⟩)
        · exact .inl h
        · exact .inr ⟨h, by omega, by omega⟩
      · rintro (h | ⟨h, h', h''⟩)
        · exact .inl h
        · exact .inr ⟨h, by omega, by omega⟩⟩
  · rw [if_neg h1]
    refine ⟨result, rfl, hl, fun c t hc => ?_⟩
    constructor
    · exact .inl
    · rintro (h | ⟨-, h, -⟩)
      · exact h
      · omega

theorem asciiRange_panic {result : List (List Sym)} (hl : result.length = 256)
    {e : (Nat × Nat) × Sym} (h : ¬ AsciiOk e) : asciiRange result e = .panic := by
  unfold AsciiOk at h
  have h1 : e.1.1 < 128 ∧ 256 ≤ e.1.2 := by omega
  unfold asciiRange
  rw [if_pos h1.1]
  exact pushAscii_fold_panic _ _ (by omega)

theorem ascii_ok (pairs : List ((Nat × Nat) × Sym)) (h : ∀ e ∈ pairs, AsciiOk e)
    {result : List (List Sym)} (hl : result.length = 256) :
    ∃ r', pairs.foldlM asciiRange result = .ok r' ∧ r'.length = 256 ∧
      ∀ c t, c < 128 → ((∃ l, r'[c]? = some l ∧ t ∈ l) ↔
        (∃ l, result[c]? = some l ∧ t ∈ l) ∨ ∃ e ∈ pairs, t = e.2 ∧ e.1.1 ≤ c ∧ c ≤ e.1.2) := by
  induction pairs generalizing result with
  | nil => exact ⟨result, rfl, hl, fun c t hc => by simp⟩
  | cons e pairs ih =>
    obtain ⟨r1, a1, a2, a3⟩ := asciiRange_ok hl (h e (by simp))
    obtain ⟨r2, b1, b2, b3⟩ := ih (fun e he => h e (by simp [he])) a2
    refine ⟨r2, by rw [List.foldlM_cons, a1, Res.bind_ok, b1], b2, fun c t hc => ?_⟩
    rw [b3 c t hc, a3 c t hc]
    simp only [List.mem_cons, exists_eq_or_imp, or_assoc]

theorem ascii_panic (pairs : List ((Nat × Nat) × Sym)) (h : ∃ e ∈ pairs, ¬ AsciiOk e)
    {result : List (List Sym)} (hl : result.length = 256) :
    pairs.foldlM asciiRange result = .panic := by
  induction pairs generalizing result with
  | nil => simp at h
  | cons e pairs ih =>
    rw [List.foldlM_cons]
    by_cases he : AsciiOk e
    · obtain ⟨r1, a1, a2, -⟩ := asciiRange_ok hl he
      rw [a1, Res.bind_ok]
      refine ih ?_ a2
      obtain ⟨e', h1, h2⟩ := h
      rcases List.mem_cons.1 h1 with rfl | h1
      · exact absurd he h2
      · exact ⟨e', h1, h2⟩
    · rw [asciiRange_panic hl he]
      rfl

/-! ## The changes at the ends of the ranges -/

/-- The entries of a map of vectors as one list. -/
def flat {α : Type} (m : BMap (List α)) : List (Nat × α) := m.flatMap fun e => e.2.map fun v => (e.1, v)

theorem pushAt_flat {α : Type} (k : Nat) (v : α) (m : BMap (List α))
    (hs : m.Pairwise fun a b => a.1 < b.1) :
    (∃ A B, flat m = A ++ B ∧ flat (m.pushAt k v) = A ++ (k, v) :: B ∧ (∀ e ∈ A, e.1 ≤ k) ∧
      ∀ e ∈ B, k < e.1) ∧
    (m.pushAt k v).Pairwise (fun a b => a.1 < b.1) ∧
    ∀ e ∈ m.pushAt k v, e.1 = k ∨ ∃ e' ∈ m, e'.1 = e.1 := by
  induction m with
  | nil => exact ⟨⟨[], [], rfl, rfl, by simp, by simp⟩, by simp [BMap.pushAt], by simp [BMap.pushAt]⟩
  | cons e m ih =>
    obtain ⟨k', l⟩ := e
    obtain ⟨hs1, hs2⟩ := List.pairwise_cons.1 hs
    simp only at hs1
    have hB : ∀ e ∈ flat m, k' < e.1 := by
      intro e he
      simp only [flat, List.mem_flatMap, List.mem_map] at he
      obtain ⟨a, ha, v, -, rfl⟩ := he
      exact hs1 a ha
    unfold BMap.pushAt
    split
    · rename_i h
      refine ⟨⟨[], flat ((k', l) :: m), rfl, rfl, by simp, ?_⟩, ?_, ?_⟩
      · intro e he
        simp only [flat, List.flatMap_cons, List.mem_append, List.mem_map] at he
        rcases he with ⟨v, -, rfl⟩ | he
        · exact h
        · have := hB e he; omega
      · refine List.pairwise_cons.2 ⟨?_, hs⟩
        intro e he
        rcases List.mem_cons.1 he with rfl | he
        · exact h
        · have := hs1 e he; simp only; omega
      · intro e he
        rcases List.mem_cons.1 he with rfl | he
        · exact .inl rfl
        · exact .inr ⟨e, he, rfl⟩
    · rename_i h
      split
      · rename_i h'
        subst h'
        refine ⟨⟨l.map fun v => (k, v), flat m, rfl, ?_, ?_, hB⟩, ?_, ?_⟩
        · simp [flat]
        · simp
        · exact List.pairwise_cons.2 ⟨hs1, hs2⟩
        · intro e he
          rcases List.mem_cons.1 he with rfl | he
          · exact .inl rfl
          · exact .inr ⟨e, List.mem_cons_of_mem _ he, rfl⟩
      · rename_i h'
        obtain ⟨⟨A, B, a1, a2, a3, a4⟩, a5, a6⟩ := ih hs2
        refine ⟨⟨(l.map fun v => (k', v)) ++ A, B, ?_, ?_, ?_, a4⟩, ?_, ?_⟩
        · rw [List.append_assoc, ← a1]; rfl
        · rw [List.append_assoc, ← a2]; rfl
        · intro e he
          rcases List.mem_append.1 he with he | he
          · simp only [List.mem_map] at he
            obtain ⟨v, -, rfl⟩ := he
            simp only; omega
          · exact a3 e he
        · refine List.pairwise_cons.2 ⟨?_, a5⟩
          intro e he
          simp only
          rcases a6 e he with e' | ⟨e', h1, h2⟩
          · omega
          · have := hs1 e' h1; omega
        · intro e he
          rcases List.mem_cons.1 he with rfl | he
          · exact .inr ⟨_, List.mem_cons_self .., rfl⟩
          · rcases a6 e he with h | ⟨e', h1, h2⟩
            · exact .inl h
            · exact .inr ⟨e', List.mem_cons_of_mem _ h1, h2⟩

/-- The changes made by a list of ranges, in the order in which they are stored. -/
def changes (pairs : List ((Nat × Nat) × Sym)) : List (Nat × (Bool × Sym)) :=
  pairs.flatMap fun e => [(e.1.1, (true, e.2)), (e.1.2 + 1, (false, e.2))]

/-- The map after a list of insertions. -/
def pushed (m : BMap (List (Bool × Sym))) (l : List (Nat × (Bool × Sym))) :
    BMap (List (Bool × Sym)) := l.foldl (fun m e => m.pushAt e.1 e.2) m

theorem changeRange_ok {m : BMap (List (Bool × Sym))} {e : (Nat × Nat) × Sym}
    (h : isScalar (e.1.2 + 1) = true) :
    changeRange m e = .ok (pushed m (changes [e])) := by
  unfold changeRange charFromU32
  rw [if_pos h]
  rfl

theorem change_ok (pairs : List ((Nat × Nat) × Sym))
    (h : ∀ e ∈ pairs, isScalar (e.1.2 + 1) = true) (m : BMap (List (Bool × Sym))) :
    pairs.foldlM changeRange m = .ok (pushed m (changes pairs)) := by
  induction pairs generalizing m with
  | nil => rfl
  | cons e pairs ih =>
    rw [List.foldlM_cons, changeRange_ok (h e (by simp)), Res.bind_ok,
      ih (fun e he => h e (by simp [he]))]
    simp [pushed, changes]

theorem change_panic (pairs : List ((Nat × Nat) × Sym))
    (h : ∃ e ∈ pairs, ¬ isScalar (e.1.2 + 1) = true) (m : BMap (List (Bool × Sym))) :
    pairs.foldlM changeRange m = .panic := by
  induction pairs generalizing m with
  | nil => simp at h
  | cons e pairs ih =>
    rw [List.foldlM_cons]
    by_cases he : isScalar (e.1.2 + 1) = true
    · rw [changeRange_ok he, Res.bind_ok]
      refine ih ?_ _
      obtain ⟨e', h1, h2⟩ := h
      rcases List.mem_cons.1 h1 with rfl | h1
      · exact absurd he h2
      · exact ⟨e', h1, h2⟩
    · unfold changeRange charFromU32
      rw [if_neg he]
      rfl

/-- The changes of one symbol. -/
def changesOf (s : Sym) (l : List (Nat × (Bool × Sym))) : List (Nat × (Bool × Sym)) :=
  l.filter fun e => e.2.2 == s

theorem pushed_flat (s : Sym) (l : List (Nat × (Bool × Sym)))
    (hasc : (changesOf s l).Pairwise fun a b => a.1 ≤ b.1) :
    (pushed [] l).Pairwise (fun a b => a.1 < b.1) ∧
      changesOf s (flat (pushed [] l)) = changesOf s l := by
  induction l using List.reverseRecOn with
  | nil => exact ⟨by simp [pushed], rfl⟩
  | append_singleton l e ih =>
    have hsplit : changesOf s (l ++ [e]) = changesOf s l ++ changesOf s [e] := by
      simp [changesOf]
    rw [hsplit] at hasc
    obtain ⟨p1, p2, p3⟩ := List.pairwise_append.1 hasc
    obtain ⟨i1, i2⟩ := ih p1
    have hp : pushed [] (l ++ [e]) = (pushed [] l).pushAt e.1 e.2 := by
      simp [pushed]
    obtain ⟨⟨A, B, a1, a2, a3, a4⟩, a5, -⟩ := pushAt_flat e.1 e.2 _ i1
    rw [hp]
    refine ⟨a5, ?_⟩
    rw [hsplit, a2]
    rw [a1] at i2
    have hAB : changesOf s (A ++ B) = changesOf s A ++ changesOf s B := by simp [changesOf]
    have hAeB : changesOf s (A ++ (e.1, e.2) :: B) =
        changesOf s A ++ (changesOf s [e] ++ changesOf s B) := by
      simp [changesOf, List.filter_cons]
      split <;> simp
    rw [hAeB, ← i2, hAB, List.append_assoc]
    by_cases hs : e.2.2 = s
    · have hB : changesOf s B = [] := by
        rw [List.eq_nil_iff_forall_not_mem]
        intro b hb
        have hb' : b ∈ changesOf s l := by
          rw [← i2, hAB]
          exact List.mem_append_right _ hb
        have h1 := p3 b hb' e (by simp [changesOf, hs])
        have h2 := a4 b (List.mem_of_mem_filter hb)
        omega
      rw [hB, List.append_nil, List.nil_append]
    · have : changesOf s [e] = [] := by simp [changesOf, hs]
      rw [this, List.nil_append, List.append_nil]

/-! ## The sweep -/

theorem mem_workInsert {s t : Sym} {work : List Sym} : t ∈ workInsert s work ↔ t = s ∨ t ∈ work := by
  induction work with
  | nil => simp [workInsert]
  | cons a work ih =>
    unfold workInsert
    split
    · simp
    · split
      · rename_i h
        subst h
        simp
      · simp only [List.mem_cons, ih]
        constructor
        · rintro (h | h | h) <;> simp [h]
        · rintro (h | h | h) <;> simp [h]

/-- Whether the symbol is present after some changes. -/
def present (s : Sym) (b : Bool) : List (Bool × Sym) → Bool
  | [] => b
  | c :: cs => present s (if c.2 == s then c.1 else b) cs

theorem mem_work (s : Sym) (cs : List (Bool × Sym)) (work : List Sym) :
    s ∈ cs.foldl workChange work ↔ present s (decide (s ∈ work)) cs = true := by
  induction cs generalizing work with
  | nil => simp [present]
  | cons c cs ih =>
    rw [List.foldl_cons, ih, present]
    have : decide (s ∈ workChange work c) = if c.2 == s then c.1 else decide (s ∈ work) := by
      unfold workChange
      obtain ⟨b, t⟩ := c
      by_cases ht : t = s
      · subst ht
        cases b <;> simp [mem_workInsert]
      · have ht' : s ≠ t := fun h => ht h.symm
        cases b <;> simp [mem_workInsert, ht, ht']
    rw [this]

theorem present_append (s : Sym) (b : Bool) (c c' : List (Bool × Sym)) :
    present s b (c ++ c') = present s (present s b c) c' := by
  induction c generalizing b with
  | nil => rfl
  | cons a c ih => simp [present, ih]

theorem present_filter (s : Sym) (b : Bool) (c : List (Bool × Sym)) :
    present s b c = present s b (c.filter fun c => c.2 == s) := by
  induction c generalizing b with
  | nil => rfl
  | cons a c ih =>
    rw [List.filter_cons]
    by_cases h : a.2 = s
    · simp [h, present, ih]
    · simp [h, present, ih]

theorem foldl_workChange_sorted (cs : List (Bool × Sym)) {work : List Sym}
    (h : work.Pairwise (· < ·)) : (cs.foldl workChange work).Pairwise (· < ·) := by
  induction cs generalizing work with
  | nil => exact h
  | cons c cs ih =>
    refine ih ?_
    unfold workChange
    split
    · generalize c.2 = s
      clear ih
      induction work with
      | nil => simp [workInsert]
      | cons a work ih =>
        obtain ⟨h1, h2⟩ := List.pairwise_cons.1 h
        unfold workInsert
        split
        · rename_i hl
          refine List.pairwise_cons.2 ⟨fun b hb => ?_, h⟩
          rcases List.mem_cons.1 hb with rfl | hb
          · exact hl
          · have := h1 b hb; omega
        · split
          · exact h
          · refine List.pairwise_cons.2 ⟨fun b hb => ?_, ih h2⟩
            rcases mem_workInsert.1 hb with rfl | hb
            · omega
            · exact h1 b hb
    · exact h.filter _

theorem sweep_get (m : BMap (List (Bool × Sym))) (hs : m.Pairwise fun a b => a.1 < b.1) (c : Nat)
    (work : List Sym) :
    (((sweep work m).filter (·.1 ≤ c)).getLast?.map (·.2)).getD work =
      ((flat (m.filter (·.1 ≤ c))).map Prod.snd).foldl workChange work := by
  induction m generalizing work with
  | nil => rfl
  | cons e m ih =>
    obtain ⟨k, cs⟩ := e
    obtain ⟨h1, h2⟩ := List.pairwise_cons.1 hs
    simp only at h1
    have hflat : ∀ m', ((flat ((k, cs) :: m')).map Prod.snd) = cs ++ (flat m').map Prod.snd := by
      intro m'
      simp [flat]
    unfold sweep
    simp only
    by_cases hk : k ≤ c
    · rw [List.filter_cons_of_pos (by simpa using hk), List.filter_cons_of_pos (by simpa using hk),
        hflat, List.foldl_append, ← ih h2]
      generalize (sweep (cs.foldl workChange work) m).filter (·.1 ≤ c) = l
      cases l with
      | nil => rfl
      | cons a l => simp [List.getLast?_cons]
    · have hn : m.filter (·.1 ≤ c) = [] := by
        rw [List.filter_eq_nil_iff]
        intro a ha
        have := h1 a ha
        simp; omega
      have hn' : ∀ work', (sweep work' m).filter (·.1 ≤ c) = [] := by
        intro work'
        rw [List.filter_eq_nil_iff]
        have key : ∀ (m : BMap (List (Bool × Sym))) (work' : List Sym), ∀ a ∈ sweep work' m,
            ∃ b ∈ m, b.1 = a.1 := by
          intro m
          induction m with
          | nil => intro _ a ha; simp [sweep] at ha
          | cons e m ih =>
            intro work' a ha
            unfold sweep at ha
            simp only [List.mem_cons] at ha
            rcases ha with rfl | ha
            · exact ⟨e, by simp, rfl⟩
            · obtain ⟨b, hb, e'⟩ := ih _ a ha
              exact ⟨b, by simp [hb], e'⟩
        intro a ha
        obtain ⟨b, hb, e⟩ := key m work' a ha
        have := h1 b hb
        simp; omega
      rw [List.filter_cons_of_neg (by simpa using hk), List.filter_cons_of_neg (by simpa using hk),
        hn, hn']
      rfl

theorem flat_filter {α : Type} (m : BMap (List α)) (c : Nat) :
    flat (m.filter (·.1 ≤ c)) = (flat m).filter (·.1 ≤ c) := by
  induction m with
  | nil => rfl
  | cons e m ih =>
    have hflat : ∀ m', flat (e :: m') = (e.2.map fun v => (e.1, v)) ++ flat m' := fun _ => rfl
    rw [hflat, List.filter_append, ← ih]
    by_cases h : e.1 ≤ c
    · rw [List.filter_cons_of_pos (by simpa using h), hflat]
      congr 1
      symm
      rw [List.filter_eq_self]
      simp [h]
    · rw [List.filter_cons_of_neg (by simpa using h)]
      have : (e.2.map fun v => (e.1, v)).filter (·.1 ≤ c) = [] := by
        rw [List.filter_eq_nil_iff]
        simp only [List.mem_map]
        rintro _ ⟨v, -, rfl⟩
        simpa using h
      rw [this]
      rfl

/-- The changes of a list of ranges that are apart ascend. -/
theorem changes_asc (s : Sym) (rs : List (Nat × Nat)) (h : Apart rs) :
    (changes (rs.map fun r => (r, s))).Pairwise fun a b => a.1 ≤ b.1 := by
  induction rs with
  | nil => simp [changes]
  | cons r rs ih =>
    obtain ⟨h1, h2⟩ := h
    obtain ⟨h3, h4⟩ := List.pairwise_cons.1 h2
    have hc : changes ((r :: rs).map fun r => (r, s)) =
        (r.1, (true, s)) :: (r.2 + 1, (false, s)) :: changes (rs.map fun r => (r, s)) := rfl
    have hr := h1 r (by simp)
    have hall : ∀ b ∈ changes (rs.map fun r => (r, s)), r.2 + 1 ≤ b.1 := by
      intro b hb
      simp only [changes, List.mem_flatMap, List.mem_map] at hb
      obtain ⟨e, ⟨r', hr', rfl⟩, hb⟩ := hb
      have h5 := h3 r' hr'
      have h6 := h1 r' (by simp [hr'])
      simp only [List.mem_cons, List.not_mem_nil, or_false] at hb
      rcases hb with rfl | rfl <;> simp only <;> omega
    rw [hc, List.pairwise_cons, List.pairwise_cons]
    refine ⟨?_, hall, ih ⟨fun r' hr' => h1 r' (by simp [hr']), h4⟩⟩
    intro b hb
    rcases List.mem_cons.1 hb with rfl | hb
    · simp only; omega
    · have := hall b hb; simp only; omega

theorem present_changes (s : Sym) (rs : List (Nat × Nat)) (h : Apart rs) (c : Nat) :
    present s false (((changes (rs.map fun r => (r, s))).filter (·.1 ≤ c)).map Prod.snd) = true ↔
      InRanges rs c := by
  induction rs with
  | nil => simp [changes, present, InRanges]
  | cons r rs ih =>
    obtain ⟨h1, h2⟩ := h
    obtain ⟨h3, h4⟩ := List.pairwise_cons.1 h2
    have ih := ih ⟨fun r' hr' => h1 r' (by simp [hr']), h4⟩
    have hc : changes ((r :: rs).map fun r => (r, s)) =
        (r.1, (true, s)) :: (r.2 + 1, (false, s)) :: changes (rs.map fun r => (r, s)) := rfl
    have hr := h1 r (by simp)
    have hin : InRanges (r :: rs) c ↔ (r.1 ≤ c ∧ c ≤ r.2) ∨ InRanges rs c := by
      simp [InRanges]
    rw [hc, hin, ← ih]
    by_cases ha : r.1 ≤ c
    · rw [List.filter_cons_of_pos (by simpa using ha)]
      by_cases hb : r.2 + 1 ≤ c
      · rw [List.filter_cons_of_pos (by simpa using hb)]
        simp only [List.map_cons, present, beq_self_eq_true, if_true]
        constructor
        · exact .inr
        · rintro (h | h)
          · omega
          · exact h
      · rw [List.filter_cons_of_neg (by simpa using hb)]
        have hn : (changes (rs.map fun r => (r, s))).filter (·.1 ≤ c) = [] := by
          rw [List.filter_eq_nil_iff]
          intro b hb'
          simp only [changes, List.mem_flatMap, List.mem_map] at hb'
          obtain ⟨e, ⟨r', hr', rfl⟩, hb'⟩ := hb'
          have h5 := h3 r' hr'
          have h6 := h1 r' (by simp [hr'])
          simp only [List.mem_cons, List.not_mem_nil, or_false] at hb'
          rcases hb' with rfl | rfl <;> simp <;> omega
        rw [hn]
        simp only [List.map_cons, present, beq_self_eq_true, if_true, List.map_nil]
        simp only [true_iff]
        exact .inl ⟨ha, by omega⟩
    · rw [List.filter_cons_of_neg (by simpa using ha),
        List.filter_cons_of_neg (by simp; omega)]
      constructor
      · exact .inr
      · rintro (h | h)
        · omega
        · exact h

theorem changes_append (l l' : List ((Nat × Nat) × Sym)) :
    changes (l ++ l') = changes l ++ changes l' := by simp [changes]

theorem changesOf_append (s : Sym) (l l' : List (Nat × (Bool × Sym))) :
    changesOf s (l ++ l') = changesOf s l ++ changesOf s l' := by simp [changesOf]

theorem changesOf_class (s t : Sym) (rs : List (Nat × Nat)) :
    changesOf s (changes (rs.map fun r => (r, t))) =
      if t = s then changes (rs.map fun r => (r, t)) else [] := by
  split
  · rename_i h
    subst h
    unfold changesOf
    rw [List.filter_eq_self]
    intro e he
    simp only [changes, List.mem_flatMap, List.mem_map] at he
    obtain ⟨e', ⟨r', hr', rfl⟩, he⟩ := he
    simp only [List.mem_cons, List.not_mem_nil, or_false] at he
    rcases he with rfl | rfl <;> simp
  · rename_i h
    unfold changesOf
    rw [List.filter_eq_nil_iff]
    intro e he
    simp only [changes, List.mem_flatMap, List.mem_map] at he
    obtain ⟨e', ⟨r', hr', rfl⟩, he⟩ := he
    simp only [List.mem_cons, List.not_mem_nil, or_false] at he
    rcases he with rfl | rfl <;> simpa using h

/-- The changes of one symbol come from its only class. -/
theorem changesOf_pairs (m : LexerMap) (hn : (m.classes.map Prod.snd).Nodup) (s : Sym) :
    (∃ rs, (rs, s) ∈ m.classes ∧
      changesOf s (changes m.pairs) = changes (rs.map fun r => (r, s))) ∨
    ((∀ rs, (rs, s) ∉ m.classes) ∧ changesOf s (changes m.pairs) = []) := by
  unfold LexerMap.pairs
  generalize m.classes = l at hn ⊢
  induction l with
  | nil => exact .inr ⟨by simp, rfl⟩
  | cons e l ih =>
    obtain ⟨rs, t⟩ := e
    simp only [List.map_cons, List.nodup_cons] at hn
    simp only [List.flatMap_cons, changes_append, changesOf_append, changesOf_class]
    by_cases h : t = s
    · subst h
      refine .inl ⟨rs, by simp, ?_⟩
      rcases ih hn.2 with ⟨rs', h1, -⟩ | ⟨-, h2⟩
      · exact absurd (List.mem_map.2 ⟨_, h1, rfl⟩) hn.1
      · rw [if_pos rfl, h2, List.append_nil]
    · rw [if_neg h, List.nil_append]
      rcases ih hn.2 with ⟨rs', h1, h2⟩ | ⟨h1, h2⟩
      · exact .inl ⟨rs', by simp [h1], h2⟩
      · refine .inr ⟨?_, h2⟩
        intro rs' hm
        rcases List.mem_cons.1 hm with e | hm
        · cases e; exact h rfl
        · exact h1 rs' hm

theorem mem_pairs {m : LexerMap} {r : Nat × Nat} {s : Sym} :
    (r, s) ∈ m.pairs ↔ ∃ rs, (rs, s) ∈ m.classes ∧ r ∈ rs := by
  unfold LexerMap.pairs
  simp only [List.mem_flatMap, List.mem_map, Prod.mk.injEq]
  constructor
  · rintro ⟨e, he, r', hr, rfl, rfl⟩
    exact ⟨e.1, he, hr⟩
  · rintro ⟨rs, he, hr⟩
    exact ⟨(rs, s), he, r, hr, rfl, rfl⟩

theorem isScalar_iff {c : Nat} : isScalar c = true ↔ IsChar c := by
  unfold isScalar IsChar
  simp only [Bool.or_eq_true, Bool.and_eq_true, decide_eq_true_eq]
  omega

/-- Computing succeeds exactly if all ranges can be handled. -/
theorem compute_cases (m : LexerMap) :
    (∃ m', m.compute = .ok m' ∧ (∀ e ∈ m.pairs, AsciiOk e ∧ IsChar (e.1.2 + 1)) ∧
      m'.classes = m.classes ∧ m'.ascii.length = 256 ∧
      (∀ c t, c < 128 → ((∃ l, m'.ascii[c]? = some l ∧ t ∈ l) ↔
        ∃ e ∈ m.pairs, t = e.2 ∧ e.1.1 ≤ c ∧ c ≤ e.1.2)) ∧
      m'.ranges = sweep [] (pushed [] (changes m.pairs))) ∨
    (m.compute = .panic ∧ ∃ e ∈ m.pairs, ¬ (AsciiOk e ∧ IsChar (e.1.2 + 1))) := by
  unfold LexerMap.compute
  have hl : (List.replicate 256 ([] : List Sym)).length = 256 := List.length_replicate
  by_cases h1 : ∀ e ∈ m.pairs, AsciiOk e
  · obtain ⟨r, a1, a2, a3⟩ := ascii_ok m.pairs h1 hl
    rw [a1, Res.bind_ok]
    by_cases h2 : ∀ e ∈ m.pairs, isScalar (e.1.2 + 1) = true
    · rw [change_ok m.pairs h2, Res.bind_ok]
      refine .inl ⟨_, rfl, fun e he => ⟨h1 e he, isScalar_iff.1 (h2 e he)⟩, rfl, a2, ?_, rfl⟩
      intro c t hc
      rw [a3 c t hc]
      constructor
      · rintro (⟨l, h, h'⟩ | h)
        · rw [List.getElem?_replicate] at h
          split at h
          · cases h; simp at h'
          · cases h
        · exact h
      · exact .inr
    · push Not at h2
      obtain ⟨e, he, h3⟩ := h2
      rw [change_panic m.pairs ⟨e, he, by simpa using h3⟩]
      exact .inr ⟨rfl, e, he, fun h => h3 (isScalar_iff.2 h.2)⟩
  · push Not at h1
    rw [ascii_panic m.pairs h1 hl]
    obtain ⟨e, he, h3⟩ := h1
    exact .inr ⟨rfl, e, he, fun h => h3 h.1⟩

/-- Looking up in a computed map. -/
theorem get_spec {m m' : LexerMap} (hp : m.Proper) (h : m.compute = .ok m') (c : Nat) :
    ∃ l, m'.get c = .ok l ∧ ∀ s, s ∈ l ↔ ∃ rs, (rs, s) ∈ m.classes ∧ InRanges rs c := by
  rcases compute_cases m with ⟨m1, h1, -, h3, h4, h5, h6⟩ | ⟨h1, -⟩
  case inr => rw [h] at h1; cases h1
  rw [h] at h1
  cases h1
  unfold LexerMap.get
  by_cases hc : c < 128
  · rw [if_pos hc, Res.index_lt (by omega)]
    refine ⟨_, rfl, fun s => ?_⟩
    have h7 := h5 c s hc
    rw [List.getElem?_eq_getElem (by omega)] at h7
    simp only [Option.some.injEq, exists_eq_left'] at h7
    rw [h7]
    constructor
    · rintro ⟨⟨r, t⟩, he, rfl, a, b⟩
      obtain ⟨rs, h8, h9⟩ := mem_pairs.1 he
      exact ⟨rs, h8, r, h9, a, b⟩
    · rintro ⟨rs, h8, r, h9, a, b⟩
      exact ⟨(r, s), mem_pairs.2 ⟨rs, h8, h9⟩, rfl, a, b⟩
  · rw [if_neg hc]
    refine ⟨_, rfl, fun s => ?_⟩
    have hsorted : (changesOf s (changes m.pairs)).Pairwise fun a b => a.1 ≤ b.1 := by
      rcases changesOf_pairs m hp.1 s with ⟨rs, h8, h9⟩ | ⟨-, h9⟩
      · rw [h9]; exact changes_asc s rs (hp.2 _ h8)
      · rw [h9]; simp
    obtain ⟨p1, p2⟩ := pushed_flat s (changes m.pairs) hsorted
    rw [h6, sweep_get _ p1, mem_work, present_filter]
    have hcomm : ((flat ((pushed [] (changes m.pairs)).filter (·.1 ≤ c))).map Prod.snd).filter
        (fun c => c.2 == s) = ((changesOf s (changes m.pairs)).filter (·.1 ≤ c)).map Prod.snd := by
      rw [flat_filter, List.filter_map, ← p2]
      unfold changesOf
      rw [List.filter_filter, List.filter_filter]
      congr 1
      refine List.filter_congr fun a _ => ?_
      simp [Bool.and_comm]
    rw [hcomm]
    simp only [List.not_mem_nil, decide_false]
    rcases changesOf_pairs m hp.1 s with ⟨rs, h8, h9⟩ | ⟨h8, h9⟩
    · rw [h9, present_changes s rs (hp.2 _ h8)]
      constructor
      · exact fun h => ⟨rs, h8, h⟩
      · rintro ⟨rs', h8', h⟩
        have : rs = rs' := by
          have hn := hp.1
          have hinj := List.inj_on_of_nodup_map hn h8 h8' rfl
          cases hinj
          rfl
        rw [this]
        exact h
    · rw [h9]
      constructor
      · intro h; simp [present] at h
      · rintro ⟨rs, h, -⟩
        exact absurd h (h8 rs)

end Verif
