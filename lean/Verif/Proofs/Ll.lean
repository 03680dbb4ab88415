import Verif.Proofs.Follow
import Verif.Proofs.Useful

/-! # Lemmas about FIRST sets of strings, LAST sets and the LL(1) table -/

namespace Verif

/-! ## FIRST of a string -/

theorem firstOf_term {g : Cfg} {s a : Sym} (hs : g.Term s) :
    FirstOf g.prod g.Term [s] a ↔ a = s :=
  firstOf_terminal_cons (fun _ _ ⟨r, hr, e, _⟩ ht => ht.2 r hr e) hs

theorem firstStringLoop_spec {g : Cfg} {fs : FirstSets} (hfs : FirstInfo g fs)
    (string : List Sym) (hb : ∀ s ∈ string, s < g.numSyms) :
    ∃ l, firstStringLoop fs [] string = .ok l ∧ l.Pairwise (· < ·) ∧
      ∀ a, a ∈ l ↔ ∃ pre x post, string = pre ++ x :: post ∧
        (∀ s ∈ pre, ∀ b, ¬ FirstOf g.prod g.Term [s] b) ∧ FirstOf g.prod g.Term [x] a := by
  induction string with
  | nil => exact ⟨[], rfl, by simp, fun a => by simp⟩
  | cons s string ih =>
    have hs := hb s (by simp)
    simp only [firstStringLoop, get_has (show s < fs.terminalSet.length by rw [hfs.len]; exact hs),
      Res.bind_ok]
    by_cases hT : g.Term s
    · rw [if_pos (by simpa using (hfs.term s).2 hT)]
      refine ⟨[] ++ [s], rfl, by simp, fun a => ?_⟩
      simp only [List.nil_append, List.mem_singleton]
      constructor
      · rintro rfl
        exact ⟨[], a, string, rfl, by simp, (firstOf_term hT).2 rfl⟩
      · rintro ⟨pre, x, post, e, hpre, hx⟩
        cases pre with
        | nil =>
          simp only [List.nil_append, List.cons.injEq] at e
          obtain ⟨rfl, rfl⟩ := e
          exact (firstOf_term hT).1 hx
        | cons b pre =>
          simp only [List.cons_append, List.cons.injEq] at e
          obtain ⟨rfl, rfl⟩ := e
          exact absurd ((firstOf_term hT).2 rfl) (hpre s (by simp) s)
    · rw [if_neg (by simpa using fun h => hT ((hfs.term s).1 h))]
      obtain ⟨v, hv⟩ := Option.isSome_iff_exists.1 ((hfs.keys s).2 ((nonterm_iff hs).1 hT))
      have hval : fs.map.val s = v := by simp [SetMap.val, hv]
      have hF : ∀ a, a ∈ v.list ↔ FirstOf g.prod g.Term [s] a := by
        intro a; rw [← hval]; exact hfs.first s hT a
      simp only [hv, Res.ofOption, Res.bind_ok]
      by_cases he : v.list = []
      · rw [if_pos (by simp [he]), he]
        obtain ⟨l, e, h1, h2⟩ := ih fun t ht => hb t (by simp [ht])
        have hno : ∀ b, ¬ FirstOf g.prod g.Term [s] b := by
          intro b h
          have := (hF b).2 h
          rw [he] at this
          simp at this
        refine ⟨l, e, h1, fun a => ?_⟩
        rw [h2]
        constructor
        · rintro ⟨pre, x, post, rfl, hpre, hx⟩
          refine ⟨s :: pre, x, post, rfl, fun t ht => ?_, hx⟩
          rcases List.mem_cons.1 ht with rfl | ht
          · exact hno
          · exact hpre t ht
        · rintro ⟨pre, x, post, e, hpre, hx⟩
          cases pre with
          | nil =>
            simp only [List.nil_append, List.cons.injEq] at e
            obtain ⟨rfl, rfl⟩ := e
            exact absurd hx (hno a)
          | cons b pre =>
            simp only [List.cons_append, List.cons.injEq] at e
            obtain ⟨rfl, rfl⟩ := e
            exact ⟨pre, x, post, rfl, fun t ht => hpre t (by simp [ht]), hx⟩
      · rw [if_neg (by simpa using he)]
        refine ⟨v.list, rfl, by rw [← hval]; exact hfs.sorted s, fun a => ?_⟩
        rw [hF]
        constructor
        · intro h
          exact ⟨[], s, string, rfl, by simp, h⟩
        · rintro ⟨pre, x, post, e, hpre, hx⟩
          cases pre with
          | nil =>
            simp only [List.nil_append, List.cons.injEq] at e
            obtain ⟨rfl, rfl⟩ := e
            exact hx
          | cons b pre =>
            simp only [List.cons_append, List.cons.injEq] at e
            obtain ⟨rfl, rfl⟩ := e
            obtain ⟨c, hc⟩ := List.exists_mem_of_ne_nil _ he
            exact absurd ((hF c).1 hc) (hpre s (by simp) c)

/-- A productive symbol without FIRST terminals is nullable. -/
theorem nullable_of_no_first {P : Productions} {T : Sym → Prop} {s : Sym}
    (hp : Productive P T s) (h : ∀ b, ¬ FirstOf P T [s] b) : Nullable P s := by
  obtain ⟨w, hd, hw⟩ := hp
  cases w with
  | nil => exact hd
  | cons b w => exact absurd ⟨hw b (by simp), w, hd⟩ (h b)

/-- What `first_set_for_string` returns. -/
structure StringInfo (g : Cfg) (string : List Sym) (v : SetVal) : Prop where
  sorted : v.list.Pairwise (· < ·)
  none_iff : v.hasNone = true ↔ v.list = []
  exact : ∀ a, a ∈ v.list ↔ ∃ pre x post, string = pre ++ x :: post ∧
    (∀ s ∈ pre, ∀ b, ¬ FirstOf g.prod g.Term [s] b) ∧ FirstOf g.prod g.Term [x] a

theorem firstSetForString_spec {g : Cfg} {fs : FirstSets} (hfs : FirstInfo g fs)
    (string : List Sym) (hb : ∀ s ∈ string, s < g.numSyms) :
    ∃ v, fs.firstSetForString string = .ok v ∧ StringInfo g string v := by
  obtain ⟨l, e, h1, h2⟩ := firstStringLoop_spec hfs string hb
  exact ⟨⟨l.isEmpty, l⟩, by simp only [FirstSets.firstSetForString, e, Res.bind_ok], h1, by simp,
    h2⟩

theorem StringInfo.empty_iff {g : Cfg} {string : List Sym} {v : SetVal}
    (h : StringInfo g string v) :
    v.list = [] ↔ ∀ s ∈ string, ∀ b, ¬ FirstOf g.prod g.Term [s] b := by
  constructor
  · intro hl
    by_contra hno
    push Not at hno
    obtain ⟨s, hs, b, hb⟩ := hno
    -- the first symbol with a FIRST terminal
    have key : ∀ (u : List Sym), (∃ s ∈ u, ∃ b, FirstOf g.prod g.Term [s] b) →
        ∃ pre x post, u = pre ++ x :: post ∧
          (∀ s ∈ pre, ∀ b, ¬ FirstOf g.prod g.Term [s] b) ∧
          ∃ a, FirstOf g.prod g.Term [x] a := by
      intro u
      induction u with
      | nil => simp
      | cons t u ih =>
        intro hu
        by_cases ht : ∃ a, FirstOf g.prod g.Term [t] a
        · exact ⟨[], t, u, rfl, by simp, ht⟩
        · push Not at ht
          obtain ⟨s, hs, hb⟩ := hu
          rcases List.mem_cons.1 hs with rfl | hs
          · obtain ⟨b, hb⟩ := hb
            exact absurd hb (ht b)
          · obtain ⟨pre, x, post, rfl, hpre, hx⟩ := ih ⟨s, hs, hb⟩
            refine ⟨t :: pre, x, post, rfl, fun s hs => ?_, hx⟩
            rcases List.mem_cons.1 hs with rfl | hs
            · exact ht
            · exact hpre s hs
    obtain ⟨pre, x, post, e, hpre, a, ha⟩ := key string ⟨s, hs, b, hb⟩
    have := (h.exact a).2 ⟨pre, x, post, e, hpre, ha⟩
    rw [hl] at this
    simp at this
  · intro hs
    refine List.eq_nil_iff_forall_not_mem.2 fun a ha => ?_
    obtain ⟨pre, x, post, rfl, -, hx⟩ := (h.exact a).1 ha
    exact hs x (by simp) a hx

theorem StringInfo.sound {g : Cfg} {string : List Sym} {v : SetVal} (h : StringInfo g string v)
    (hp : ∀ s ∈ string, Productive g.prod g.Term s) :
    (∀ a ∈ v.list, FirstOf g.prod g.Term string a) ∧
      (v.hasNone = true → Derives g.prod string []) := by
  constructor
  · intro a ha
    obtain ⟨pre, x, post, rfl, hpre, hx⟩ := (h.exact a).1 ha
    refine firstOf_append.2 (.inr ⟨der_nil_iff.2 fun s hs =>
      nullable_of_no_first (hp s (by simp [hs])) (hpre s hs), ?_⟩)
    exact firstOf_cons.2 (.inl hx)
  · intro hn
    have := h.empty_iff.1 (h.none_iff.1 hn)
    exact derives_iff_der.2 (der_nil_iff.2 fun s hs =>
      nullable_of_no_first (hp s hs) (this s hs))

theorem StringInfo.complete {g : Cfg} {string : List Sym} {v : SetVal}
    (h : StringInfo g string v) (hp : LeadsEmpty g.prod g.Term string) :
    (∀ a, FirstOf g.prod g.Term string a → a ∈ v.list) ∧
      (Derives g.prod string [] → v.hasNone = true) := by
  have step : ∀ {s : Sym} {u : List Sym}, Nullable g.prod s → LeadsEmpty g.prod g.Term (s :: u) →
      LeadsEmpty g.prod g.Term u := by
    intro s u hn hp pre t post e hd
    refine hp (s :: pre) t post (by rw [e]; rfl) (derives_iff_der.2 (der_nil_iff.2 fun x hx => ?_))
    rcases List.mem_cons.1 hx with rfl | hx
    · exact hn
    · exact der_nil_iff.1 (derives_iff_der.1 hd) x hx
  constructor
  · intro a ha
    rw [h.exact]
    clear h
    induction string with
    | nil =>
      obtain ⟨-, γ, hd⟩ := ha
      rw [derives_iff_der, Der.nil_iff] at hd
      simp at hd
    | cons s string ih =>
      rcases firstOf_cons.1 ha with h | ⟨hn, h⟩
      · exact ⟨[], s, string, rfl, by simp, h⟩
      · obtain ⟨pre, x, post, rfl, hpre, hx⟩ := ih (step hn hp) h
        refine ⟨s :: pre, x, post, rfl, fun t ht => ?_, hx⟩
        rcases List.mem_cons.1 ht with rfl | ht
        · exact hp [] t _ rfl .refl hn
        · exact hpre t ht
  · intro hd
    rw [h.none_iff, h.empty_iff]
    intro s hs
    obtain ⟨pre, post, rfl⟩ := List.append_of_mem hs
    have hn := der_nil_iff.1 (derives_iff_der.1 hd)
    exact hp pre s post rfl (derives_iff_der.2 (der_nil_iff.2 fun x hx => hn x (by simp [hx])))
      (hn s hs)

/-! ## The table -/

/-- The rules in a cell. -/
def LlTable.cell (t : LlTable) (key : Sym × Sym) : List Nat := (t.get? key).getD []

theorem cell_push (t : LlTable) (k key : Sym × Sym) (i : Nat) :
    (t.push k i).cell key = if key = k then t.cell key ++ [i] else t.cell key := by
  induction t with
  | nil =>
    by_cases e : key = k
    · subst e; simp [LlTable.push, LlTable.cell, LlTable.get?]
    · simp [LlTable.push, LlTable.cell, LlTable.get?, e, Ne.symm e]
  | cons p t ih =>
    obtain ⟨k', l⟩ := p
    simp only [LlTable.push]
    by_cases e : k' = k
    · subst e
      rw [if_pos rfl]
      by_cases e' : key = k'
      · subst e'; simp [LlTable.cell, LlTable.get?]
      · simp [LlTable.cell, LlTable.get?, e', Ne.symm e']
    · rw [if_neg e]
      by_cases e' : key = k'
      · subst e'
        simp [LlTable.cell, LlTable.get?, e]
      · have h1 : ∀ (u : LlTable), LlTable.cell ((k', l) :: u) key = LlTable.cell u key := by
          intro u; simp [LlTable.cell, LlTable.get?, Ne.symm e']
        rw [h1, h1, ih]

/-- Invariant of the table. -/
structure TInv (t : LlTable) : Prop where
  nodup : (t.map (·.1)).Nodup
  ne : ∀ e ∈ t, e.2 ≠ []

theorem push_keys (t : LlTable) (k key : Sym × Sym) (i : Nat) :
    key ∈ (t.push k i).map (·.1) ↔ key ∈ t.map (·.1) ∨ key = k := by
  induction t with
  | nil => simp [LlTable.push]
  | cons p t ih =>
    simp only [LlTable.push]
    split
    · rename_i e
      subst e
      simp only [List.map_cons, List.mem_cons]
      constructor
      · rintro (h | h)
        · exact .inr h
        · exact .inl (.inr h)
      · rintro ((h | h) | h)
        · exact .inl h
        · exact .inr h
        · exact .inl h
    · simp only [List.map_cons, List.mem_cons, ih, or_assoc]

theorem TInv.push {t : LlTable} (h : TInv t) (k : Sym × Sym) (i : Nat) : TInv (t.push k i) := by
  obtain ⟨h1, h2⟩ := h
  induction t with
  | nil => exact ⟨by simp [LlTable.push], by simp [LlTable.push]⟩
  | cons p t ih =>
    rw [List.map_cons, List.nodup_cons] at h1
    have ih := ih h1.2 fun e he => h2 e (by simp [he])
    simp only [LlTable.push]
    split
    · rename_i e
      refine ⟨by rw [List.map_cons, List.nodup_cons]; exact h1, fun e' he' => ?_⟩
      rcases List.mem_cons.1 he' with rfl | he'
      · simp
      · exact h2 e' (by simp [he'])
    · rename_i e
      refine ⟨?_, fun e' he' => ?_⟩
      · rw [List.map_cons, List.nodup_cons]
        refine ⟨fun hm => ?_, ih.1⟩
        rcases (push_keys t k _ i).1 hm with h | h
        · exact h1.1 h
        · exact e h
      · rcases List.mem_cons.1 he' with rfl | he'
        · exact h2 _ (by simp)
        · exact ih.2 e' he'

theorem cell_pushAll {lhs : Sym} {i : Nat} (l : List Sym) (hl : l.Nodup) :
    ∀ (t : LlTable) (key : Sym × Sym), (t.pushAll lhs l i).cell key =
      if key.1 = lhs ∧ key.2 ∈ l then t.cell key ++ [i] else t.cell key := by
  induction l with
  | nil => intro t key; simp [LlTable.pushAll]
  | cons a l ih =>
    intro t key
    rw [List.nodup_cons] at hl
    have := ih hl.2 (t.push (lhs, a) i) key
    simp only [LlTable.pushAll, List.foldl_cons] at this ⊢
    rw [this, cell_push]
    obtain ⟨x, y⟩ := key
    simp only [Prod.mk.injEq, List.mem_cons]
    by_cases h1 : x = lhs <;> by_cases h2 : y = a
    · subst h1 h2
      simp [hl.1]
    · simp [h1, h2]
    · simp [h1]
    · simp [h1]

theorem TInv.pushAll {lhs : Sym} {i : Nat} (l : List Sym) :
    ∀ {t : LlTable}, TInv t → TInv (t.pushAll lhs l i) := by
  induction l with
  | nil => intro t h; exact h
  | cons a l ih => intro t h; exact ih (h.push (lhs, a) i)

theorem Sorted.nodup {l : List Sym} (h : l.Pairwise (· < ·)) : l.Nodup :=
  h.imp (fun hab => by omega)

/-- The condition under which the code enters rule `r` in the cell for `a`. -/
def Enters (g : Cfg) (r : CfgRule) (a : Sym) : Prop :=
  (∃ pre x post, r.rhs = pre ++ x :: post ∧
    (∀ s ∈ pre, ∀ b, ¬ FirstOf g.prod g.Term [s] b) ∧ FirstOf g.prod g.Term [x] a) ∨
  ((∀ s ∈ r.rhs, ∀ b, ¬ FirstOf g.prod g.Term [s] b) ∧ FollowOf g.prod g.Term r.lhs a)

theorem llBody_spec {g : Cfg} (hwf : g.WF) {fs : FirstSets} (hfs : FirstInfo g fs) {fo : SetMap}
    (hfo : FollowInfo g fo) {t : LlTable} (ht : TInv t) {r : CfgRule} (hr : r ∈ g.rules)
    (i : Nat) :
    ∃ t', llBody fs fo t (r, i) = .ok t' ∧ TInv t' ∧ ∀ key,
      (r.lhs = key.1 ∧ Enters g r key.2 → t'.cell key = t.cell key ++ [i]) ∧
      (¬ (r.lhs = key.1 ∧ Enters g r key.2) → t'.cell key = t.cell key) := by
  obtain ⟨v, e, hv⟩ := firstSetForString_spec hfs r.rhs (hwf r hr).2
  obtain ⟨f, hf⟩ := Option.isSome_iff_exists.1 ((hfo.keys r.lhs).2 ⟨r, hr, rfl⟩)
  have hval : fo.val r.lhs = f := by simp [SetMap.val, hf]
  have hfl : ∀ a, a ∈ f.list ↔ FollowOf g.prod g.Term r.lhs a := by
    intro a; rw [← hval]; exact hfo.follow r.lhs ⟨r, hr, rfl⟩ a
  have hfn : f.list.Nodup := by rw [← hval]; exact Sorted.nodup (hfo.sorted _)
  simp only [llBody, e, Res.bind_ok]
  by_cases hn : v.hasNone = true
  · rw [if_pos hn]
    have hl := hv.none_iff.1 hn
    have hemp := hv.empty_iff.1 hl
    simp only [hf, Res.ofOption, Res.bind_ok, hl]
    refine ⟨_, rfl, (ht.pushAll _).pushAll _, fun key => ?_⟩
    rw [cell_pushAll _ hfn]
    have : LlTable.pushAll t r.lhs [] i = t := rfl
    rw [this]
    have hEn : Enters g r key.2 ↔ key.2 ∈ f.list := by
      rw [hfl]
      constructor
      · rintro (⟨pre, x, post, e, -, hx⟩ | h)
        · exact absurd hx (hemp x (by rw [e]; simp) _)
        · exact h.2
      · exact fun h => .inr ⟨hemp, h⟩
    rw [hEn, eq_comm (a := r.lhs)]
    exact ⟨fun h => if_pos h, fun h => if_neg h⟩
  · rw [if_neg hn]
    refine ⟨_, rfl, ht.pushAll _, fun key => ?_⟩
    rw [cell_pushAll _ (Sorted.nodup hv.sorted)]
    have hne : ¬ ∀ s ∈ r.rhs, ∀ b, ¬ FirstOf g.prod g.Term [s] b :=
      fun h => hn (hv.none_iff.2 (hv.empty_iff.2 h))
    have hEn : Enters g r key.2 ↔ key.2 ∈ v.list := by
      rw [hv.exact]
      constructor
      · rintro (h | h)
        · exact h
        · exact absurd h.1 hne
      · exact .inl
    rw [hEn, eq_comm (a := r.lhs)]
    exact ⟨fun h => if_pos h, fun h => if_neg h⟩

theorem llFold_spec {g : Cfg} (hwf : g.WF) {fs : FirstSets} (hfs : FirstInfo g fs) {fo : SetMap}
    (hfo : FollowInfo g fo) (rules : List CfgRule) (hr : ∀ r ∈ rules, r ∈ g.rules) :
    ∀ (k : Nat) (t : LlTable), TInv t →
    ∃ t', (rules.zipIdx k).foldlM (llBody fs fo) t = .ok t' ∧ TInv t' ∧ ∀ key,
      ∃ l : List Nat, t'.cell key = t.cell key ++ l ∧ l.Pairwise (· < ·) ∧
        ∀ i, i ∈ l ↔ ∃ r, k ≤ i ∧ rules[i - k]? = some r ∧ r.lhs = key.1 ∧ Enters g r key.2 := by
  induction rules with
  | nil => intro k t ht; exact ⟨t, rfl, ht, fun key => ⟨[], by simp, by simp, by simp⟩⟩
  | cons r rules ih =>
    intro k t ht
    obtain ⟨t₁, e₁, ht₁, h₁⟩ := llBody_spec hwf hfs hfo ht (hr r (by simp)) k
    obtain ⟨t₂, e₂, ht₂, h₂⟩ := ih (fun r' h => hr r' (by simp [h])) (k + 1) t₁ ht₁
    refine ⟨t₂, ?_, ht₂, fun key => ?_⟩
    · simp only [List.zipIdx_cons, List.foldlM_cons, e₁, Res.bind_ok]; exact e₂
    · obtain ⟨l, el, hl, hi⟩ := h₂ key
      have hsplit : ∀ i, (∃ r', k ≤ i ∧ (r :: rules)[i - k]? = some r' ∧ r'.lhs = key.1 ∧
          Enters g r' key.2) ↔ (i = k ∧ r.lhs = key.1 ∧ Enters g r key.2) ∨ i ∈ l := by
        intro i
        rw [hi]
        constructor
        · rintro ⟨r', hk, h, h'⟩
          by_cases e : i = k
          · subst e
            simp only [Nat.sub_self, List.getElem?_cons_zero, Option.some.injEq] at h
            subst h
            exact .inl ⟨rfl, h'⟩
          · right
            obtain ⟨j, hj⟩ : ∃ j, i - k = j + 1 := ⟨i - k - 1, by omega⟩
            rw [hj, List.getElem?_cons_succ] at h
            exact ⟨r', by omega, by rw [show i - (k + 1) = j by omega]; exact h, h'⟩
        · rintro (⟨rfl, h'⟩ | ⟨r', hk, h, h'⟩)
          · exact ⟨r, Nat.le_refl _, by simp, h'⟩
          · refine ⟨r', by omega, ?_, h'⟩
            rw [show i - k = (i - (k + 1)) + 1 by omega, List.getElem?_cons_succ]
            exact h
      by_cases hc : r.lhs = key.1 ∧ Enters g r key.2
      · refine ⟨k :: l, by rw [el, (h₁ key).1 hc]; simp, ?_, fun i => ?_⟩
        · refine List.pairwise_cons.2 ⟨fun i hil => ?_, hl⟩
          obtain ⟨_, hk, _⟩ := (hi i).1 hil
          omega
        · rw [hsplit]; simp [hc]
      · refine ⟨l, by rw [el, (h₁ key).2 hc], hl, fun i => ?_⟩
        rw [hsplit]; simp [hc]

theorem llParseTable_spec {g : Cfg} (hwf : g.WF) :
    ∃ t, g.llParseTable = .ok t ∧ TInv t ∧ ∀ A a,
      (t.cell (A, a)).Pairwise (· < ·) ∧
        ∀ i : Nat, i ∈ t.cell (A, a) ↔ ∃ r, g.rules[i]? = some r ∧ r.lhs = A ∧ Enters g r a := by
  obtain ⟨fs, e₁, hfs⟩ := firstSets_spec hwf
  obtain ⟨fo, e₂, hfo⟩ := followSets_spec hwf hfs
  obtain ⟨t, e₃, ht, h⟩ := llFold_spec hwf hfs hfo g.rules (fun _ h => h) 0 []
    ⟨by simp, by simp⟩
  refine ⟨t, by simp only [Cfg.llParseTable, e₁, e₂, Res.bind_ok]; exact e₃, ht, fun A a => ?_⟩
  obtain ⟨l, el, hl, hi⟩ := h (A, a)
  have : LlTable.cell [] (A, a) = [] := rfl
  rw [this, List.nil_append] at el
  rw [el]
  exact ⟨hl, fun i => by rw [hi]; simp⟩

/-! ## Classification -/

theorem get?_of_mem {t : LlTable} (h : TInv t) {k : Sym × Sym} {l : List Nat} :
    (k, l) ∈ t ↔ t.get? k = some l := by
  obtain ⟨h1, -⟩ := h
  induction t with
  | nil => simp [LlTable.get?]
  | cons p t ih =>
    obtain ⟨k', l'⟩ := p
    rw [List.map_cons, List.nodup_cons] at h1
    have ih := ih h1.2
    by_cases e : k' = k
    · subst e
      simp only [LlTable.get?, List.find?_cons, decide_true, Option.map_some, List.mem_cons,
        Prod.mk.injEq, true_and, Option.some.injEq]
      constructor
      · rintro (h | h)
        · exact h.symm
        · exact absurd (List.mem_map.2 ⟨_, h, rfl⟩) h1.1
      · rintro rfl; exact .inl rfl
    · have : LlTable.get? ((k', l') :: t) k = LlTable.get? t k := by
        simp [LlTable.get?, e]
      rw [this, ← ih]
      simp [Ne.symm e]

theorem mem_cell {t : LlTable} (h : TInv t) {k : Sym × Sym} {l : List Nat} (hl : l ≠ []) :
    (k, l) ∈ t ↔ t.cell k = l := by
  rw [get?_of_mem h, LlTable.cell]
  cases t.get? k with
  | none => simp [Ne.symm hl]
  | some l' => simp

theorem llClasses_spec (t : LlTable) : ∀ (c : LlClasses) (s : Sym),
    (t.foldl llClassBody c s = none ↔ c s = none ∧ ∀ e ∈ t, e.1.1 ≠ s) ∧
    (t.foldl llClassBody c s = some .contextFree ↔
      c s = some .contextFree ∨ ∃ e ∈ t, e.1.1 = s ∧ 1 < e.2.length) := by
  induction t with
  | nil => intro c s; simp
  | cons p t ih =>
    intro c s
    obtain ⟨h1, h2⟩ := ih (llClassBody c p) s
    rw [List.foldl_cons, h1, h2]
    by_cases hl : 1 < p.2.length
    · by_cases e : s = p.1.1
      · subst e
        simp [llClassBody, hl]
      · simp [llClassBody, hl, e, Ne.symm e]
    · by_cases e : s = p.1.1
      · subst e
        cases hc : c p.1.1 with
        | none => simp [llClassBody, hl, hc]
        | some k => simp [llClassBody, hl, hc]
      · simp [llClassBody, hl, e, Ne.symm e]

theorem llProperty_fold (classes : LlClasses) (keys : List Sym) :
    ∀ (b : BitSet), (∀ s ∈ keys, s < b.length) →
    ∃ b', keys.foldlM (fun b s => if classes s = some .contextFree then BitSet.set b s true
        else .ok b) b = .ok b' ∧ b'.length = b.length ∧
      ∀ s, Has b' s ↔ Has b s ∨ (s ∈ keys ∧ classes s = some .contextFree) := by
  induction keys with
  | nil => intro b _; exact ⟨b, rfl, rfl, by simp⟩
  | cons k keys ih =>
    intro b hb
    have hk := hb k (by simp)
    by_cases hc : classes k = some .contextFree
    · obtain ⟨b', e, hl, h⟩ := ih (List.set b k true) (by
        intro s hs; rw [List.length_set]; exact hb s (by simp [hs]))
      refine ⟨b', ?_, by rw [hl, List.length_set], fun s => ?_⟩
      · simp only [List.foldlM_cons, if_pos hc, BitSet.set, if_pos hk, Res.bind_ok]; exact e
      · rw [h, has_set_true hk]
        constructor
        · rintro ((rfl | h) | h)
          · exact .inr ⟨by simp, hc⟩
          · exact .inl h
          · exact .inr ⟨by simp [h.1], h.2⟩
        · rintro (h | ⟨h, h'⟩)
          · exact .inl (.inr h)
          · rcases List.mem_cons.1 h with rfl | h
            · exact .inl (.inl rfl)
            · exact .inr ⟨h, h'⟩
    · obtain ⟨b', e, hl, h⟩ := ih b (fun s hs => hb s (by simp [hs]))
      refine ⟨b', ?_, hl, fun s => ?_⟩
      · simp only [List.foldlM_cons, if_neg hc, Res.bind_ok]; exact e
      · rw [h]
        constructor
        · rintro (h | h)
          · exact .inl h
          · exact .inr ⟨by simp [h.1], h.2⟩
        · rintro (h | ⟨h, h'⟩)
          · exact .inl h
          · rcases List.mem_cons.1 h with rfl | h
            · exact absurd h' hc
            · exact .inr ⟨h, h'⟩

theorem mapM_get {b : BitSet} (keys : List Sym) (h : ∀ s ∈ keys, s < b.length) :
    ∃ l, (keys.mapM fun s => BitSet.get b s) = .ok l := by
  induction keys with
  | nil => exact ⟨[], rfl⟩
  | cons k keys ih =>
    obtain ⟨l, e⟩ := ih fun s hs => h s (by simp [hs])
    refine ⟨decide (Has b k) :: l, ?_⟩
    simp only [List.mapM_cons, get_has (h k (by simp)), Res.bind_ok, e]
    rfl

/-- The least set closed under "some symbol of the right side" is reachability. -/
theorem least_any_iff {P : Productions} {I R : Sym → Prop} (h : IsLeast (ClosedAny P) I R)
    (A : Sym) : R A ↔ ∃ B, Reaches P A B ∧ I B := by
  obtain ⟨h1, h2, h3⟩ := h
  constructor
  · refine h3 (fun A => ∃ B, Reaches P A B ∧ I B) (fun s hs => ⟨s, Reaches.refl s, hs⟩) ?_ A
    rintro A α hp ⟨s, hs, B, hB, hI⟩
    refine ⟨B, ?_, hI⟩
    have : Reaches P A s := by
      rw [reaches_iff]
      exact Relation.ReflTransGen.single ⟨α, hp, hs⟩
    exact this.trans hB
  · rintro ⟨B, hB, hI⟩
    rw [reaches_iff] at hB
    induction hB using Relation.ReflTransGen.head_induction_on with
    | refl => exact h1 B hI
    | head hab _ ih =>
      obtain ⟨α, hp, hs⟩ := hab
      exact h2 _ α hp ⟨_, hs, ih⟩

theorem llClassify_spec {g : Cfg} (hwf : g.WF) {t : LlTable} (ht : TInv t)
    (hk : ∀ e ∈ t, e.1.1 < g.numSyms) :
    ∃ c, g.llClassify t = .ok c ∧ ∀ A,
      (c A = none ↔ ∀ a, t.cell (A, a) = []) ∧
      (c A = some .contextFree ↔ (∃ a, t.cell (A, a) ≠ []) ∧
        ∃ B a, Reaches g.prod A B ∧ 2 ≤ (t.cell (B, a)).length) := by
  have hcl := llClasses_spec t (fun _ => none)
  obtain ⟨cl, hcle⟩ : ∃ cl, cl = t.foldl llClassBody (fun _ => none) := ⟨_, rfl⟩
  rw [← hcle] at hcl
  have hnone : ∀ A, cl A = none ↔ ∀ a, t.cell (A, a) = [] := by
    intro A
    rw [(hcl A).1]
    constructor
    · rintro ⟨-, h⟩ a
      by_contra hne
      exact h _ ((mem_cell ht hne).2 rfl) rfl
    · refine fun h => ⟨rfl, fun e he hA => ?_⟩
      obtain ⟨⟨x, y⟩, l⟩ := e
      simp only at hA
      subst hA
      have := (mem_cell ht (ht.ne _ he)).1 he
      exact ht.ne _ he (by rw [← this]; exact h y)
  have hcf : ∀ A, cl A = some .contextFree ↔ ∃ a, 2 ≤ (t.cell (A, a)).length := by
    intro A
    rw [(hcl A).2]
    constructor
    · rintro (h | ⟨⟨⟨x, y⟩, l⟩, he, rfl, hl⟩)
      · cases h
      · exact ⟨y, by rw [(mem_cell ht (ht.ne _ he)).1 he]; exact hl⟩
    · rintro ⟨a, ha⟩
      refine .inr ⟨((A, a), t.cell (A, a)), (mem_cell ht ?_).2 rfl, rfl, ha⟩
      intro e
      rw [e] at ha
      simp at ha
  have hreset : (BitSet.reset g.src).length = g.numSyms := BitSet.length_reset _
  obtain ⟨b, eb, hbl, hb⟩ := llProperty_fold cl (t.map fun e => e.1.1) (BitSet.reset g.src) (by
    intro s hs
    obtain ⟨e, he, rfl⟩ := List.mem_map.1 hs
    rw [hreset]
    exact hk e he)
  obtain ⟨b', eb', hbl', hb'⟩ := closureAny_spec hwf b (by rw [hbl, hreset])
  obtain ⟨l, el⟩ := mapM_get (b := b') (t.map fun e => e.1.1) (by
    intro s hs
    obtain ⟨e, he, rfl⟩ := List.mem_map.1 hs
    rw [hbl']
    exact hk e he)
  have hprop : ∀ A, Has b' A ↔ ∃ B, Reaches g.prod A B ∧ ∃ a, 2 ≤ (t.cell (B, a)).length := by
    intro A
    rw [least_any_iff hb']
    have : ∀ B, Has b B ↔ ∃ a, 2 ≤ (t.cell (B, a)).length := by
      intro B
      rw [hb, ← hcf]
      constructor
      · rintro (h | h)
        · simp only [Has, BitSet.getElem?_reset] at h
          split at h <;> simp at h
        · exact h.2
      · intro h
        refine .inr ⟨?_, h⟩
        obtain ⟨a, ha⟩ := (hcf B).1 h
        refine List.mem_map.2 ⟨((B, a), t.cell (B, a)), (mem_cell ht ?_).2 rfl, rfl⟩
        intro e
        rw [e] at ha
        simp at ha
    simp only [this]
  obtain ⟨c, ec, hc⟩ : ∃ c, g.llClassify t = .ok c ∧ ∀ s, c s =
      (cl s).map fun k => if Has b' s then .contextFree else k := by
    refine ⟨_, by simp only [Cfg.llClassify, ← hcle, eb, eb', el, Res.bind_ok]; rfl,
      fun s => ?_⟩
    cases cl s with
    | none => rfl
    | some k => by_cases h : Has b' s <;> simp [Has] at h ⊢ <;> simp [h]
  refine ⟨c, ec, fun A => ?_⟩
  rw [hc]
  constructor
  · rw [← hnone, Option.map_eq_none_iff]
  · have hne : (∃ a, t.cell (A, a) ≠ []) ↔ cl A ≠ none := by
      rw [Ne, hnone]; push Not; rfl
    rw [hne]
    have hR : (∃ B a, Reaches g.prod A B ∧ 2 ≤ (t.cell (B, a)).length) ↔ Has b' A := by
      rw [hprop]; simp
    rw [hR]
    cases hclA : cl A with
    | none => simp
    | some k =>
      simp only [ne_eq, reduceCtorEq, not_false_eq_true, true_and, Option.map_some,
        Option.some.injEq]
      by_cases hh : Has b' A
      · rw [if_pos hh]; simp [hh]
      · rw [if_neg hh]
        constructor
        · rintro rfl
          obtain ⟨a, ha⟩ := (hcf A).1 hclA
          exact (hprop A).2 ⟨A, Reaches.refl A, a, ha⟩
        · exact fun h => absurd h hh

end Verif
