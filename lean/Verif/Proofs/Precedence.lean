import Verif.Proofs.PrecMarks
import Verif.Proofs.Split
import Verif.Proofs.TreesSplit
import Verif.Proofs.Tactics

/-! # Precedenced rules: proofs -/

namespace Verif

/-! ## Derivations -/

section
variable {P : Productions} {T : Sym → Prop} {lhs : Sym} {m : Nat} {st : Nat → Nat}
  {alts : List Alternative}

theorem Gen.append {l₁ l₂ : List Occ} {w₁ w₂ : List Sym} (h₁ : Gen P T lhs m st alts l₁ w₁)
    (h₂ : Gen P T lhs m st alts l₂ w₂) : Gen P T lhs m st alts (l₁ ++ l₂) (w₁ ++ w₂) := by
  induction h₁ with
  | nil => exact h₂
  | term h _ ih => exact .term h ih
  | rule h h1 _ _ ih => rw [List.append_assoc]; exact .rule h h1 ih
  | alt h h1 _ _ ih => rw [List.append_assoc]; exact .alt h h1 ih
  | altBelow h h' h1 _ _ ih => rw [List.append_assoc]; exact .altBelow h h' h1 ih

theorem Gen.below_mono {b b' : Nat} (hb : b ≤ b') {w : List Sym}
    (h : Gen P T lhs m st alts [.below b] w) : Gen P T lhs m st alts [.below b'] w := by
  cases h with
  | altBelow h h' h1 h2 => exact .altBelow h (by omega) h1 h2

theorem Gen.below_any {b : Nat} {w : List Sym}
    (h : Gen P T lhs m st alts [.below b] w) : Gen P T lhs m st alts [.any lhs] w := by
  cases h with
  | altBelow h h' h1 h2 => exact .alt h h1 h2

theorem Gen.terminal {l : List Occ} {w : List Sym} (h : Gen P T lhs m st alts l w) :
    ∀ a ∈ w, T a := by
  induction h with
  | nil => simp
  | term h _ ih => simpa using ⟨h, ih⟩
  | rule _ _ _ ih1 ih2 =>
    intro a ha
    rcases List.mem_append.1 ha with ha | ha
    exacts [ih1 a ha, ih2 a ha]
  | alt _ _ _ ih1 ih2 =>
    intro a ha
    rcases List.mem_append.1 ha with ha | ha
    exacts [ih1 a ha, ih2 a ha]
  | altBelow _ _ _ _ ih1 ih2 =>
    intro a ha
    rcases List.mem_append.1 ha with ha | ha
    exacts [ih1 a ha, ih2 a ha]

theorem map_occSym_lhs (a : Alternative) :
    (a.marks lhs m st).map (occSym fun _ => lhs) = a.rhs := by
  apply List.ext_getElem?
  intro j
  unfold Alternative.marks
  simp only [List.getElem?_map, List.getElem?_mapIdx, Option.map_map]
  conv_rhs => rw [← Option.map_id' (x := a.rhs[j]?)]
  congr 1
  funext s
  simp only [Function.comp]
  by_cases h : s = lhs
  · cases a.assoc <;> simp [h, occSym]
  · simp [h, occSym]

/-- Restricted derivations are derivations of the ambiguous grammar. -/
theorem Gen.ambiguous {l : List Occ} {w : List Sym} (h : Gen P T lhs m st alts l w) :
    Der (Ambiguous P lhs alts) (l.map (occSym fun _ => lhs)) w := by
  induction h with
  | nil => exact .nil
  | @term a l v _ _ ih => exact .keep _ ih
  | @rule A α u l v h _ _ ih1 ih2 =>
    have : (α.map Occ.any).map (occSym fun _ => lhs) = α := by
      simp [Function.comp_def, occSym]
    rw [this] at ih1
    exact .expand (.inl h) ih1 ih2
  | @alt a u l v h _ _ ih1 ih2 =>
    rw [map_occSym_lhs] at ih1
    exact .expand (.inr ⟨rfl, a, h, rfl⟩) ih1 ih2
  | @altBelow a b u l v h _ _ _ ih1 ih2 =>
    rw [map_occSym_lhs] at ih1
    exact .expand (.inr ⟨rfl, a, h, rfl⟩) ih1 ih2

end

/-- The productions made by the builder, with `Ls i` the symbol of level `i`. -/
def precProd (P : Productions) (lhs : Sym) (m : Nat) (Ls : Nat → Sym) (alts : List Alternative) :
    Productions := fun A α =>
  P A α ∨ (∃ i, i < m ∧ A = Ls (i + 1) ∧ α = [Ls i]) ∨
  (∃ a ∈ alts, A = Ls a.level ∧ α = (a.marks lhs m codeStrict).map (occSym Ls)) ∨
  (A = lhs ∧ α = [Ls m])

section
variable {P : Productions} {T : Sym → Prop} {lhs : Sym} {m N : Nat} {Ls : Nat → Sym}
  {alts : List Alternative}

theorem precProd_chain {i j : Nat} (hij : i ≤ j) (hj : j ≤ m) :
    Der (precProd P lhs m Ls alts) [Ls j] [Ls i] := by
  induction j with
  | zero =>
    obtain rfl : i = 0 := by omega
    exact .refl _
  | succ j ih =>
    by_cases h : i = j + 1
    · subst h; exact .refl _
    · exact Der.trans (.prod (.inr (.inl ⟨j, by omega, rfl, rfl⟩))) (ih (by omega) (by omega))

theorem marks_bounds {a : Alternative} (ha : a.level ≤ m) {b : Nat}
    (h : Occ.below b ∈ a.marks lhs m codeStrict) : 1 ≤ b ∧ b ≤ m + 1 := by
  rcases mem_marks h with ⟨s, -, -, h⟩ | ⟨-, b', h, h'⟩
  · cases h
  · cases h
    unfold codeStrict at h'
    omega

theorem Gen.toDer (hlev : ∀ a ∈ alts, a.level ≤ m) {l : List Occ} {w : List Sym}
    (h : Gen P T lhs m codeStrict alts l w) (hl : ∀ b, Occ.below b ∈ l → 1 ≤ b ∧ b ≤ m + 1) :
    Der (precProd P lhs m Ls alts) (l.map (occSym Ls)) w := by
  induction h with
  | nil => exact .nil
  | @term a l v _ _ ih => exact .keep _ (ih fun b hb => hl b (by simp [hb]))
  | @rule A α u l v h _ _ ih1 ih2 =>
    have ih1 := ih1 (by simp)
    have : (α.map Occ.any).map (occSym Ls) = α := by
      simp [Function.comp_def, occSym]
    rw [this] at ih1
    exact .expand (.inl h) ih1 (ih2 fun b hb => hl b (by simp [hb]))
  | @alt a u l v h _ _ ih1 ih2 =>
    have ih1 := ih1 fun b hb => marks_bounds (hlev a h) hb
    have ih2 := ih2 fun b hb => hl b (by simp [hb])
    refine Der.append (u₁ := [lhs]) ?_ ih2
    refine Der.trans (.prod (.inr (.inr (.inr ⟨rfl, rfl⟩)))) ?_
    refine Der.trans (precProd_chain (hlev a h) (Nat.le_refl _)) ?_
    exact Der.trans (.prod (.inr (.inr (.inl ⟨a, h, rfl, rfl⟩)))) ih1
  | @altBelow a b u l v h h' _ _ ih1 ih2 =>
    have ih1 := ih1 fun b hb => marks_bounds (hlev a h) hb
    have ih2 := ih2 fun b hb => hl b (by simp [hb])
    have hb := hl b (by simp)
    refine Der.append (u₁ := [Ls (b - 1)]) ?_ ih2
    refine Der.trans (precProd_chain (show a.level ≤ b - 1 by omega) (by omega)) ?_
    exact Der.trans (.prod (.inr (.inr (.inl ⟨a, h, rfl, rfl⟩)))) ih1

/-- Derivations of the built grammar respect the precedence. -/
theorem Gen.ofInLang (hlev : ∀ a ∈ alts, a.level ≤ m) (hN : ∀ A α, P A α → A < N ∧ ∀ x ∈ α, x < N)
    (hlhs : lhs < N) (hT : ∀ a, T a → a < N) (halts : ∀ a ∈ alts, ∀ x ∈ a.rhs, x < N)
    (hLs : ∀ i, i ≤ m → N ≤ Ls i) (hinj : ∀ i j, i ≤ m → j ≤ m → Ls i = Ls j → i = j)
    {A : Sym} (hA : A < N) {w : List Sym} (h : InLang (precProd P lhs m Ls alts) T A w) :
    Gen P T lhs m codeStrict alts [.any A] w := by
  let V : Sym → List Sym → Prop := fun x w =>
    (x < N → Gen P T lhs m codeStrict alts [.any x] w) ∧
    ∀ i, i ≤ m → x = Ls i → Gen P T lhs m codeStrict alts [.below (i + 1)] w
  have hold : ∀ {x w}, x < N → Gen P T lhs m codeStrict alts [.any x] w → V x w := by
    intro x w h1 h2
    refine ⟨fun _ => h2, fun i hi e => ?_⟩
    have := hLs i hi
    omega
  have hlevel : ∀ {i w}, i ≤ m → Gen P T lhs m codeStrict alts [.below (i + 1)] w →
      V (Ls i) w := by
    intro i w hi h2
    refine ⟨fun h => ?_, fun j hj e => ?_⟩
    · have := hLs i hi
      omega
    · rw [← hinj i j hi hj e]
      exact h2
  have hconc : ∀ (l : List Occ) (w : List Sym), (∀ o ∈ l, (∃ s, s < N ∧ o = .any s) ∨
      ∃ b, 1 ≤ b ∧ b ≤ m + 1 ∧ o = .below b) → ConcatLang V (l.map (occSym Ls)) w →
      Gen P T lhs m codeStrict alts l w := by
    intro l
    induction l with
    | nil => intro w _ h; simp only [List.map_nil, ConcatLang] at h; subst h; exact .nil
    | cons o l ih =>
      rintro w hl ⟨u, v, rfl, h1, h2⟩
      have h2 := ih v (fun o ho => hl o (by simp [ho])) h2
      refine Gen.append (l₁ := [o]) ?_ h2
      rcases hl o (by simp) with ⟨s, hs, rfl⟩ | ⟨b, h3, h4, rfl⟩
      · exact h1.1 hs
      · have := h1.2 (b - 1) (by omega) rfl
        rwa [show b - 1 + 1 = b by omega] at this
  refine (inLang_le (V := V) ?_ ?_ h).1 hA
  · intro a ha
    exact hold (hT a ha) (.term ha .nil)
  · rintro B α w (hp | ⟨i, hi, rfl, rfl⟩ | ⟨a, ha, rfl, rfl⟩ | ⟨rfl, rfl⟩) hc
    · obtain ⟨h1, h2⟩ := hN B α hp
      refine hold h1 ?_
      have := hconc (α.map .any) w (by
        intro o ho
        obtain ⟨s, hs, rfl⟩ := List.mem_map.1 ho
        exact .inl ⟨s, h2 s hs, rfl⟩) (by simpa [Function.comp_def, occSym] using hc)
      simpa using Gen.rule hp this .nil
    · have := (concatLang_single.1 hc).2 i (by omega) rfl
      exact hlevel (by omega) (this.below_mono (by omega))
    · have := hconc _ w (by
        intro o ho
        rcases mem_marks ho with ⟨s, hs, -, rfl⟩ | ⟨-, b, rfl, -⟩
        · exact .inl ⟨s, halts a ha s hs, rfl⟩
        · obtain ⟨h1, h2⟩ := marks_bounds (hlev a ha) ho
          exact .inr ⟨b, h1, h2, rfl⟩) hc
      refine hlevel (hlev a ha) ?_
      simpa using Gen.altBelow ha (Nat.lt_succ_self _) this .nil
    · have := (concatLang_single.1 hc).2 m (Nat.le_refl _) rfl
      exact hold hlhs this.below_any

end

/-! ## Running the builder -/

/-- The productions made before `finalize`. -/
def builtProd (P : Productions) (lhs : Sym) (n : Nat) (Ls : Nat → Sym) (alts : List Alternative) :
    Productions := fun A α =>
  P A α ∨ (∃ i, i < n ∧ A = Ls (i + 1) ∧ α = [Ls i]) ∨
  (∃ a ∈ alts, a.assoc ≠ .group ∧ A = Ls a.level ∧ α = (a.marks lhs 0 codeStrict).map (occSym Ls))

/-- What a rule made by the builder is for. -/
inductive PTag where
  | unit (k : Nat)
  | alt (j : Nat) (a : Alternative)
  | final
  deriving DecidableEq

def PTag.pair (lhs : Sym) (m : Nat) (Ls : Nat → Sym) : PTag → Sym × List Sym
  | .unit k => (Ls (k + 1), [Ls k])
  | .alt _ a => (Ls a.level, (a.marks lhs m codeStrict).map (occSym Ls))
  | .final => (lhs, [Ls m])

/-- State of the builder. -/
structure PInv (g0 : Cfg) (lhs : Sym) (Ls : Nat → Sym) (alts : List Alternative) (a : Assoc)
    (b : PrecBuilder) : Prop where
  hlhs : b.lhs = lhs
  cur : b.current = Ls b.looseness
  tight : b.tighter = Ls (b.looseness - 1)
  hassoc : b.assoc = a
  ge : ∀ i, i ≤ b.looseness → g0.numSyms ≤ Ls i
  inj : ∀ i j, i ≤ b.looseness → j ≤ b.looseness → Ls i = Ls j → i = j
  split : Cfg.OSplit (fun x => x < g0.numSyms ∨ ∃ i, i ≤ b.looseness ∧ x = Ls i)
    (builtProd g0.prod lhs b.looseness Ls alts) b.g
  hgroup : b.group.map (fun r => (r.lhs, r.rhs)) =
    (alts.filter fun a => a.assoc = .group).map fun a => (Ls a.level, a.rhs)
  lev : ∀ a ∈ alts, a.level ≤ b.looseness
  limit : b.g.rhsLenInvariant = g0.rhsLenInvariant
  roots : b.g.roots = g0.roots
  wroots : b.g.wrappedRoots = g0.wrappedRoots
  rules : g0.rules <+: b.g.rules
  zero : Ls 0 = g0.numSyms
  tags : ∃ Q : List PTag, Q.Nodup ∧ (∀ k, .unit k ∈ Q ↔ k < b.looseness) ∧
    (∀ j a, .alt j a ∈ Q ↔ alts[j]? = some a ∧ a.assoc ≠ .group) ∧ .final ∉ Q ∧
    Cfg.Folded (fun x => x < g0.numSyms ∨ ∃ i, i ≤ b.looseness ∧ x = Ls i) b.g.numSyms
      (g0.pairs ++ Q.map (PTag.pair lhs 0 Ls)) b.g.rules

theorem osplit_congrP {O : Sym → Prop} {P Q : Productions} {g : Cfg} (h : Cfg.OSplit O P g)
    (hPQ : ∀ A α, P A α ↔ Q A α) : Cfg.OSplit O Q g := by
  have : P = Q := by funext A α; exact propext (hPQ A α)
  exact this ▸ h

theorem limitOk_of {g g' : Cfg} (h : g'.rhsLenInvariant = g.rhsLenInvariant) (hl : g.LimitOk) :
    g'.LimitOk := by
  unfold Cfg.LimitOk at *
  rw [h]
  exact hl

theorem PInv.new {g : Cfg} (hwf : g.WF) (lhs : Sym) :
    PInv g lhs (fun _ => g.numSyms) [] .left (PrecBuilder.new g lhs) := by
  have hO : ∀ x, (x < g.numSyms ∨ x = g.numSyms) ↔
      (x < g.numSyms ∨ ∃ i, i ≤ (PrecBuilder.new g lhs).looseness ∧ x = g.numSyms) := by
    intro x
    constructor
    · rintro (h | h)
      · exact .inl h
      · exact .inr ⟨0, Nat.le_refl _, h⟩
    · rintro (h | ⟨i, -, h⟩)
      · exact .inl h
      · exact .inr h
  refine ⟨rfl, rfl, rfl, rfl, fun _ _ => Nat.le_refl _, ?_, ?_, rfl, by simp, rfl, rfl, rfl,
    List.prefix_rfl, rfl, [], List.nodup_nil, by simp [PrecBuilder.new], by simp, by simp, ?_⟩
  · intro i j hi hj _
    have hi : i ≤ 0 := hi
    have hj : j ≤ 0 := hj
    omega
  · refine osplit_congrP (((Cfg.OSplit.refl hwf).fresh none).congrO hO) fun A α => ?_
    have : (PrecBuilder.new g lhs).looseness = 0 := rfl
    simp [builtProd, this]
  · have := (Cfg.Folded.refl g hwf).fresh.congr hO
    rw [List.map_nil, List.append_nil]
    exact this

section
variable {g0 : Cfg} {lhs : Sym} {Ls : Nat → Sym} {alts : List Alternative} {a : Assoc}
  {b : PrecBuilder}

theorem getElem?_append_single {α : Type} {l : List α} {x y : α} {j : Nat} :
    (l ++ [x])[j]? = some y ↔ l[j]? = some y ∨ j = l.length ∧ y = x := by
  rcases Nat.lt_trichotomy j l.length with h | h | h
  · rw [List.getElem?_append_left h]
    constructor
    · exact .inl
    · rintro (h' | ⟨h', -⟩)
      · exact h'
      · omega
  · subst h
    simp [eq_comm]
  · rw [List.getElem?_eq_none (by simp; omega), List.getElem?_eq_none (by omega)]
    simp
    omega

theorem PInv.rhs (hlim : g0.LimitOk) (h : PInv g0 lhs Ls alts a b) {α : List Sym}
    (hα : ∀ x ∈ α, x < g0.numSyms) (hist : History) :
    ∃ b', b.rhsWithHistory α hist = .ok b' ∧ b'.looseness = b.looseness ∧
      PInv g0 lhs Ls (alts ++ [⟨b.looseness, a, α⟩]) .left b' := by
  have hl := limitOk_of h.limit hlim
  have hlev : ∀ a' ∈ alts ++ [⟨b.looseness, a, α⟩], a'.level ≤ b.looseness := by
    intro a' ha
    rcases List.mem_append.1 ha with ha | ha
    · exact h.lev a' ha
    · rw [List.mem_singleton] at ha
      subst ha
      exact Nat.le_refl _
  have hadd : a ≠ .group → ∀ hist, ∃ g' k,
      b.g.addRule ⟨b.current, ((⟨b.looseness, a, α⟩ : Alternative).marks lhs 0 codeStrict).map
        (occSym Ls), hist⟩ = .ok (g', k) ∧
      PInv g0 lhs Ls (alts ++ [⟨b.looseness, a, α⟩]) .left
        { b with g := g', assoc := .left, history := none } := by
    intro ha hist
    have hO : ∀ x ∈ ((⟨b.looseness, a, α⟩ : Alternative).marks lhs 0 codeStrict).map (occSym Ls),
        x < g0.numSyms ∨ ∃ i, i ≤ b.looseness ∧ x = Ls i := by
      intro x hx
      obtain ⟨o, ho, rfl⟩ := List.mem_map.1 hx
      rcases mem_marks ho with ⟨s, hs, -, rfl⟩ | ⟨-, c, rfl, hc⟩
      · exact .inl (hα s hs)
      · refine .inr ⟨c - 1, ?_, rfl⟩
        simp only [codeStrict] at hc
        omega
    obtain ⟨g', k, h1, h2, h3, h4, h5, -, -, ⟨rs, h6, -⟩, -⟩ := h.split.addRule hl
      ⟨b.current, ((⟨b.looseness, a, α⟩ : Alternative).marks lhs 0 codeStrict).map (occSym Ls), hist⟩
      (.inr ⟨_, Nat.le_refl _, h.cur⟩) hO
    obtain ⟨Q, q1, q2, q3, q4, q5⟩ := h.tags
    obtain ⟨g'', k', h7, h8, -⟩ := q5.addRule hl
      ⟨b.current, ((⟨b.looseness, a, α⟩ : Alternative).marks lhs 0 codeStrict).map (occSym Ls), hist⟩
      (.inr ⟨_, Nat.le_refl _, h.cur⟩) hO
    cases h1.symm.trans h7
    refine ⟨g', k, h1, ⟨h.hlhs, h.cur, h.tight, rfl, h.ge, h.inj, ?_, ?_, hlev, h3.trans h.limit,
      h4.trans h.roots, h5.trans h.wroots, ?_, h.zero,
      Q ++ [.alt alts.length ⟨b.looseness, a, α⟩], ?_, ?_, ?_, ?_, ?_⟩⟩
    · refine osplit_congrP h2 fun A β => ?_
      simp only [Cfg.addProd, builtProd, List.mem_append, List.mem_singleton]
      constructor
      · rintro ((h' | h' | ⟨a', h', h''⟩) | ⟨rfl, rfl⟩)
        · exact .inl h'
        · exact .inr (.inl h')
        · exact .inr (.inr ⟨a', .inl h', h''⟩)
        · exact .inr (.inr ⟨_, .inr rfl, ha, h.cur, rfl⟩)
      · rintro (h' | h' | ⟨a', h' | rfl, h'', e1, e2⟩)
        · exact .inl (.inl h')
        · exact .inl (.inr (.inl h'))
        · exact .inl (.inr (.inr ⟨a', h', h'', e1, e2⟩))
        · exact .inr ⟨e1.trans h.cur.symm, e2⟩
    · rw [List.filter_append]
      simp [ha, h.hgroup]
    · exact h.rules.trans ⟨rs, h6.symm⟩
    · rw [List.nodup_append]
      refine ⟨q1, by simp, ?_⟩
      intro t ht t' ht' e
      rw [List.mem_singleton] at ht'
      subst e ht'
      have := ((q3 _ _).1 ht).1
      simp at this
    · intro k
      simp [q2]
    · intro j x
      simp only [List.mem_append, q3, List.mem_singleton, PTag.alt.injEq]
      rw [getElem?_append_single]
      constructor
      · rintro (⟨e1, e2⟩ | ⟨rfl, rfl⟩)
        · exact ⟨.inl e1, e2⟩
        · exact ⟨.inr ⟨rfl, rfl⟩, ha⟩
      · rintro ⟨e1 | e1, e2⟩
        · exact .inl ⟨e1, e2⟩
        · exact .inr e1
    · simp [q4]
    · simp only [List.map_append, List.map_cons, List.map_nil, ← List.append_assoc]
      have e : (PTag.alt alts.length ⟨b.looseness, a, α⟩).pair lhs 0 Ls = CfgRule.pair ⟨b.current,
          ((⟨b.looseness, a, α⟩ : Alternative).marks lhs 0 codeStrict).map (occSym Ls), hist⟩ := by
        rw [h.cur]
        rfl
      rw [e]
      exact h8
  unfold PrecBuilder.rhsWithHistory
  simp only [processLinked, Res.bind_ok, h.hassoc]
  cases a with
  | left =>
    obtain ⟨g', k, h1, h2⟩ := hadd (by simp) hist
    rw [marks_left, ← h.cur, ← h.tight, ← h.hlhs] at h1
    rw [h1]
    exact ⟨_, rfl, rfl, by rw [← h.hlhs] at h2 ⊢; exact h2⟩
  | right =>
    obtain ⟨g', k, h1, h2⟩ := hadd (by simp) hist
    rw [marks_right, ← h.cur, ← h.tight, ← h.hlhs] at h1
    rw [h1]
    exact ⟨_, rfl, rfl, by rw [← h.hlhs] at h2 ⊢; exact h2⟩
  | group =>
    obtain ⟨Q, q1, q2, q3, q4, q5⟩ := h.tags
    refine ⟨_, rfl, rfl, ⟨h.hlhs, h.cur, h.tight, rfl, h.ge, h.inj, ?_, ?_, hlev, h.limit, h.roots,
      h.wroots, h.rules, h.zero, Q, q1, q2, ?_, q4, q5⟩⟩
    · refine osplit_congrP h.split fun A β => ?_
      simp only [builtProd, List.mem_append, List.mem_singleton]
      constructor
      · rintro (h' | h' | ⟨a', h', h''⟩)
        · exact .inl h'
        · exact .inr (.inl h')
        · exact .inr (.inr ⟨a', .inl h', h''⟩)
      · rintro (h' | h' | ⟨a', h' | rfl, h'', e⟩)
        · exact .inl h'
        · exact .inr (.inl h')
        · exact .inr (.inr ⟨a', h', h'', e⟩)
        · exact absurd rfl h''
    · simp [h.hgroup, h.cur]
    · intro j x
      rw [q3, getElem?_append_single]
      constructor
      · rintro ⟨e1, e2⟩
        exact ⟨.inl e1, e2⟩
      · rintro ⟨e1 | ⟨-, rfl⟩, e2⟩
        · exact ⟨e1, e2⟩
        · exact absurd rfl e2

theorem PInv.lower (hlim : g0.LimitOk) (h : PInv g0 lhs Ls alts a b) :
    ∃ b' Ls', b.lowerPrecedence = .ok b' ∧ b'.looseness = b.looseness + 1 ∧
      PInv g0 lhs Ls' alts a b' := by
  have hs := h.split.fresh none
  have hl : (b.g.nextSym none).2.LimitOk := limitOk_of (g := g0) h.limit hlim
  obtain ⟨g', k, h1, h2, h3, h4, h5, -, -, ⟨rs, h6, -⟩, -⟩ := hs.addRule hl
    ⟨b.g.numSyms, [b.current], History.ofRoot .noOp⟩ (.inr rfl) (by
      simp only [List.mem_singleton, forall_eq]
      exact .inl (.inr ⟨_, Nat.le_refl _, h.cur⟩))
  obtain ⟨Q, q1, q2, q3, q4, q5⟩ := h.tags
  obtain ⟨g'', k', h7, h8, -⟩ := Cfg.Folded.addRule (g := (b.g.nextSym none).2) q5.fresh hl
    ⟨b.g.numSyms, [b.current], History.ofRoot .noOp⟩ (.inr rfl) (by
      simp only [List.mem_singleton, forall_eq]
      exact .inl (.inr ⟨_, Nat.le_refl _, h.cur⟩))
  cases h1.symm.trans h7
  let Ls' : Nat → Sym := fun i => if i = b.looseness + 1 then b.g.numSyms else Ls i
  have hL : ∀ i, i ≤ b.looseness → Ls' i = Ls i := by
    intro i hi
    simp only [Ls']
    rw [if_neg (by omega)]
  have hL1 : Ls' (b.looseness + 1) = b.g.numSyms := by simp [Ls']
  have hlt : ∀ i, i ≤ b.looseness → Ls i < b.g.numSyms := fun i hi =>
    h.split.le _ (.inr ⟨i, hi, rfl⟩)
  have hN : g0.numSyms ≤ b.g.numSyms :=
    Nat.le_trans (h.ge 0 (by omega)) (Nat.le_of_lt (hlt 0 (by omega)))
  have hO : ∀ x, ((x < g0.numSyms ∨ ∃ i, i ≤ b.looseness ∧ x = Ls i) ∨ x = b.g.numSyms) ↔
      (x < g0.numSyms ∨ ∃ i, i ≤ b.looseness + 1 ∧ x = Ls' i) := by
    intro x
    constructor
    · rintro ((hx | ⟨i, hi, rfl⟩) | rfl)
      · exact .inl hx
      · exact .inr ⟨i, by omega, (hL i hi).symm⟩
      · exact .inr ⟨_, Nat.le_refl _, hL1.symm⟩
    · rintro (hx | ⟨i, hi, rfl⟩)
      · exact .inl (.inl hx)
      · by_cases e : i = b.looseness + 1
        · rw [e]; exact .inr hL1
        · rw [hL i (by omega)]; exact .inl (.inr ⟨i, by omega, rfl⟩)
  have hm : ∀ a' ∈ alts, a'.assoc ≠ .group → (a'.marks lhs 0 codeStrict).map (occSym Ls') =
      (a'.marks lhs 0 codeStrict).map (occSym Ls) := by
    intro a' ha' hg
    refine List.map_congr_left fun o ho => ?_
    rcases mem_marks ho with ⟨s, -, -, rfl⟩ | ⟨-, c, rfl, hc⟩
    · rfl
    · have := h.lev a' ha'
      simp only [codeStrict] at hc
      exact hL _ (by omega)
  refine ⟨PrecBuilder.mk g' b.lhs b.current b.g.numSyms b.history b.assoc (b.looseness + 1) b.group,
    Ls', ?_, rfl, ?_⟩
  · unfold PrecBuilder.lowerPrecedence
    simp only [RuleBuilder.rhsWithHistory, Res.ofOption, Res.bind_ok]
    have : (b.g.nextSym none).1 = b.g.numSyms := rfl
    rw [this, h1]
    rfl
  · refine ⟨h.hlhs, hL1.symm, ?_, h.hassoc, ?_, ?_, ?_, ?_, ?_, h3.trans h.limit, h4.trans h.roots,
      h5.trans h.wroots, ?_, by rw [hL _ (by omega)]; exact h.zero,
      Q ++ [.unit b.looseness], ?_, ?_, ?_, by simp [q4], ?_⟩
    · simp only [Nat.add_sub_cancel]
      rw [hL _ (Nat.le_refl _)]
      exact h.cur
    · intro i hi
      simp only at hi
      by_cases e : i = b.looseness + 1
      · rw [e, hL1]; exact hN
      · rw [hL i (by omega)]; exact h.ge i (by omega)
    · intro i j hi hj e
      simp only at hi hj
      by_cases ei : i = b.looseness + 1
      · by_cases ej : j = b.looseness + 1
        · rw [ei, ej]
        · rw [ei, hL1, hL j (by omega)] at e
          have := hlt j (by omega)
          omega
      · by_cases ej : j = b.looseness + 1
        · rw [ej, hL1, hL i (by omega)] at e
          have := hlt i (by omega)
          omega
        · rw [hL i (by omega), hL j (by omega)] at e
          exact h.inj i j (by omega) (by omega) e
    · refine osplit_congrP (h2.congrO hO) fun A β => ?_
      · simp only [Cfg.addProd, builtProd]
        constructor
        · rintro ((h' | ⟨i, hi, rfl, rfl⟩ | ⟨a', h', h'', rfl, rfl⟩) | ⟨rfl, rfl⟩)
          · exact .inl h'
          · refine .inr (.inl ⟨i, by omega, ?_, ?_⟩)
            · rw [hL _ (by omega)]
            · rw [hL _ (by omega)]
          · refine .inr (.inr ⟨a', h', h'', ?_, ?_⟩)
            · rw [hL _ (h.lev a' h')]
            · rw [hm a' h' h'']
          · refine .inr (.inl ⟨b.looseness, by omega, hL1.symm, ?_⟩)
            rw [hL _ (Nat.le_refl _), h.cur]
        · rintro (h' | ⟨i, hi, rfl, rfl⟩ | ⟨a', h', h'', rfl, rfl⟩)
          · exact .inl (.inl h')
          · by_cases e : i = b.looseness
            · rw [e, hL _ (Nat.le_refl _), hL1, ← h.cur]
              exact .inr ⟨rfl, rfl⟩
            · refine .inl (.inr (.inl ⟨i, by omega, ?_, ?_⟩))
              · rw [hL _ (by omega)]
              · rw [hL _ (by omega)]
          · refine .inl (.inr (.inr ⟨a', h', h'', ?_, ?_⟩))
            · rw [hL _ (h.lev a' h')]
            · rw [hm a' h' h'']
    · simp only
      rw [h.hgroup]
      refine List.map_congr_left fun a' ha' => ?_
      rw [hL _ (h.lev a' (List.mem_filter.1 ha').1)]
    · intro a' ha'
      have := h.lev a' ha'
      simp only
      omega
    · exact h.rules.trans ⟨rs, h6.symm⟩
    · rw [List.nodup_append]
      refine ⟨q1, by simp, ?_⟩
      intro t ht t' ht' e
      rw [List.mem_singleton] at ht'
      subst e ht'
      have := (q2 _).1 ht
      omega
    · intro k
      simp only [List.mem_append, q2, List.mem_singleton, PTag.unit.injEq]
      omega
    · intro j x
      simp [q3]
    · have e : Q.map (PTag.pair lhs 0 Ls') = Q.map (PTag.pair lhs 0 Ls) := by
        refine List.map_congr_left fun t ht => ?_
        cases t with
        | unit k =>
          have := (q2 k).1 ht
          simp only [PTag.pair]
          rw [hL _ (by omega), hL _ (by omega)]
        | alt j x =>
          obtain ⟨e1, e2⟩ := (q3 j x).1 ht
          have hx := List.mem_of_getElem? e1
          simp only [PTag.pair]
          rw [hL _ (h.lev x hx), hm x hx e2]
        | final => exact absurd ht q4
      simp only [List.map_append, List.map_cons, List.map_nil, ← List.append_assoc, e]
      have e : (PTag.unit b.looseness).pair lhs 0 Ls' = CfgRule.pair ⟨b.g.numSyms, [b.current],
          History.ofRoot .noOp⟩ := by
        simp only [PTag.pair, CfgRule.pair]
        rw [hL1, hL _ (Nat.le_refl _), h.cur]
      rw [e]
      exact h8.congr hO

theorem PInv.run (hlim : g0.LimitOk) (calls : List PrecCall) (h : PInv g0 lhs Ls alts a b)
    (hc : ∀ x ∈ alternatives b.looseness a calls, ∀ s ∈ x.rhs, s < g0.numSyms) :
    ∃ b' Ls' a', b.run calls = .ok b' ∧
      b'.looseness = b.looseness + calls.count .lowerPrecedence ∧
      PInv g0 lhs Ls' (alts ++ alternatives b.looseness a calls) a' b' := by
  induction calls generalizing b Ls alts a with
  | nil => exact ⟨b, Ls, a, rfl, by simp, by simpa [alternatives] using h⟩
  | cons c cs ih =>
    unfold PrecBuilder.run
    cases c with
    | history hist =>
      obtain ⟨b', Ls', a', h1, h2, h3⟩ := ih (b := { b with history := some hist }) (Ls := Ls)
        (alts := alts) (a := a) ⟨h.hlhs, h.cur, h.tight, h.hassoc, h.ge, h.inj, h.split, h.hgroup,
          h.lev, h.limit, h.roots, h.wroots, h.rules, h.zero, h.tags⟩ hc
      exact ⟨b', Ls', a', h1, by rw [h2]; simp, h3⟩
    | associativity as =>
      obtain ⟨b', Ls', a', h1, h2, h3⟩ := ih (b := { b with assoc := as }) (Ls := Ls)
        (alts := alts) (a := as) ⟨h.hlhs, h.cur, h.tight, rfl, h.ge, h.inj, h.split, h.hgroup,
          h.lev, h.limit, h.roots, h.wroots, h.rules, h.zero, h.tags⟩ hc
      exact ⟨b', Ls', a', h1, by rw [h2]; simp, h3⟩
    | rhs syms =>
      have h' : PInv g0 lhs Ls alts a { b with history := none } := ⟨h.hlhs, h.cur, h.tight,
        h.hassoc, h.ge, h.inj, h.split, h.hgroup, h.lev, h.limit, h.roots, h.wroots, h.rules, h.zero, h.tags⟩
      obtain ⟨b₁, e1, e2, e3⟩ := h'.rhs hlim (α := syms) (hc ⟨b.looseness, a, syms⟩ (by simp [alternatives]))
        (b.history.getD (History.ofRoot (.rule b.lhs)))
      obtain ⟨b', Ls', a', h1, h2, h3⟩ := ih e3 (by
        rw [e2]
        intro x hx
        exact hc x (by simp only [alternatives, List.mem_cons]; exact .inr hx))
      refine ⟨b', Ls', a', ?_, by rw [h2, e2]; simp, ?_⟩
      · simp only [PrecBuilder.call, e1, Res.bind_ok]
        exact h1
      · rw [e2, List.append_assoc] at h3
        exact h3
    | rhsWithHistory syms hist =>
      obtain ⟨b₁, e1, e2, e3⟩ := h.rhs hlim (α := syms) (hc ⟨b.looseness, a, syms⟩ (by simp [alternatives])) hist
      obtain ⟨b', Ls', a', h1, h2, h3⟩ := ih e3 (by
        rw [e2]
        intro x hx
        exact hc x (by simp only [alternatives, List.mem_cons]; exact .inr hx))
      refine ⟨b', Ls', a', ?_, by rw [h2, e2]; simp, ?_⟩
      · simp only [PrecBuilder.call, e1, Res.bind_ok]
        exact h1
      · rw [e2, List.append_assoc] at h3
        exact h3
    | lowerPrecedence =>
      obtain ⟨b₁, Ls₁, e1, e2, e3⟩ := h.lower hlim
      obtain ⟨b', Ls', a', h1, h2, h3⟩ := ih e3 (by rw [e2]; exact hc)
      refine ⟨b', Ls', a', ?_, by rw [h2, e2]; simp; omega, ?_⟩
      · simp only [PrecBuilder.call, e1, Res.bind_ok]
        exact h1
      · rw [e2] at h3
        exact h3

theorem addGroup_spec {O : Sym → Prop} (lhs loosest : Sym) (rules : List CfgRule)
    {P : Productions} {g : Cfg} (hlim : g.LimitOk) (h : Cfg.OSplit O P g)
    (hr : ∀ r ∈ rules, O r.lhs ∧ ∀ x ∈ r.rhs, O x) (hl : O loosest)
    {old : List (Sym × List Sym)} (hf : Cfg.Folded O g.numSyms old g.rules) :
    ∃ g', PrecBuilder.addGroup lhs loosest g rules = .ok g' ∧
      Cfg.Folded O g'.numSyms (old ++ rules.map fun r =>
        (r.lhs, r.rhs.map fun s => if s = lhs then loosest else s)) g'.rules ∧
      Cfg.OSplit O (fun A α => P A α ∨ ∃ r ∈ rules, A = r.lhs ∧
        α = r.rhs.map fun s => if s = lhs then loosest else s) g' ∧
      g'.rhsLenInvariant = g.rhsLenInvariant ∧ g'.roots = g.roots ∧
      g'.wrappedRoots = g.wrappedRoots ∧ g.rules <+: g'.rules := by
  induction rules generalizing P g old with
  | nil => exact ⟨g, rfl, by simpa using hf, osplit_congrP h (by simp), rfl, rfl, rfl, List.prefix_rfl⟩
  | cons r rules ih =>
    have hO : ∀ x ∈ r.rhs.map fun s => if s = lhs then loosest else s, O x := by
      intro x hx
      obtain ⟨s, hs, rfl⟩ := List.mem_map.1 hx
      split
      · exact hl
      · exact (hr r (by simp)).2 s hs
    obtain ⟨g₁, k, h1, h2, h3, h4, h5, -, -, ⟨rs, h6, -⟩, -⟩ := h.addRule hlim
      { r with rhs := r.rhs.map fun s => if s = lhs then loosest else s } (hr r (by simp)).1 hO
    obtain ⟨g₂, k', h7, h8, -⟩ := hf.addRule hlim
      { r with rhs := r.rhs.map fun s => if s = lhs then loosest else s } (hr r (by simp)).1 hO
    cases h1.symm.trans h7
    obtain ⟨g', e1, e7, e2, e3, e4, e5, e6⟩ := ih (limitOk_of h3 hlim) h2
      (fun r' hr' => hr r' (by simp [hr'])) h8
    refine ⟨g', ?_, by simpa [CfgRule.pair] using e7, ?_, e3.trans h3, e4.trans h4, e5.trans h5, List.IsPrefix.trans ⟨rs, h6.symm⟩ e6⟩
    · unfold PrecBuilder.addGroup
      simp only [h1, Res.bind_ok]
      exact e1
    · refine osplit_congrP e2 fun A α => ?_
      simp only [Cfg.addProd, List.mem_cons]
      constructor
      · rintro ((h | ⟨rfl, rfl⟩) | ⟨r', h, e⟩)
        · exact .inl h
        · exact .inr ⟨r, .inl rfl, rfl, rfl⟩
        · exact .inr ⟨r', .inr h, e⟩
      · rintro (h | ⟨r', rfl | h, e⟩)
        · exact .inl (.inl h)
        · exact .inl (.inr e)
        · exact .inr ⟨r', h, e⟩

end

/-- The delayed alternatives. -/
def groupTags (alts : List Alternative) : List PTag :=
  (alts.zipIdx.filter fun p => p.1.assoc = .group).map fun p => .alt p.2 p.1

theorem mem_groupTags {alts : List Alternative} {t : PTag} :
    t ∈ groupTags alts ↔ ∃ j a, t = .alt j a ∧ alts[j]? = some a ∧ a.assoc = .group := by
  simp only [groupTags, List.mem_map, List.mem_filter, List.mem_zipIdx_iff_getElem?, Prod.exists,
    decide_eq_true_eq]
  constructor
  · rintro ⟨a, j, ⟨h1, h2⟩, rfl⟩
    exact ⟨j, a, rfl, h1, h2⟩
  · rintro ⟨j, a, rfl, h1, h2⟩
    exact ⟨a, j, ⟨h1, h2⟩, rfl⟩

theorem nodup_groupTags (alts : List Alternative) : (groupTags alts).Nodup := by
  unfold groupTags
  refine List.Nodup.map ?_ ?_
  · rintro ⟨a, j⟩ ⟨a', j'⟩ e
    cases e
    rfl
  · refine List.Nodup.filter _ ?_
    exact List.Nodup.of_map Prod.snd (by rw [List.zipIdx_map_snd]; exact List.nodup_range')

theorem map_groupTags (alts : List Alternative) (lhs : Sym) (m : Nat) (Ls : Nat → Sym) :
    (groupTags alts).map (PTag.pair lhs m Ls) =
      (alts.filter fun a => a.assoc = .group).map fun a =>
        (Ls a.level, (a.marks lhs m codeStrict).map (occSym Ls)) := by
  have e : ∀ k, ((alts.zipIdx k).filter fun p => p.1.assoc = .group).map Prod.fst =
      alts.filter fun a => a.assoc = .group := by
    induction alts with
    | nil => intro k; rfl
    | cons a alts ih =>
      intro k
      simp only [List.zipIdx_cons, List.filter_cons]
      split <;> simp [ih]
  rw [← e 0, List.map_map, groupTags, List.map_map]
  rfl

/-- The grammar built by a precedenced rule. -/
theorem precedencedRule_split {g : Cfg} (hwf : g.WF) (hlim : g.LimitOk) {lhs : Sym}
    (hlhs : lhs < g.numSyms) (calls : List PrecCall)
    (hc : ∀ x ∈ alternatives 0 .left calls, ∀ s ∈ x.rhs, s < g.numSyms) :
    ∃ g' Ls, g.precedencedRule lhs calls = .ok g' ∧
      (∀ i, i ≤ loosestLevel calls → g.numSyms ≤ Ls i) ∧
      (∀ i j, i ≤ loosestLevel calls → j ≤ loosestLevel calls → Ls i = Ls j → i = j) ∧
      (∀ a ∈ alternatives 0 .left calls, a.level ≤ loosestLevel calls) ∧
      Cfg.OSplit (fun x => x < g.numSyms ∨ ∃ i, i ≤ loosestLevel calls ∧ x = Ls i)
        (precProd g.prod lhs (loosestLevel calls) Ls (alternatives 0 .left calls)) g' ∧
      g'.rhsLenInvariant = g.rhsLenInvariant ∧ g'.roots = g.roots ∧
      g'.wrappedRoots = g.wrappedRoots ∧ g.rules <+: g'.rules ∧ Ls 0 = g.numSyms ∧
      ∃ Q : List PTag, Q.Nodup ∧ (∀ k, .unit k ∈ Q ↔ k < loosestLevel calls) ∧
        (∀ j a, .alt j a ∈ Q ↔ (alternatives 0 .left calls)[j]? = some a) ∧ .final ∈ Q ∧
        Cfg.Folded (fun x => x < g.numSyms ∨ ∃ i, i ≤ loosestLevel calls ∧ x = Ls i) g'.numSyms
          (g.pairs ++ Q.map (PTag.pair lhs (loosestLevel calls) Ls)) g'.rules := by
  obtain ⟨b, Ls, a, h1, h2, h⟩ := (PInv.new hwf lhs).run hlim calls hc
  have h2 : b.looseness = loosestLevel calls := by
    rw [h2]
    show 0 + _ = _
    simp [loosestLevel]
  have h : PInv g lhs Ls (alternatives 0 .left calls) a b := by simpa using (show PInv g lhs Ls ([] ++ alternatives 0 .left calls) a b from h)
  unfold Cfg.precedencedRule
  simp only [h1, Res.bind_ok]
  have hgr : ∀ r ∈ b.group, ∃ x ∈ alternatives 0 .left calls, x.assoc = .group ∧
      r.lhs = Ls x.level ∧ r.rhs = x.rhs := by
    intro r hr
    have : (r.lhs, r.rhs) ∈ b.group.map fun r => (r.lhs, r.rhs) := List.mem_map.2 ⟨r, hr, rfl⟩
    rw [h.hgroup] at this
    obtain ⟨x, hx, e⟩ := List.mem_map.1 this
    obtain ⟨hx1, hx2⟩ := List.mem_filter.1 hx
    obtain ⟨e1, e2⟩ := Prod.mk.inj e
    exact ⟨x, hx1, by simpa using hx2, e1.symm, e2.symm⟩
  have hgr' : ∀ x ∈ alternatives 0 .left calls, x.assoc = .group → ∃ r ∈ b.group,
      r.lhs = Ls x.level ∧ r.rhs = x.rhs := by
    intro x hx hx'
    have : (Ls x.level, x.rhs) ∈ b.group.map fun r => (r.lhs, r.rhs) := by
      rw [h.hgroup]
      exact List.mem_map.2 ⟨x, List.mem_filter.2 ⟨hx, by simpa using hx'⟩, rfl⟩
    obtain ⟨r, hr, e⟩ := List.mem_map.1 this
    obtain ⟨e1, e2⟩ := Prod.mk.inj e
    exact ⟨r, hr, e1, e2⟩
  obtain ⟨Q, q1, q2, q3, q4, q5⟩ := h.tags
  obtain ⟨g₁, e1, e7, e2, e3, e4, e5, e6⟩ := addGroup_spec b.lhs b.current b.group
    (limitOk_of h.limit hlim) h.split (by
      intro r hr
      obtain ⟨x, hx, -, e1, e2⟩ := hgr r hr
      refine ⟨.inr ⟨x.level, h.lev x hx, e1⟩, fun s hs => .inl (hc x hx s (e2 ▸ hs))⟩)
    (.inr ⟨_, Nat.le_refl _, h.cur⟩) q5
  obtain ⟨g₂, k', f7, f8, -⟩ := e7.addRule
    (limitOk_of (e3.trans h.limit) hlim) ⟨b.lhs, [b.current], History.ofRoot .noOp⟩
    (.inl (by rw [h.hlhs]; exact hlhs)) (by
      simp only [List.mem_singleton, forall_eq]
      exact .inr ⟨_, Nat.le_refl _, h.cur⟩)
  obtain ⟨g', k, f1, f2, f3, f4, f5, -, -, ⟨rs, f6, -⟩, -⟩ := e2.addRule
    (limitOk_of (e3.trans h.limit) hlim) ⟨b.lhs, [b.current], History.ofRoot .noOp⟩
    (.inl (by rw [h.hlhs]; exact hlhs)) (by
      simp only [List.mem_singleton, forall_eq]
      exact .inr ⟨_, Nat.le_refl _, h.cur⟩)
  obtain ⟨rfl, rfl⟩ := Prod.mk.inj (Res.ok.inj (f7.symm.trans f1))
  have hcur : b.current = Ls (loosestLevel calls) := by rw [h.cur, h2]
  have hng : ∀ x : Alternative, x.assoc ≠ .group → x.marks lhs 0 codeStrict =
      x.marks lhs (loosestLevel calls) codeStrict := fun x hx => marks_congr hx ..
  have hg : ∀ x : Alternative, x.assoc = .group →
      (x.marks lhs (loosestLevel calls) codeStrict).map (occSym Ls) =
        x.rhs.map fun s => if s = b.lhs then b.current else s := by
    rintro ⟨n, as, β⟩ hx
    simp only at hx
    subst hx
    rw [marks_group, hcur, h.hlhs]
  have hlev : ∀ a ∈ alternatives 0 .left calls, a.level ≤ loosestLevel calls := by
    intro a ha
    have := h.lev a ha
    omega
  refine ⟨_, Ls, ?_, fun i hi => h.ge i (by omega), fun i j hi hj => h.inj i j (by omega)
    (by omega), hlev, ?_, f3.trans (e3.trans h.limit), f4.trans (e4.trans h.roots),
    f5.trans (e5.trans h.wroots), h.rules.trans (e6.trans ⟨rs, f6.symm⟩), h.zero,
    Q ++ groupTags (alternatives 0 .left calls) ++ [.final], ?_, ?_, ?_, by simp, ?_⟩
  · unfold PrecBuilder.finalize
    simp only [e1, Res.bind_ok, RuleBuilder.rhsWithHistory, Res.ofOption, f1]
  · refine osplit_congrP (f2.congrO fun x => by simp only [h2]) fun A α => ?_
    simp only [Cfg.addProd, builtProd, precProd, h2]
    constructor
    · rintro (((h' | h' | ⟨x, hx, hx', rfl, rfl⟩) | ⟨r, hr, rfl, rfl⟩) | ⟨rfl, rfl⟩)
      · exact .inl h'
      · exact .inr (.inl h')
      · exact .inr (.inr (.inl ⟨x, hx, rfl, by rw [hng x hx']⟩))
      · obtain ⟨x, hx, hx', e1, e2⟩ := hgr r hr
        exact .inr (.inr (.inl ⟨x, hx, e1, by rw [hg x hx', e2]⟩))
      · exact .inr (.inr (.inr ⟨h.hlhs, by rw [hcur]⟩))
    · rintro (h' | h' | ⟨x, hx, rfl, rfl⟩ | ⟨rfl, rfl⟩)
      · exact .inl (.inl (.inl h'))
      · exact .inl (.inl (.inr (.inl h')))
      · by_cases hx' : x.assoc = .group
        · obtain ⟨r, hr, e1, e2⟩ := hgr' x hx hx'
          exact .inl (.inr ⟨r, hr, e1.symm, by rw [hg x hx', e2]⟩)
        · exact .inl (.inl (.inr (.inr ⟨x, hx, hx', rfl, by rw [hng x hx']⟩)))
      · exact .inr ⟨h.hlhs.symm, by rw [hcur]⟩
  · rw [List.nodup_append, List.nodup_append]
    refine ⟨⟨q1, nodup_groupTags _, ?_⟩, by simp, ?_⟩
    · intro t ht t' ht' e
      subst e
      obtain ⟨j, x, rfl, e1, e2⟩ := mem_groupTags.1 ht'
      exact ((q3 j x).1 ht).2 e2
    · intro t ht t' ht' e
      rw [List.mem_singleton] at ht'
      subst e ht'
      rcases List.mem_append.1 ht with ht | ht
      · exact q4 ht
      · obtain ⟨j, x, e, -⟩ := mem_groupTags.1 ht
        cases e
  · intro k
    simp only [List.mem_append, q2, mem_groupTags, List.mem_singleton, h2]
    simp
  · intro j x
    simp only [List.mem_append, q3, mem_groupTags, List.mem_singleton, reduceCtorEq, or_false]
    constructor
    · rintro (⟨h', -⟩ | ⟨j', x', e, h', -⟩)
      · exact h'
      · cases e; exact h'
    · intro h'
      by_cases hx : x.assoc = .group
      · exact .inr ⟨j, x, rfl, h', hx⟩
      · exact .inl ⟨h', hx⟩
  · have t1 : Q.map (PTag.pair lhs 0 Ls) = Q.map (PTag.pair lhs (loosestLevel calls) Ls) := by
      refine List.map_congr_left fun t ht => ?_
      cases t with
      | unit k => rfl
      | alt j x => simp only [PTag.pair]; rw [hng x ((q3 j x).1 ht).2]
      | final => exact absurd ht q4
    have t2 : (b.group.map fun r => (r.lhs, r.rhs.map fun s => if s = b.lhs then b.current else s)) =
        (groupTags (alternatives 0 .left calls)).map (PTag.pair lhs (loosestLevel calls) Ls) := by
      have e : (b.group.map fun r => (r.lhs, r.rhs.map fun s => if s = b.lhs then b.current else s)) =
          (b.group.map fun r => (r.lhs, r.rhs)).map fun p =>
            (p.1, p.2.map fun s => if s = b.lhs then b.current else s) := by
        rw [List.map_map]; rfl
      rw [e, h.hgroup, map_groupTags, List.map_map]
      refine List.map_congr_left fun x hx => ?_
      simp only [Function.comp]
      rw [hg x (by simpa using (List.mem_filter.1 hx).2)]
    have t3 : PTag.final.pair lhs (loosestLevel calls) Ls =
        CfgRule.pair ⟨b.lhs, [b.current], History.ofRoot .noOp⟩ := by
      simp only [PTag.pair, CfgRule.pair]
      rw [h.hlhs, hcur]
    simp only [List.map_append, List.map_cons, List.map_nil, ← List.append_assoc]
    rw [← t1, ← t2, t3]
    exact f8.congr fun x => by simp only [h2]

/-- The language of the built grammar over the old terminals. -/
theorem precedencedRule_spec {g : Cfg} (hwf : g.WF) (hlim : g.LimitOk) {lhs : Sym}
    (hlhs : lhs < g.numSyms) (calls : List PrecCall)
    (hc : ∀ x ∈ alternatives 0 .left calls, ∀ s ∈ x.rhs, s < g.numSyms) :
    ∃ g', g.precedencedRule lhs calls = .ok g' ∧ g'.WF ∧ g'.roots = g.roots ∧
      g.rules <+: g'.rules ∧
      (∀ a, g'.Term a ↔ (g.Term a ∧ a ≠ lhs) ∨
        (a = g.numSyms ∧ ∀ x ∈ alternatives 0 .left calls, x.level ≠ 0)) ∧
      ∀ A, A < g.numSyms → ∀ w,
        (InLang g'.prod (fun a => g.Term a ∧ a ≠ lhs) A w ↔
          Gen g.prod (fun a => g.Term a ∧ a ≠ lhs) lhs (loosestLevel calls) codeStrict
            (alternatives 0 .left calls) [.any A] w) := by
  obtain ⟨g', Ls, h1, h2, h3, h4, h5, -, h7, -, h9, h0, -⟩ := precedencedRule_split hwf hlim hlhs calls hc
  have ht : ∀ a, g'.Term a ↔ (g.Term a ∧ a ≠ lhs) ∨
      (a = g.numSyms ∧ ∀ x ∈ alternatives 0 .left calls, x.level ≠ 0) := by
    intro a
    rw [h5.term]
    constructor
    · rintro ⟨ha | ⟨i, hi, rfl⟩, hp⟩
      · refine .inl ⟨⟨ha, fun r hr e => hp r.rhs (.inl ⟨r, hr, e, rfl⟩)⟩, fun e => ?_⟩
        exact hp _ (.inr (.inr (.inr ⟨e, rfl⟩)))
      · cases i with
        | zero =>
          refine .inr ⟨h0, fun x hx e => hp _ (.inr (.inr (.inl ⟨x, hx, by rw [e], rfl⟩)))⟩
        | succ i => exact absurd (.inr (.inl ⟨i, by omega, rfl, rfl⟩)) (hp [Ls i])
    · rintro (⟨⟨ha, hr⟩, hne⟩ | ⟨rfl, hx⟩)
      · refine ⟨.inl ha, ?_⟩
        rintro α (⟨r, hr', e, -⟩ | ⟨i, hi, e, -⟩ | ⟨x, hx, e, -⟩ | ⟨e, -⟩)
        · exact hr r hr' e
        · have := h2 (i + 1) (by omega)
          omega
        · have := h2 _ (h4 x hx)
          omega
        · exact hne e
      · refine ⟨.inr ⟨0, by omega, h0.symm⟩, ?_⟩
        rintro α (⟨r, hr', e, -⟩ | ⟨i, hi, e, -⟩ | ⟨x, hx', e, -⟩ | ⟨e, -⟩)
        · have : r.lhs < g.numSyms := (hwf r hr').1
          omega
        · have := h3 0 (i + 1) (by omega) (by omega) (h0.trans e)
          omega
        · exact hx x hx' (h3 _ _ (h4 x hx') (by omega) (e.symm.trans h0.symm))
        · omega
  refine ⟨g', h1, h5.wf, h7, h9, ht, fun A hA w => ?_⟩
  have hd : (∀ a ∈ w, g.Term a ∧ a ≠ lhs) → (Derives g'.prod [A] w ↔ Derives
      (precProd g.prod lhs (loosestLevel calls) Ls (alternatives 0 .left calls)) [A] w) :=
    fun hw => h5.derives (.inl hA) fun x hx => .inl (hw x hx).1.1
  constructor
  · rintro ⟨hd', hw⟩
    refine Gen.ofInLang (N := g.numSyms) (Ls := Ls) h4 ?_ hlhs (fun a ha => ha.1.1) hc h2 h3 hA
      ⟨(hd hw).1 hd', hw⟩
    rintro A α ⟨r, hr, rfl, rfl⟩
    exact hwf r hr
  · intro hg
    have hw := hg.terminal
    refine ⟨(hd hw).2 (derives_iff_der.2 ?_), hw⟩
    exact hg.toDer h4 (by simp)

end Verif
