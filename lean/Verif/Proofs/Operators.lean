import Verif.Spec.Operators
import Verif.Proofs.PrecTrees

/-! # Operator tables are unambiguous -/

namespace Verif

/-! ## Depth of brackets -/

/-- How much a token changes the depth. -/
def Role.depth : Role → Int
  | .opening => 1
  | .closing => -1
  | _ => 0

/-- Depth after a string. -/
def depth (role : Sym → Role) (w : List Sym) : Int := (w.map fun s => (role s).depth).sum

theorem depth_append (role : Sym → Role) (u v : List Sym) :
    depth role (u ++ v) = depth role u + depth role v := by
  simp [depth]

theorem depth_cons (role : Sym → Role) (s : Sym) (v : List Sym) :
    depth role (s :: v) = (role s).depth + depth role v := by
  simp [depth]

theorem depth_nil (role : Sym → Role) : depth role [] = 0 := rfl

/-- Brackets match. -/
def Balanced (role : Sym → Role) (w : List Sym) : Prop :=
  depth role w = 0 ∧ ∀ z y, w = z ++ y → 0 ≤ depth role z

/-- Brackets match, and the tokens outside of brackets are atoms, and operators of levels below
`n`. -/
def Outer (role : Sym → Role) (n : Nat) (w : List Sym) : Prop :=
  Balanced role w ∧ ∀ z c y, w = z ++ c :: y → depth role z = 0 →
    role c = .atom ∨ role c = .opening ∨ ∃ k < n, role c = .operator k

section
variable {role : Sym → Role}

theorem Outer.mono {n n' : Nat} {w : List Sym} (h : Outer role n w) (hn : n ≤ n') :
    Outer role n' w := by
  refine ⟨h.1, fun z c y e hz => ?_⟩
  rcases h.2 z c y e hz with h' | h' | ⟨k, hk, h'⟩
  · exact .inl h'
  · exact .inr (.inl h')
  · exact .inr (.inr ⟨k, by omega, h'⟩)

theorem Balanced.nil : Balanced role [] := by
  refine ⟨rfl, fun z y e => ?_⟩
  obtain ⟨rfl, -⟩ := List.nil_eq_append_iff.1 e
  simp [depth]

theorem Outer.nil {n : Nat} : Outer role n [] := ⟨.nil, fun z c y e => by simp at e⟩

theorem Balanced.append {u v : List Sym} (hu : Balanced role u) (hv : Balanced role v) :
    Balanced role (u ++ v) := by
  refine ⟨by rw [depth_append, hu.1, hv.1]; rfl, fun z y e => ?_⟩
  rcases List.append_eq_append_iff.1 e with ⟨a, rfl, e'⟩ | ⟨a, e', rfl⟩
  · rw [depth_append, hu.1]
    have := hv.2 a y e'
    omega
  · exact hu.2 z a e'

theorem Balanced.single {t : Sym} (h : (role t).depth = 0) : Balanced role [t] := by
  refine ⟨by simp [depth, h], fun z y e => ?_⟩
  cases z with
  | nil => simp [depth]
  | cons s z =>
    simp only [List.cons_append, List.cons.injEq] at e
    obtain ⟨rfl, e⟩ := e
    obtain ⟨rfl, rfl⟩ := List.nil_eq_append_iff.1 e
    simp [depth, h]

/-- An operator between two operands. -/
theorem Outer.op {n : Nat} {x y : List Sym} {op : Sym} (hx : Outer role (n + 1) x)
    (hy : Outer role (n + 1) y) (ho : role op = .operator n) : Outer role (n + 1) (x ++ op :: y) := by
  have hd : (role op).depth = 0 := by rw [ho]; rfl
  refine ⟨hx.1.append ((Balanced.single hd).append hy.1), fun z c r e hz => ?_⟩
  rcases List.append_eq_append_iff.1 e with ⟨a, rfl, e'⟩ | ⟨a, rfl, e'⟩
  · rw [depth_append, hx.1.1] at hz
    cases a with
    | nil =>
      simp only [List.nil_append, List.cons.injEq] at e'
      obtain ⟨rfl, -⟩ := e'
      exact .inr (.inr ⟨n, by omega, ho⟩)
    | cons s a =>
      simp only [List.cons_append, List.cons.injEq] at e'
      obtain ⟨rfl, e'⟩ := e'
      rw [depth_cons, hd] at hz
      exact hy.2 a c r e' (by omega)
  · cases a with
    | nil =>
      simp only [List.nil_append, List.cons.injEq] at e'
      obtain ⟨rfl, -⟩ := e'
      exact .inr (.inr ⟨n, by omega, ho⟩)
    | cons s a =>
      simp only [List.cons_append, List.cons.injEq] at e'
      obtain ⟨rfl, -⟩ := e'
      exact hx.2 z _ a rfl hz

/-- Something in brackets. -/
theorem Outer.bracket {o : Sym} {w : List Sym} (ho : role o = .opening)
    (h1 : depth role w = -1) (h2 : ∀ z c y, w = z ++ c :: y → 0 ≤ depth role z) {n : Nat} :
    Outer role n (o :: w) := by
  have hd : (role o).depth = 1 := by rw [ho]; rfl
  refine ⟨⟨by rw [depth_cons, hd, h1]; rfl, fun z y e => ?_⟩, fun z c y e hz => ?_⟩
  · cases z with
    | nil => simp [depth]
    | cons s z =>
      simp only [List.cons_append, List.cons.injEq] at e
      obtain ⟨rfl, rfl⟩ := e
      rw [depth_cons, hd]
      cases y with
      | nil => rw [List.append_nil] at h1; omega
      | cons c y => have := h2 z c y rfl; omega
  · cases z with
    | nil =>
      simp only [List.nil_append, List.cons.injEq] at e
      obtain ⟨rfl, -⟩ := e
      exact .inr (.inl ho)
    | cons s z =>
      simp only [List.cons_append, List.cons.injEq] at e
      obtain ⟨rfl, e⟩ := e
      have := h2 z c y e
      rw [depth_cons, hd] at hz
      omega

/-- The last operator of a level is at one place. -/
theorem Outer.split_last {n : Nat} {x y x' y' : List Sym} {op op' : Sym} (hx : depth role x = 0)
    (hx' : depth role x' = 0) (ho : role op = .operator n) (ho' : role op' = .operator n)
    (hy : Outer role n y) (hy' : Outer role n y') (e : x ++ op :: y = x' ++ op' :: y') :
    x = x' ∧ op = op' ∧ y = y' := by
  have key : ∀ {a y r : List Sym} {o o' : Sym}, depth role a = 0 → Outer role n y →
      role o = .operator n → role o' = .operator n → o :: y = a ++ o' :: r → a = [] := by
    intro a y r o o' ha hy ho ho' e
    cases a with
    | nil => rfl
    | cons s a =>
      simp only [List.cons_append, List.cons.injEq] at e
      obtain ⟨rfl, e⟩ := e
      rw [depth_cons, ho] at ha
      have ha : depth role a = 0 := by simpa [Role.depth] using ha
      rcases hy.2 a o' r e ha with h | h | ⟨k, hk, h⟩
      · rw [ho'] at h; cases h
      · rw [ho'] at h; cases h
      · rw [ho'] at h; cases h; omega
  rcases List.append_eq_append_iff.1 e with ⟨a, rfl, e'⟩ | ⟨a, rfl, e'⟩
  · rw [depth_append, hx] at hx'
    obtain rfl := key (by omega) hy ho ho' e'
    simp only [List.nil_append, List.cons.injEq] at e'
    exact ⟨by simp, e'⟩
  · rw [depth_append, hx'] at hx
    obtain rfl := key (by omega) hy' ho' ho e'
    simp only [List.nil_append, List.cons.injEq] at e'
    exact ⟨by simp, e'.1.symm, e'.2.symm⟩

/-- The first operator of a level is at one place. -/
theorem Outer.split_first {n : Nat} {x y x' y' : List Sym} {op op' : Sym} (hx : Outer role n x)
    (hx' : Outer role n x') (ho : role op = .operator n) (ho' : role op' = .operator n)
    (e : x ++ op :: y = x' ++ op' :: y') : x = x' ∧ op = op' ∧ y = y' := by
  have key : ∀ {a x y r : List Sym} {o o' : Sym}, Outer role n (x ++ a) → depth role x = 0 →
      role o = .operator n → o :: y = a ++ o' :: r → a = [] := by
    intro a x y r o o' hx hd ho e
    cases a with
    | nil => rfl
    | cons s a =>
      simp only [List.cons_append, List.cons.injEq] at e
      obtain ⟨rfl, e⟩ := e
      rcases hx.2 x o a rfl hd with h | h | ⟨k, hk, h⟩
      · rw [ho] at h; cases h
      · rw [ho] at h; cases h
      · rw [ho] at h; cases h; omega
  rcases List.append_eq_append_iff.1 e with ⟨a, rfl, e'⟩ | ⟨a, rfl, e'⟩
  · obtain rfl := key hx' hx.1.1 ho e'
    simp only [List.nil_append, List.cons.injEq] at e'
    exact ⟨by simp, e'⟩
  · obtain rfl := key hx hx'.1.1 ho' e'
    simp only [List.nil_append, List.cons.injEq] at e'
    exact ⟨by simp, e'.1.symm, e'.2.symm⟩

end

/-! ## The token of an alternative -/

/-- The token of an alternative is its first symbol other than the left side. -/
theorem OpAlt.key {lhs : Sym} {role : Sym → Role} {right : Nat → Prop} {a : Alternative} {t : Sym}
    (h : OpAlt lhs role right a t) : a.rhs.find? (· ≠ lhs) = some t := by
  cases h <;> simp_all [List.find?]

theorem distinct_of_keys {lhs : Sym} {role : Sym → Role} {right : Nat → Prop}
    {alts : List Alternative} (h : (alts.map fun a => a.rhs.find? (· ≠ lhs)).Nodup) :
    ∀ (i j : Nat) a b t, alts[i]? = some a → alts[j]? = some b → OpAlt lhs role right a t →
      OpAlt lhs role right b t → i = j := by
  intro i j a b t hi hj ha hb
  have h1 : i < alts.length := (List.getElem?_eq_some_iff.1 hi).1
  refine (List.getElem?_inj (by simpa using h1) h).1 ?_
  simp only [List.getElem?_map, hi, hj, Option.map_some, ha.key, hb.key]

/-! ## Trees -/

/-- The setting. -/
structure OpRules (rules : List (Sym × List Sym)) (T : Sym → Prop) (lhs : Sym) (role : Sym → Role)
    (right : Nat → Prop) (alts : List Alternative) : Prop where
  table : OperatorTable lhs role right alts
  hT : ∀ r ∈ rules, ¬ T r.1
  hl : ¬ T lhs
  hno : ∀ r ∈ rules, r.1 ≠ lhs
  tokens : ∀ a ∈ alts, ∀ s ∈ a.rhs, s ≠ lhs → T s

namespace OpRules

variable {rules : List (Sym × List Sym)} {T : Sym → Prop} {lhs : Sym} {role : Sym → Role}
    {right : Nat → Prop} {alts : List Alternative} {m : Nat}

/-- Terminals are leaves. -/
theorem token (h : OpRules rules T lhs role right alts) {t : Sym} (ht : T t) {l : List Occ}
    {f : Forest} {w : List Sym} (hf : PrecForest rules T lhs m codeStrict alts (.any t :: l) f w) :
    ∃ f' w', f = .leaf t f' ∧ w = t :: w' ∧ PrecForest rules T lhs m codeStrict alts l f' w' := by
  cases hf with
  | leaf _ hf => exact ⟨_, _, rfl, rfl, hf⟩
  | rule hi => exact absurd ht (h.hT _ (List.mem_of_getElem? hi))
  | alt => exact absurd ht h.hl

/-- Operands of an operator of level `n`. -/
def Operands (right : Nat → Prop) (n : Nat) (l r : List Occ) : Prop :=
  (¬ right n ∧ l = [.below (n + 1)] ∧ (r = [] ∨ r = [.below n])) ∨
  (right n ∧ (l = [] ∨ l = [.below n]) ∧ r = [.below (n + 1)])

/-- The marks of an alternative for an operator. -/
theorem opMarks (h : OpRules rules T lhs role right alts) {a : Alternative} (ha : a ∈ alts)
    (m : Nat) : ∃ t, OpAlt lhs role right a t ∧ T t ∧
      ((a.level = 0 ∧ role t = .atom ∧ a.marks lhs m codeStrict = [.any t]) ∨
       (a.level = 0 ∧ role t = .opening ∧ ∃ s, Enclosed lhs role s ∧ (∀ x ∈ s, x ≠ lhs → T x) ∧
          a.marks lhs m codeStrict = .any t :: s.map fun x =>
            if x = lhs then .below (m + 1) else .any x) ∨
       (role t = .operator a.level ∧ ∃ l r, Operands right a.level l r ∧
          a.marks lhs m codeStrict = l ++ .any t :: r)) := by
  obtain ⟨t, ht⟩ := h.table.alt a ha
  have htok := h.tokens a ha
  refine ⟨t, ht, ?_⟩
  cases ht with
  | @atom as t h1 h2 =>
    refine ⟨htok _ (by simp) h1, .inl ⟨rfl, h2, ?_⟩⟩
    simp [Alternative.marks, h1]
  | @bracket o l h1 h2 h3 =>
    refine ⟨htok _ (by simp) h1, .inr (.inl ⟨rfl, h2, l, h3, fun x hx hne => htok x (by simp [hx]) hne, ?_⟩)⟩
    apply List.ext_getElem?
    intro j
    cases j with
    | zero => simp [Alternative.marks, h1]
    | succ j => simp [Alternative.marks]
  | @infixLeft n op h1 h2 h3 h4 =>
    refine ⟨htok _ (by simp) h2, .inr (.inr ⟨h3, [.below (n + 1)], [.below n], .inl ⟨h4, rfl, .inr rfl⟩, ?_⟩)⟩
    simp [Alternative.marks, h2, codeStrict]
    omega
  | @postfixOp n as op h1 h2 h3 h4 h5 =>
    refine ⟨htok _ (by simp) h2, .inr (.inr ⟨h3, [.below (n + 1)], [], .inl ⟨h4, rfl, .inl rfl⟩, ?_⟩)⟩
    cases as
    · simp [Alternative.marks, h2]
    · simp [Alternative.marks, h2, Ne.symm h2]
    · exact absurd rfl h5
  | @infixRight n op h1 h2 h3 h4 =>
    refine ⟨htok _ (by simp) h2, .inr (.inr ⟨h3, [.below n], [.below (n + 1)], .inr ⟨h4, .inr rfl, rfl⟩, ?_⟩)⟩
    simp [Alternative.marks, h2, codeStrict]
    omega
  | @prefixOp n as op h1 h2 h3 h4 h5 =>
    refine ⟨htok _ (by simp) h2, .inr (.inr ⟨h3, [], [.below (n + 1)], .inr ⟨h4, .inl rfl, rfl⟩, ?_⟩)⟩
    cases as
    · simp [Alternative.marks, h2, Ne.symm h2]
    · simp [Alternative.marks, h2]
    · exact absurd rfl h5

/-- The mark of a symbol within brackets. -/
def encMark (lhs : Sym) (m : Nat) (x : Sym) : Occ := if x = lhs then .below (m + 1) else .any x

/-- The shape of a tree. -/
inductive Shape (rules : List (Sym × List Sym)) (T : Sym → Prop) (lhs : Sym) (role : Sym → Role)
    (right : Nat → Prop) (alts : List Alternative) (m : Nat) : Nat → Forest → List Sym → Prop
  | atom {j : Nat} {a : Alternative} {t : Sym} : alts[j]? = some a → OpAlt lhs role right a t →
      role t = .atom →
      Shape rules T lhs role right alts m 0 (.node (rules.length + j) (.leaf t .nil) .nil) [t]
  | bracket {j : Nat} {a : Alternative} {t : Sym} {s : List Sym} {c : Forest} {u : List Sym} :
      alts[j]? = some a → OpAlt lhs role right a t → role t = .opening → Enclosed lhs role s →
      (∀ x ∈ s, x ≠ lhs → T x) → a.marks lhs m codeStrict = .any t :: s.map (encMark lhs m) →
      PrecForest rules T lhs m codeStrict alts (s.map (encMark lhs m)) c u →
      Shape rules T lhs role right alts m 0 (.node (rules.length + j) (.leaf t c) .nil) (t :: u)
  | op {j : Nat} {a : Alternative} {t : Sym} {l r : List Occ} {fx fy : Forest} {x y : List Sym} :
      alts[j]? = some a → OpAlt lhs role right a t → role t = .operator a.level →
      Operands right a.level l r → a.marks lhs m codeStrict = l ++ .any t :: r →
      PrecForest rules T lhs m codeStrict alts l fx x →
      PrecForest rules T lhs m codeStrict alts r fy y →
      Shape rules T lhs role right alts m a.level
        (.node (rules.length + j) (fx.append (.leaf t fy)) .nil) (x ++ t :: y)

theorem shape (h : OpRules rules T lhs role right alts) {b : Nat} {f : Forest} {w : List Sym}
    (hf : PrecForest rules T lhs m codeStrict alts [.below b] f w) :
    ∃ n < b, Shape rules T lhs role right alts m n f w := by
  obtain ⟨j, a, c, rfl, h1, h2, h3⟩ := hf.belowNode
  obtain ⟨t, ht, hTt, ⟨e1, e2, e3⟩ | ⟨e1, e2, s, e3, e4, e5⟩ | ⟨e1, l, r, e2, e3⟩⟩ :=
    h.opMarks (List.mem_of_getElem? h1) m
  · rw [e3] at h3
    obtain ⟨f', w', rfl, rfl, h4⟩ := h.token hTt h3
    cases h4
    exact ⟨0, by omega, .atom h1 ht e2⟩
  · have h3' := h3
    rw [e5] at h3
    obtain ⟨f', w', rfl, rfl, h4⟩ := h.token hTt h3
    exact ⟨0, by omega, .bracket h1 ht e2 e3 e4 e5 h4⟩
  · have h3' := h3
    rw [e3] at h3
    obtain ⟨f₁, f₂, u, v, rfl, rfl, h4, h5⟩ := h3.split
    obtain ⟨f', w', rfl, rfl, h6⟩ := h.token hTt h5
    exact ⟨a.level, h2, .op h1 ht e1 e2 e3 h4 h6⟩

/-- Operands are shorter expressions or nothing. -/
theorem operand {n : Nat} {l : List Occ} {f : Forest} {w : List Sym} {k : Nat}
    (hl : l = [] ∨ l = [.below k]) (hk : k ≤ n)
    (hf : PrecForest rules T lhs m codeStrict alts l f w)
    (ih : ∀ b f, PrecForest rules T lhs m codeStrict alts [.below b] f w → Outer role b w) :
    Outer role n w := by
  rcases hl with rfl | rfl
  · cases hf
    exact .nil
  · exact (ih _ _ hf).mono hk

theorem enclosed_outer (h : OpRules rules T lhs role right alts) {s : List Sym}
    (hs : Enclosed lhs role s) (hT : ∀ x ∈ s, x ≠ lhs → T x) {c : Forest} {u : List Sym} (n : Nat)
    (hu : u.length ≤ n) (hf : PrecForest rules T lhs m codeStrict alts (s.map (encMark lhs m)) c u)
    (ih : ∀ b f w, w.length ≤ n → PrecForest rules T lhs m codeStrict alts [.below b] f w →
      Outer role b w) :
    depth role u = -1 ∧ ∀ z c y, u = z ++ c :: y → 0 ≤ depth role z := by
  induction hs generalizing c u with
  | @closing t h1 h2 =>
    simp only [List.map_cons, List.map_nil, encMark, if_neg h1] at hf
    obtain ⟨f', w', rfl, rfl, h3⟩ := h.token (hT t (by simp) h1) hf
    cases h3
    refine ⟨by simp [depth, h2, Role.depth], fun z c y e => ?_⟩
    cases z with
    | nil => simp [depth]
    | cons => simp at e
  | @inner t l h1 h2 _ ihl =>
    simp only [List.map_cons, encMark, if_neg h1] at hf
    obtain ⟨f', w', rfl, rfl, h3⟩ := h.token (hT t (by simp) h1) hf
    obtain ⟨h4, h5⟩ := ihl (fun x hx => hT x (by simp [hx])) (by simp at hu; omega) h3
    have hd : (role t).depth = 0 := by rw [h2]; rfl
    refine ⟨by rw [depth_cons, hd, h4]; rfl, fun z c y e => ?_⟩
    cases z with
    | nil => simp [depth]
    | cons s z =>
      simp only [List.cons_append, List.cons.injEq] at e
      obtain ⟨rfl, e⟩ := e
      rw [depth_cons, hd]
      have := h5 z c y e
      omega
  | @expr l h1 _ ihl =>
    rw [List.map_cons] at hf
    obtain ⟨f₁, f₂, u₁, v, rfl, rfl, h2, h3⟩ := PrecForest.split (l := [encMark lhs m lhs]) hf
    simp only [encMark, if_pos] at h2
    simp only [List.length_append] at hu
    have ho := ih _ _ _ (by omega) h2
    obtain ⟨h4, h5⟩ := ihl (fun x hx => hT x (by simp [hx])) (by omega) h3
    refine ⟨by rw [depth_append, ho.1.1, h4]; rfl, fun z c y e => ?_⟩
    rcases List.append_eq_append_iff.1 e with ⟨a, rfl, e'⟩ | ⟨a, rfl, -⟩
    · rw [depth_append, ho.1.1]
      have := h5 a c y e'
      omega
    · exact ho.1.2 z a rfl

/-- Expressions have matching brackets, and only operators that are tight enough outside of them. -/
theorem outer (h : OpRules rules T lhs role right alts) (n : Nat) : ∀ {b : Nat} {f : Forest}
    {w : List Sym}, w.length ≤ n → PrecForest rules T lhs m codeStrict alts [.below b] f w →
    Outer role b w := by
  induction n with
  | zero =>
    intro b f w hw hf
    obtain ⟨k, -, hs⟩ := h.shape hf
    cases hs <;> simp at hw
  | succ n ih =>
    intro b f w hw hf
    obtain ⟨k, hk, hs⟩ := h.shape hf
    cases hs with
    | @atom j a t h1 h2 h3 =>
      refine ⟨Balanced.single (by rw [h3]; rfl), fun z c y e _ => ?_⟩
      cases z with
      | nil =>
        simp only [List.nil_append, List.cons.injEq] at e
        obtain ⟨rfl, -⟩ := e
        exact .inl h3
      | cons => simp at e
    | @bracket j a t s c u h1 h2 h3 h4 h5 h6 h7 =>
      simp only [List.length_cons] at hw
      obtain ⟨h8, h9⟩ := h.enclosed_outer h4 h5 n (by omega) h7 fun b f w hw hf => ih hw hf
      exact .bracket h3 h8 h9
    | @op j a t l r fx fy x y h1 h2 h3 h4 h5 h6 h7 =>
      simp only [List.length_append, List.length_cons] at hw
      refine Outer.mono (n := a.level + 1) ?_ hk
      have ihx : ∀ b f, PrecForest rules T lhs m codeStrict alts [.below b] f x → Outer role b x :=
        fun b f hf => ih (by omega) hf
      have ihy : ∀ b f, PrecForest rules T lhs m codeStrict alts [.below b] f y → Outer role b y :=
        fun b f hf => ih (by omega) hf
      rcases h4 with ⟨-, e1, e2⟩ | ⟨-, e1, e2⟩
      · exact Outer.op (operand (.inr e1) (Nat.le_refl _) h6 ihx)
          (operand e2 (by omega) h7 ihy) h3
      · exact Outer.op (operand e1 (by omega) h6 ihx)
          (operand (.inr e2) (Nat.le_refl _) h7 ihy) h3

theorem enclosed_unique (h : OpRules rules T lhs role right alts) {s : List Sym}
    (hs : Enclosed lhs role s) (hT : ∀ x ∈ s, x ≠ lhs → T x) {c c' : Forest} {u u' v v' : List Sym}
    (n : Nat) (hu : u.length ≤ n)
    (hf : PrecForest rules T lhs m codeStrict alts (s.map (encMark lhs m)) c u)
    (hf' : PrecForest rules T lhs m codeStrict alts (s.map (encMark lhs m)) c' u')
    (e : u ++ v = u' ++ v')
    (ih : ∀ b f f' w, w.length ≤ n → PrecForest rules T lhs m codeStrict alts [.below b] f w →
      PrecForest rules T lhs m codeStrict alts [.below b] f' w → f = f') : c = c' := by
  induction hs generalizing c c' u u' with
  | @closing t h1 h2 =>
    simp only [List.map_cons, List.map_nil, encMark, if_neg h1] at hf hf'
    obtain ⟨f, w, rfl, rfl, h3⟩ := h.token (hT t (by simp) h1) hf
    obtain ⟨f', w', rfl, rfl, h3'⟩ := h.token (hT t (by simp) h1) hf'
    cases h3
    cases h3'
    rfl
  | @inner t l h1 h2 _ ihl =>
    simp only [List.map_cons, encMark, if_neg h1] at hf hf'
    obtain ⟨f, w, rfl, rfl, h3⟩ := h.token (hT t (by simp) h1) hf
    obtain ⟨f', w', rfl, rfl, h3'⟩ := h.token (hT t (by simp) h1) hf'
    simp only [List.cons_append, List.cons.injEq, true_and] at e
    rw [ihl (fun x hx => hT x (by simp [hx])) (by simp at hu; omega) h3 h3' e]
  | @expr l h1 hl ihl =>
    rw [List.map_cons] at hf hf'
    obtain ⟨f₁, f₂, u₁, u₂, rfl, rfl, h2, h3⟩ := PrecForest.split (l := [encMark lhs m lhs]) hf
    obtain ⟨f₁', f₂', u₁', u₂', rfl, rfl, h2', h3'⟩ := PrecForest.split (l := [encMark lhs m lhs]) hf'
    simp only [encMark, if_pos] at h2 h2'
    simp only [List.length_append] at hu
    have hT' : ∀ x ∈ l, x ≠ lhs → T x := fun x hx => hT x (by simp [hx])
    -- the token after the expression
    have hnext : ∃ t, (role t = .inner ∨ role t = .closing) ∧ ∀ c u,
        PrecForest rules T lhs m codeStrict alts (l.map (encMark lhs m)) c u → ∃ r, u = t :: r := by
      cases hl with
      | @closing t h4 h5 =>
        refine ⟨t, .inr h5, fun c u hf => ?_⟩
        simp only [List.map_cons, encMark, if_neg h4] at hf
        obtain ⟨-, r, -, e, -⟩ := h.token (hT' t (by simp) h4) hf
        exact ⟨r, e⟩
      | @inner t _ h4 h5 _ =>
        refine ⟨t, .inl h5, fun c u hf => ?_⟩
        simp only [List.map_cons, encMark, if_neg h4] at hf
        obtain ⟨-, r, -, e, -⟩ := h.token (hT' t (by simp) h4) hf
        exact ⟨r, e⟩
      | expr => simp at h1
    obtain ⟨t, ht, hnext⟩ := hnext
    obtain ⟨r, rfl⟩ := hnext _ _ h3
    obtain ⟨r', rfl⟩ := hnext _ _ h3'
    have ho := h.outer _ (Nat.le_refl _) h2
    have ho' := h.outer _ (Nat.le_refl _) h2'
    have hbad : ∀ {a y x r : List Sym}, Outer role (m + 1) (x ++ a) → depth role x = 0 →
        t :: y = a ++ t :: r → a = [] := by
      intro a y x r hx hd e
      cases a with
      | nil => rfl
      | cons s a =>
        simp only [List.cons_append, List.cons.injEq] at e
        obtain ⟨rfl, -⟩ := e
        rcases hx.2 x t a rfl hd with h' | h' | ⟨k, -, h'⟩ <;>
          rcases ht with ht | ht <;> rw [ht] at h' <;> cases h'
    have heq : u₁ = u₁' ∧ t :: r ++ v = t :: r' ++ v' := by
      simp only [List.append_assoc] at e
      rcases List.append_eq_append_iff.1 e with ⟨a, rfl, e'⟩ | ⟨a, rfl, e'⟩
      · obtain rfl := hbad ho' ho.1.1 e'
        exact ⟨by simp, by simpa using e'⟩
      · obtain rfl := hbad ho ho'.1.1 e'
        exact ⟨by simp, by simpa using e'.symm⟩
    obtain ⟨rfl, e2⟩ := heq
    rw [ih _ f₁ f₁' u₁ (by omega) h2 h2', ihl hT' (by omega) h3 h3' e2]

theorem operand_unique {l : List Occ} {f f' : Forest} {w : List Sym} {k : Nat}
    (hl : l = [] ∨ l = [.below k]) (hf : PrecForest rules T lhs m codeStrict alts l f w)
    (hf' : PrecForest rules T lhs m codeStrict alts l f' w)
    (ih : ∀ b f f', PrecForest rules T lhs m codeStrict alts [.below b] f w →
      PrecForest rules T lhs m codeStrict alts [.below b] f' w → f = f') : f = f' := by
  rcases hl with rfl | rfl
  · cases hf
    cases hf'
    rfl
  · exact ih _ _ _ hf hf'

/-- An expression at the tightest level has no operators outside of brackets. -/
theorem shape_outer (h : OpRules rules T lhs role right alts) {n : Nat} {f : Forest} {w : List Sym}
    (hs : Shape rules T lhs role right alts m n f w) : Outer role (n + 1) w ∧
      ∀ k, n = 0 → ∀ z c y, w = z ++ c :: y → depth role z = 0 → role c ≠ .operator k := by
  cases hs with
  | @atom j a t h1 h2 h3 =>
    refine ⟨⟨Balanced.single (by rw [h3]; rfl), fun z c y e _ => ?_⟩, fun k _ z c y e _ => ?_⟩
    · cases z with
      | nil =>
        simp only [List.nil_append, List.cons.injEq] at e
        obtain ⟨rfl, -⟩ := e
        exact .inl h3
      | cons => simp at e
    · cases z with
      | nil =>
        simp only [List.nil_append, List.cons.injEq] at e
        obtain ⟨rfl, -⟩ := e
        rw [h3]
        exact (nomatch ·)
      | cons => simp at e
  | @bracket j a t s c u h1 h2 h3 h4 h5 h6 h7 =>
    obtain ⟨h8, h9⟩ := h.enclosed_outer h4 h5 u.length (Nat.le_refl _) h7
      fun b f w hw hf => h.outer _ (Nat.le_refl _) hf
    refine ⟨.bracket h3 h8 h9, fun k _ z c y e hz => ?_⟩
    rcases (Outer.bracket (n := 0) h3 h8 h9).2 z c y e hz with h' | h' | ⟨k', hk, -⟩
    · rw [h']; exact (nomatch ·)
    · rw [h']; exact (nomatch ·)
    · omega
  | @op j a t l r fx fy x y h1 h2 h3 h4 h5 h6 h7 =>
    have hx : ∀ b f, PrecForest rules T lhs m codeStrict alts [.below b] f x → Outer role b x :=
      fun b f hf => h.outer _ (Nat.le_refl _) hf
    have hy : ∀ b f, PrecForest rules T lhs m codeStrict alts [.below b] f y → Outer role b y :=
      fun b f hf => h.outer _ (Nat.le_refl _) hf
    have hpos : 1 ≤ a.level := by
      cases h2 with
      | atom _ h2 => rw [h2] at h3; cases h3
      | bracket _ h2 => rw [h2] at h3; cases h3
      | infixLeft h2 => exact h2
      | postfixOp h2 => exact h2
      | infixRight h2 => exact h2
      | prefixOp h2 => exact h2
    refine ⟨?_, fun k hk => by omega⟩
    rcases h4 with ⟨-, e1, e2⟩ | ⟨-, e1, e2⟩
    · exact Outer.op (operand (.inr e1) (Nat.le_refl _) h6 hx)
        (operand e2 (by omega) h7 hy) h3
    · exact Outer.op (operand e1 (by omega) h6 hx)
        (operand (.inr e2) (Nat.le_refl _) h7 hy) h3

/-- At most one tree. -/
theorem unique (h : OpRules rules T lhs role right alts) (n : Nat) : ∀ {b b' : Nat} {f f' : Forest}
    {w : List Sym}, w.length ≤ n → PrecForest rules T lhs m codeStrict alts [.below b] f w →
    PrecForest rules T lhs m codeStrict alts [.below b'] f' w → f = f' := by
  induction n with
  | zero =>
    intro b b' f f' w hw hf
    obtain ⟨k, -, hs⟩ := h.shape hf
    cases hs <;> simp at hw
  | succ n ih =>
    intro b b' f f' w hw hf hf'
    obtain ⟨k, -, hs⟩ := h.shape hf
    obtain ⟨k', -, hs'⟩ := h.shape hf'
    have ho := h.shape_outer hs
    have ho' := h.shape_outer hs'
    have hsame : ∀ {j j' : Nat} {a a' : Alternative} {t : Sym}, alts[j]? = some a →
        alts[j']? = some a' → OpAlt lhs role right a t → OpAlt lhs role right a' t →
        j = j' ∧ a = a' := by
      intro j j' a a' t h1 h2 h3 h4
      obtain rfl := h.table.distinct j j' a a' t h1 h2 h3 h4
      exact ⟨rfl, Option.some.inj (h1.symm.trans h2)⟩
    have hdx : ∀ {l : List Occ} {f x k}, (l = [] ∨ l = [.below k]) →
        PrecForest rules T lhs m codeStrict alts l f x → depth role x = 0 := by
      intro l f x k hl hf
      exact (operand (n := k) hl (Nat.le_refl _) hf fun b f hf => h.outer _ (Nat.le_refl _) hf).1.1
    have hlx : ∀ {n l r}, Operands right n l r → ∃ k, l = [] ∨ l = [.below k] := by
      rintro n l r (⟨-, e, -⟩ | ⟨-, e, -⟩)
      · exact ⟨_, .inr e⟩
      · exact ⟨_, e⟩
    have hrx : ∀ {n l r}, Operands right n l r → ∃ k, r = [] ∨ r = [.below k] := by
      rintro n l r (⟨-, -, e⟩ | ⟨-, -, e⟩)
      · exact ⟨_, e⟩
      · exact ⟨_, .inr e⟩
    cases hs with
    | @atom j a t h1 h2 h3 =>
      generalize hw' : [t] = w' at hs'
      cases hs' with
      | @atom j' a' t' h1' h2' h3' =>
        simp only [List.cons.injEq, and_true] at hw'
        subst hw'
        obtain ⟨rfl, -⟩ := hsame h1 h1' h2 h2'
        rfl
      | @bracket j' a' t' s' c' u' h1' h2' h3' =>
        simp only [List.cons.injEq] at hw'
        obtain ⟨rfl, -⟩ := hw'
        rw [h3] at h3'
        cases h3'
      | @op j' a' t' l' r' fx' fy' x' y' h1' h2' h3' h4' h5' h6' h7' =>
        obtain ⟨k, hk⟩ := hlx h4'
        exact absurd h3' (ho.2 _ rfl x' t' y' hw' (hdx hk h6'))
    | @bracket j a t s c u h1 h2 h3 h4 h5 h6 h7 =>
      generalize hw' : t :: u = w' at hs'
      cases hs' with
      | @atom j' a' t' h1' h2' h3' =>
        simp only [List.cons.injEq] at hw'
        obtain ⟨rfl, -⟩ := hw'
        rw [h3] at h3'
        cases h3'
      | @bracket j' a' t' s' c' u' h1' h2' h3' h4' h5' h6' h7' =>
        simp only [List.cons.injEq] at hw'
        obtain ⟨rfl, rfl⟩ := hw'
        obtain ⟨rfl, rfl⟩ := hsame h1 h1' h2 h2'
        have e := (List.cons.inj (h6.symm.trans h6')).2
        rw [← e] at h7'
        rw [h.enclosed_unique h4 h5 (v := []) (v' := []) n (by simp at hw; omega) h7 h7' rfl
          fun b f f' w hw => ih hw]
      | @op j' a' t' l' r' fx' fy' x' y' h1' h2' h3' h4' h5' h6' h7' =>
        obtain ⟨k, hk⟩ := hlx h4'
        exact absurd h3' (ho.2 _ rfl x' t' y' hw' (hdx hk h6'))
    | @op j a t l r fx fy x y h1 h2 h3 h4 h5 h6 h7 =>
      generalize hw' : x ++ t :: y = w' at hs' ho'
      obtain ⟨kl, hkl⟩ := hlx h4
      cases hs' with
      | atom => exact absurd h3 (ho'.2 _ rfl x t y hw'.symm (hdx hkl h6))
      | bracket => exact absurd h3 (ho'.2 _ rfl x t y hw'.symm (hdx hkl h6))
      | @op j' a' t' l' r' fx' fy' x' y' h1' h2' h3' h4' h5' h6' h7' =>
        obtain ⟨kl', hkl'⟩ := hlx h4'
        have hd := hdx hkl h6
        have hd' := hdx hkl' h6'
        -- the same level
        have hle : a.level ≤ a'.level := by
          rcases ho'.1.2 x t y hw'.symm hd with e | e | ⟨k, hk, e⟩
          · rw [h3] at e; cases e
          · rw [h3] at e; cases e
          · rw [h3] at e; cases e; omega
        have hle' : a'.level ≤ a.level := by
          rcases ho.1.2 x' t' y' hw' hd' with e | e | ⟨k, hk, e⟩
          · rw [h3'] at e; cases e
          · rw [h3'] at e; cases e
          · rw [h3'] at e; cases e; omega
        have hlev : a.level = a'.level := by omega
        have ho : ∀ {l : List Occ} {f x k}, (l = [] ∨ l = [.below k]) →
            PrecForest rules T lhs m codeStrict alts l f x → Outer role k x :=
          fun hl hf => operand hl (Nat.le_refl _) hf fun b f hf => h.outer _ (Nat.le_refl _) hf
        have hsplit : x = x' ∧ t = t' ∧ y = y' := by
          have h4'' := h4'
          rw [← hlev] at h4''
          rcases h4 with ⟨e0, e1, e2⟩ | ⟨e0, e1, e2⟩ <;>
            rcases h4'' with ⟨e0', e1', e2'⟩ | ⟨e0', e1', e2'⟩
          · exact Outer.split_last hd hd' h3 (by rw [h3', hlev]) (ho e2 h7) (ho e2' h7') hw'
          · exact absurd e0' e0
          · exact absurd e0 e0'
          · exact Outer.split_first (ho e1 h6) (ho e1' h6') h3 (by rw [h3', hlev]) hw'
        obtain ⟨rfl, rfl, rfl⟩ := hsplit
        obtain ⟨rfl, rfl⟩ := hsame h1 h1' h2 h2'
        simp only [List.length_append, List.length_cons] at hw
        have hlr : l = l' ∧ r = r' := by
          have e := h5.symm.trans h5'
          rcases h4 with ⟨e0, e1, e2⟩ | ⟨e0, e1, e2⟩ <;>
            rcases h4' with ⟨e0', e1', e2'⟩ | ⟨e0', e1', e2'⟩
          · subst e1 e1'
            simpa using e
          · exact absurd e0' e0
          · exact absurd e0 e0'
          · subst e2 e2'
            rcases e1 with rfl | rfl <;> rcases e1' with rfl | rfl <;> simp at e ⊢
        obtain ⟨rfl, rfl⟩ := hlr
        obtain ⟨kr, hkr⟩ := hrx h4
        rw [operand_unique hkl h6 h6' fun b f f' => ih (by omega),
          operand_unique hkr h7 h7' fun b f f' => ih (by omega)]

theorem unambiguous (h : OpRules rules T lhs role right alts) (w : List Sym) :
    Subsingleton {f : Forest // PrecForest rules T lhs m codeStrict alts [.any lhs] f w} := by
  have key : ∀ {f}, PrecForest rules T lhs m codeStrict alts [.any lhs] f w →
      ∃ b, PrecForest rules T lhs m codeStrict alts [.below b] f w := by
    intro f hf
    cases hf with
    | leaf ht => exact absurd ht h.hl
    | rule hi => exact absurd rfl (h.hno _ (List.mem_of_getElem? hi))
    | @alt j a c f u v l hi hc hf =>
      cases hf
      exact ⟨a.level + 1, .altBelow hi (by omega) hc .nil⟩
  constructor
  rintro ⟨f, hf⟩ ⟨f', hf'⟩
  obtain ⟨b, hf⟩ := key hf
  obtain ⟨b', hf'⟩ := key hf'
  exact Subtype.ext (h.unique w.length (Nat.le_refl _) hf hf')

end OpRules

end Verif
