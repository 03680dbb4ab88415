import Verif.Model.DistanceProfile
import Verif.Proofs.Distance
import Verif.Proofs.ValuesRelease

/-! # Distances in both build profiles: the debug functions, agreement, and outcomes -/

namespace Verif

/-! ## The debug profile -/

theorem updateSymIn_debug : Distances.updateSymIn .debug = Distances.updateSym := by
  funext d ml cur sym
  unfold Distances.updateSymIn Distances.updateSym addLen
  cases setMinAt d.after sym cur with
  | ok a =>
    simp only [Res.bind_ok]
    cases Res.index ml sym with
    | ok o =>
      simp only [Res.bind_ok]
      cases o with
      | none => rfl
      | some len =>
        simp only [Res.ofOption, Res.bind_ok]
        by_cases h : 2 ^ 32 ≤ cur + len
        · rw [if_pos h, if_pos h]; rfl
        · rw [if_neg h, if_neg h]; rfl
    | panic => rfl
    | diverge => rfl
  | panic => rfl
  | diverge => rfl

theorem walkIn_debug : Distances.walkIn .debug = Distances.walk := by
  funext ml steps
  induction steps with
  | nil => rfl
  | cons x steps ih =>
    funext cur row d
    simp only [Distances.walkIn, Distances.walk, updateSymIn_debug, ih]

theorem updateRuleIn_debug : Distances.updateRuleIn .debug = Distances.updateRule := by
  funext ml cur rhs row d reverse
  unfold Distances.updateRuleIn Distances.updateRule
  rw [walkIn_debug]

theorem transitiveIn_debug (g : Cfg) :
    MinimalDistance.transitiveIn .debug g = MinimalDistance.transitive g := by
  have hp : ∀ m, MinimalDistance.passIn .debug m g = m.pass g := by
    intro m
    unfold MinimalDistance.passIn MinimalDistance.pass
    congr 1
    funext st x
    simp only [MinimalDistance.passRuleIn, MinimalDistance.passRule, MinimalDistance.passForwardIn,
      MinimalDistance.passForward, MinimalDistance.passBackwardIn, MinimalDistance.passBackward,
      MinimalDistance.updateForwardIn, MinimalDistance.updateForward,
      MinimalDistance.updateBackwardIn, MinimalDistance.updateBackward, updateRuleIn_debug]
    rfl
  funext fuel
  induction fuel with
  | zero => rfl
  | succ fuel ih =>
    funext m
    simp only [MinimalDistance.transitiveIn, MinimalDistance.transitive, hp, ih]

/-- The functions for both profiles are those of `Model/Distance.lean` in debug builds. -/
theorem minimalDistancesIn_debug :
    MinimalDistance.minimalDistancesIn .debug = MinimalDistance.minimalDistances := by
  funext m g dots dir
  simp only [MinimalDistance.minimalDistancesIn, MinimalDistance.minimalDistances,
    Cfg.minimalSentenceLengthsIn, MinimalDistance.immediateIn, MinimalDistance.immediate,
    MinimalDistance.processDotIn, MinimalDistance.processDot, MinimalDistance.processForwardIn,
    MinimalDistance.processForward, MinimalDistance.processBackwardIn, MinimalDistance.processBackward,
    MinimalDistance.updateForwardIn, MinimalDistance.updateForward, MinimalDistance.updateBackwardIn,
    MinimalDistance.updateBackward, updateRuleIn_debug, transitiveIn_debug]

/-! ## What a debug build returns, a release build returns -/

/-- `y` returns whatever `x` returns. -/
def Res.Below {α : Type} (x y : Res α) : Prop := ∀ a, x = .ok a → y = .ok a

theorem Res.Below.refl {α : Type} (x : Res α) : Res.Below x x := fun _ h => h

theorem Res.Below.bind {α β : Type} {x y : Res α} {f h : α → Res β} (hx : Res.Below x y)
    (hf : ∀ a, Res.Below (f a) (h a)) : Res.Below (x >>= f) (y >>= h) := by
  intro b hb
  obtain ⟨a, h1, h2⟩ := Res.bind_eq_ok.1 hb
  rw [hx a h1, Res.bind_ok]
  exact hf a b h2

theorem Res.Below.foldlM {α σ : Type} {f h : σ → α → Res σ} (hf : ∀ s a, Res.Below (f s a) (h s a))
    (l : List α) (s : σ) : Res.Below (l.foldlM f s) (l.foldlM h s) := by
  induction l generalizing s with
  | nil => exact .refl _
  | cons a l ih =>
    rw [List.foldlM_cons, List.foldlM_cons]
    exact (hf s a).bind ih

theorem addLen_below (a b : Nat) : Res.Below (addLen .debug a b) (addLen .release a b) := by
  intro c hc
  unfold addLen at hc ⊢
  simp only at hc ⊢
  split at hc
  · cases hc
  · cases hc
    rw [Nat.mod_eq_of_lt (by omega)]

theorem updateSymIn_below (d : Distances) (ml : List (Option Nat)) (cur : Nat) (sym : Sym) :
    Res.Below (d.updateSymIn .debug ml cur sym) (d.updateSymIn .release ml cur sym) := by
  unfold Distances.updateSymIn
  refine Res.Below.bind (.refl _) fun _ => Res.Below.bind (.refl _) fun _ =>
    Res.Below.bind (.refl _) fun _ => Res.Below.bind (addLen_below _ _) fun _ => .refl _

theorem walkIn_below (ml : List (Option Nat)) (steps : List (Nat × Sym)) (cur : Nat)
    (row : List (Option Nat)) (d : Distances) :
    Res.Below (Distances.walkIn .debug ml steps cur row d)
      (Distances.walkIn .release ml steps cur row d) := by
  induction steps generalizing cur row d with
  | nil => exact .refl _
  | cons x steps ih =>
    exact Res.Below.bind (.refl _) fun a => Res.Below.bind (updateSymIn_below _ _ _ _) fun b =>
      ih b.2 a.1 b.1

theorem updateRuleIn_below (ml : List (Option Nat)) (cur : Nat) (rhs : List Sym)
    (row : List (Option Nat)) (d : Distances) (reverse : Bool) :
    Res.Below (Distances.updateRuleIn .debug ml cur rhs row d reverse)
      (Distances.updateRuleIn .release ml cur rhs row d reverse) := by
  unfold Distances.updateRuleIn
  exact Res.Below.bind (walkIn_below _ _ _ _ _) fun _ => .refl _

theorem updateForwardIn_below (m : MinimalDistance) (cur : Nat) (rhs : List Sym) (idx : Nat) :
    Res.Below (m.updateForwardIn .debug cur rhs idx) (m.updateForwardIn .release cur rhs idx) := by
  unfold MinimalDistance.updateForwardIn
  exact Res.Below.bind (.refl _) fun _ => Res.Below.bind (updateRuleIn_below _ _ _ _ _ _) fun _ => .refl _

theorem updateBackwardIn_below (m : MinimalDistance) (cur : Nat) (rhs : List Sym) (idx : Nat) :
    Res.Below (m.updateBackwardIn .debug cur rhs idx) (m.updateBackwardIn .release cur rhs idx) := by
  unfold MinimalDistance.updateBackwardIn
  exact Res.Below.bind (.refl _) fun _ => Res.Below.bind (updateRuleIn_below _ _ _ _ _ _) fun _ => .refl _

theorem processDotIn_below (m : MinimalDistance) (idx : Nat) (rule : CfgRule) (dir : DistanceDirection)
    (dot : Nat) :
    Res.Below (m.processDotIn .debug idx rule dir dot) (m.processDotIn .release idx rule dir dot) := by
  have hf : ∀ m : MinimalDistance, Res.Below (m.processForwardIn .debug idx rule dot)
      (m.processForwardIn .release idx rule dot) := by
    intro m
    unfold MinimalDistance.processForwardIn
    exact Res.Below.bind (.refl _) fun _ => Res.Below.bind (updateForwardIn_below _ _ _ _) fun _ => .refl _
  have hb : ∀ m : MinimalDistance, Res.Below (m.processBackwardIn .debug idx rule dot)
      (m.processBackwardIn .release idx rule dot) := by
    intro m
    unfold MinimalDistance.processBackwardIn
    exact Res.Below.bind (.refl _) fun _ => Res.Below.bind (updateBackwardIn_below _ _ _ _) fun _ => .refl _
  have hb' : ∀ m : MinimalDistance,
      Res.Below (if dir.includesBackward then m.processBackwardIn .debug idx rule dot else .ok m)
        (if dir.includesBackward then m.processBackwardIn .release idx rule dot else .ok m) := by
    intro m
    split
    · exact hb m
    · exact .refl _
  unfold MinimalDistance.processDotIn
  cases dir.includesForward with
  | true => exact Res.Below.bind (hf m) hb'
  | false => exact hb' m

theorem passRuleIn_below (m : MinimalDistance) (rule : CfgRule) (idx : Nat) (changed : Bool) :
    Res.Below (m.passRuleIn .debug rule idx changed) (m.passRuleIn .release rule idx changed) := by
  unfold MinimalDistance.passRuleIn MinimalDistance.passForwardIn MinimalDistance.passBackwardIn
  refine Res.Below.bind (Res.Below.bind (.refl _) fun o => ?_) fun st => Res.Below.bind (.refl _) fun o => ?_
  · cases o with
    | none => exact .refl _
    | some distance => exact Res.Below.bind (updateForwardIn_below _ _ _ _) fun _ => .refl _
  · cases o with
    | none => exact .refl _
    | some distance => exact Res.Below.bind (updateBackwardIn_below _ _ _ _) fun _ => .refl _

theorem transitiveIn_below (g : Cfg) (fuel : Nat) (m : MinimalDistance) :
    Res.Below (MinimalDistance.transitiveIn .debug g fuel m)
      (MinimalDistance.transitiveIn .release g fuel m) := by
  induction fuel generalizing m with
  | zero => exact .refl _
  | succ fuel ih =>
    unfold MinimalDistance.transitiveIn
    refine Res.Below.bind (Res.Below.foldlM (fun st x => passRuleIn_below _ _ _ _) _ _) fun st => ?_
    dsimp only
    split
    · exact ih _
    · exact .refl _

theorem minimalSentenceLengthsIn_below (g : Cfg) (value : List (Option Nat)) :
    Res.Below (g.minimalSentenceLengthsIn .debug value) (g.minimalSentenceLengthsIn .release value) := by
  show Res.Below (g.minimalSentenceLengths value) (g.minimalSentenceLengthsRelease value)
  unfold Cfg.minimalSentenceLengths Cfg.minimalSentenceLengthsRelease
  refine Res.Below.bind (.refl _) fun _ => Res.Below.bind (.refl _) fun _ =>
    Res.Below.bind (.refl _) fun _ => fun a h => valuesLoopWrap_agrees h

theorem minimalDistancesIn_below (m : MinimalDistance) (g : Cfg) (dots : List (Nat × Nat))
    (dir : DistanceDirection) : Res.Below (m.minimalDistancesIn .debug g dots dir)
      (m.minimalDistancesIn .release g dots dir) := by
  unfold MinimalDistance.minimalDistancesIn MinimalDistance.immediateIn
  exact Res.Below.bind (minimalSentenceLengthsIn_below _ _) fun _ =>
    Res.Below.bind (Res.Below.foldlM (fun m x =>
      Res.Below.foldlM (fun m d => processDotIn_below _ _ _ _ _) _ _) _ _) fun _ =>
    transitiveIn_below _ _ _

/-! ## Outcomes -/

/-- `x` returns a value with `P`, or panics, the latter only if `Bad` holds. -/
def Res.Out {α : Type} (Bad : Prop) (x : Res α) (P : α → Prop) : Prop :=
  (Bad ∧ x = .panic) ∨ ∃ a, x = .ok a ∧ P a

theorem Res.Out.ok {α : Type} {Bad : Prop} {a : α} {P : α → Prop} (h : P a) :
    Res.Out Bad (.ok a) P := .inr ⟨a, rfl, h⟩

theorem Res.Out.bind {α β : Type} {Bad : Prop} {x : Res α} {f : α → Res β} {P : α → Prop}
    {Q : β → Prop} (hx : Res.Out Bad x P) (hf : ∀ a, P a → Res.Out Bad (f a) Q) :
    Res.Out Bad (x >>= f) Q := by
  rcases hx with ⟨h1, h2⟩ | ⟨a, h1, h2⟩
  · exact .inl ⟨h1, by rw [h2]; rfl⟩
  · rw [h1, Res.bind_ok]; exact hf a h2

theorem Res.Out.mono {α : Type} {Bad : Prop} {x : Res α} {P Q : α → Prop} (hx : Res.Out Bad x P)
    (h : ∀ a, P a → Q a) : Res.Out Bad x Q := by
  rcases hx with h1 | ⟨a, h1, h2⟩
  · exact .inl h1
  · exact .inr ⟨a, h1, h a h2⟩

theorem Res.Out.index {α : Type} {Bad : Prop} {l : List α} {i : Nat} (h : i < l.length) :
    Res.Out Bad (Res.index l i) fun a => l[i]? = some a :=
  .inr ⟨l[i], Res.index_lt h, List.getElem?_eq_getElem h⟩

theorem Res.Out.foldlM {α σ : Type} {Bad : Prop} {f : σ → α → Res σ} {Inv : σ → Prop} (l : List α)
    (hf : ∀ a ∈ l, ∀ s, Inv s → Res.Out Bad (f s a) Inv) (s : σ) (hs : Inv s) :
    Res.Out Bad (l.foldlM f s) Inv := by
  induction l generalizing s with
  | nil => exact .ok hs
  | cons a l ih =>
    rw [List.foldlM_cons]
    exact (hf a (by simp) s hs).bind fun s' hs' => ih (fun b hb => hf b (by simp [hb])) s' hs'

/-- Entries are 32-bit numbers. -/
def Small (l : List (Option Nat)) : Prop := ∀ s v, tbl l s = some v → v < 2 ^ 32

theorem small_at {l : List (Option Nat)} (hl : Small l) {i : Nat} {v : Nat} (h : l[i]? = some (some v)) :
    v < 2 ^ 32 := hl i v (by unfold tbl; rw [h]; rfl)

/-- Sizes and 32-bit entries of the tables of one direction. -/
structure DSmall (n : Nat) (d : Distances) : Prop where
  before : d.before.length = n
  after : d.after.length = n
  smallB : Small d.before
  smallA : Small d.after

theorem setMinAt_out {Bad : Prop} {l : List (Option Nat)} (hl : Small l) {i new : Nat}
    (hi : i < l.length) (hn : new < 2 ^ 32) :
    Res.Out Bad (setMinAt l i new) fun x => x.1.length = l.length ∧ Small x.1 ∧
      potential x.1 + (if x.2 then 1 else 0) ≤ potential l := by
  obtain ⟨l', b, h1, h2, -, h3, h4⟩ := setMinAt_row hi hn
  refine .inr ⟨(l', b), h1, h2.1, ?_, h4⟩
  exact h3 (fun _ v => v < 2 ^ 32) hl hn

theorem addLen_out {Bad : Prop} {p : Profile} (hp : p = .debug → Bad) (a b : Nat) :
    Res.Out Bad (addLen p a b) fun c => c < 2 ^ 32 := by
  unfold addLen
  cases p with
  | debug =>
    simp only
    split
    · exact .inl ⟨hp rfl, rfl⟩
    · exact .ok (by omega)
  | release => exact .ok (Nat.mod_lt _ (by decide))

theorem updateSymIn_out {Bad : Prop} {p : Profile} (hp : p = .debug → Bad) {n : Nat}
    {ml : List (Option Nat)} (hml : ml.length = n) {d : Distances} (hd : DSmall n d) {cur : Nat}
    (hcur : cur < 2 ^ 32) {sym : Sym} (hs : sym < n) (hb : tbl ml sym = none → Bad) :
    Res.Out Bad (d.updateSymIn p ml cur sym) fun x => DSmall n x.1 ∧ x.2 < 2 ^ 32 := by
  unfold Distances.updateSymIn
  refine (setMinAt_out hd.smallA (by rw [hd.after]; exact hs) hcur).bind fun a ha => ?_
  refine (Res.Out.index (by rw [hml]; exact hs)).bind fun o ho => ?_
  have hlen : Res.Out Bad (Res.ofOption o) fun _ => True := by
    cases o with
    | none => exact .inl ⟨hb (by unfold tbl; rw [ho]; rfl), rfl⟩
    | some v => exact .ok trivial
  refine hlen.bind fun len _ => (addLen_out hp cur len).bind fun cur' hc => ?_
  refine (Res.Out.index (by rw [hd.before]; exact hs)).bind fun b hb => ?_
  have hd' : DSmall n { d with after := a.1 } := ⟨hd.before, ha.1.trans hd.after, hd.smallB, ha.2.1⟩
  cases b with
  | none => exact .ok ⟨hd', hc⟩
  | some v => exact .ok ⟨hd', by omega⟩

theorem walkIn_out {Bad : Prop} {p : Profile} (hp : p = .debug → Bad) {n : Nat}
    {ml : List (Option Nat)} (hml : ml.length = n) (steps : List (Nat × Sym)) {cur : Nat}
    (hcur : cur < 2 ^ 32) {row : List (Option Nat)} (hrow : Small row) {d : Distances} (hd : DSmall n d)
    (hsteps : ∀ x ∈ steps, x.1 < row.length ∧ x.2 < n ∧ (tbl ml x.2 = none → Bad)) :
    Res.Out Bad (Distances.walkIn p ml steps cur row d) fun x => x.1.length = row.length ∧ Small x.1 ∧
      potential x.1 ≤ potential row ∧ DSmall n x.2.1 ∧ x.2.2 < 2 ^ 32 := by
  induction steps generalizing cur row d with
  | nil => exact .ok ⟨rfl, hrow, Nat.le_refl _, hd, hcur⟩
  | cons x steps ih =>
    obtain ⟨h1, h2, h3⟩ := hsteps x (by simp)
    refine (setMinAt_out hrow h1 hcur).bind fun a ha => ?_
    refine (updateSymIn_out hp hml hd hcur h2 h3).bind fun b hb => ?_
    refine (ih hb.2 ha.2.1 hb.1 fun y hy => ?_).mono fun r hr => ?_
    · rw [ha.1]; exact hsteps y (by simp [hy])
    · have := ha.2.2
      exact ⟨hr.1.trans ha.1, hr.2.1, by omega, hr.2.2.2⟩

theorem updateRuleIn_out {Bad : Prop} {p : Profile} (hp : p = .debug → Bad) {n : Nat}
    {ml : List (Option Nat)} (hml : ml.length = n) (rhs : List Sym) {cur : Nat}
    (hcur : cur < 2 ^ 32) {row : List (Option Nat)} (hrow : Small row) {d : Distances} (hd : DSmall n d)
    (reverse : Bool) (hlen : rhs.length < row.length)
    (hsyms : ∀ s ∈ rhs, s < n ∧ (tbl ml s = none → Bad)) :
    Res.Out Bad (Distances.updateRuleIn p ml cur rhs row d reverse) fun x =>
      x.1.length = row.length ∧ Small x.1 ∧ DSmall n x.2.1 ∧ x.2.2.1 < 2 ^ 32 ∧
      potential x.1 + (if x.2.2.2 then 1 else 0) ≤ potential row := by
  have key : ∀ steps last, (∀ x ∈ steps, x.1 < row.length ∧ x.2 < n ∧ (tbl ml x.2 = none → Bad)) →
      last < row.length →
      Res.Out Bad (Distances.walkIn p ml steps cur row d >>= fun x =>
        setMinAt x.1 last x.2.2 >>= fun y => .ok (y.1, x.2.1, x.2.2, y.2)) fun x =>
      x.1.length = row.length ∧ Small x.1 ∧ DSmall n x.2.1 ∧ x.2.2.1 < 2 ^ 32 ∧
      potential x.1 + (if x.2.2.2 then 1 else 0) ≤ potential row := by
    intro steps last h1 h2
    refine (walkIn_out hp hml steps hcur hrow hd h1).bind fun a ha => ?_
    refine (setMinAt_out ha.2.1 (by rw [ha.1]; exact h2) ha.2.2.2.2).bind fun b hb => ?_
    have := ha.2.2.1
    exact .ok ⟨hb.1.trans ha.1, hb.2.1, ha.2.2.2.1, ha.2.2.2.2, le_trans hb.2.2 this⟩
  unfold Distances.updateRuleIn
  cases reverse with
  | true =>
    refine key _ _ ?_ hlen
    intro x hx
    simp only [List.mem_map, Prod.exists] at hx
    obtain ⟨s, i, hx, rfl⟩ := hx
    rw [List.mk_mem_zipIdx_iff_getElem?] at hx
    obtain ⟨hi, -⟩ := List.getElem?_eq_some_iff.1 hx
    exact ⟨by simp only; omega, hsyms s (List.mem_of_getElem? hx)⟩
  | false =>
    refine key _ _ ?_ (by omega)
    intro x hx
    simp only [List.mem_reverse, List.mem_map, Prod.exists] at hx
    obtain ⟨s, i, hx, rfl⟩ := hx
    rw [List.mk_mem_zipIdx_iff_getElem?] at hx
    obtain ⟨hi, -⟩ := List.getElem?_eq_some_iff.1 hx
    exact ⟨by simp only; omega, hsyms s (List.mem_of_getElem? hx)⟩

/-- Invariant of the state. -/
structure MSmall (g : Cfg) (m : MinimalDistance) : Prop where
  rowsLen : m.distances.length = g.rules.length
  rows : ∀ (i : Nat) r row, g.rules[i]? = some r → m.distances[i]? = some row →
    row.length = r.rhs.length + 1
  smallR : ∀ row ∈ m.distances, Small row
  fwd : DSmall g.numSyms m.forwardDistances
  bwd : DSmall g.numSyms m.backwardDistances
  pot : m.total ≤ (m.distances.map List.length).sum * 2 ^ 32
  lens : m.minLength.length = g.numSyms

/-- What an update does. -/
structure Upd (g : Cfg) (m m' : MinimalDistance) (changed : Bool) : Prop where
  inv : MSmall g m'
  lens : m'.minLength = m.minLength
  len : m'.distances.map List.length = m.distances.map List.length
  total : m'.total + (if changed then 1 else 0) ≤ m.total

theorem set_row {g : Cfg} {m : MinimalDistance} (hm : MSmall g m) {i : Nat} {row row' : List (Option Nat)}
    (hrow : m.distances[i]? = some row) (hlen : row'.length = row.length) (hs : Small row') {b : Bool}
    (hpot : potential row' + (if b then 1 else 0) ≤ potential row) (f k : Distances)
    (hf : DSmall g.numSyms f) (hk : DSmall g.numSyms k) :
    MSmall g { m with distances := m.distances.set i row', forwardDistances := f, backwardDistances := k } ∧
    (m.distances.set i row').map List.length = m.distances.map List.length ∧
    ((m.distances.set i row').map potential).sum + (if b then 1 else 0) ≤ (m.distances.map potential).sum := by
  have h1 : (m.distances.set i row').map List.length = m.distances.map List.length := by
    rw [List.map_set]
    apply List.ext_getElem?
    intro j
    rw [List.getElem?_set]
    split
    · rename_i e
      subst e
      rw [List.length_map, List.getElem?_map, hrow, if_pos (List.getElem?_eq_some_iff.1 hrow).1, hlen]
      rfl
    · rfl
  have h2 := sum_map_set potential m.distances i row row' hrow
  have h3 : ((m.distances.set i row').map potential).sum + (if b then 1 else 0)
      ≤ (m.distances.map potential).sum := by omega
  refine ⟨⟨by simpa using hm.rowsLen, ?_, ?_, hf, hk, ?_, hm.lens⟩, h1, h3⟩
  · intro j r x hr hx
    rw [List.getElem?_set] at hx
    split at hx
    · rename_i e
      subst e
      split at hx
      · cases hx
        rw [hlen]
        exact hm.rows _ r row hr hrow
      · cases hx
    · exact hm.rows j r x hr hx
  · intro x hx
    rcases List.mem_or_eq_of_mem_set hx with hx | rfl
    · exact hm.smallR x hx
    · exact hs
  · show ((m.distances.set i row').map potential).sum ≤ ((m.distances.set i row').map List.length).sum * 2 ^ 32
    rw [h1]
    have := hm.pot
    unfold MinimalDistance.total at this
    omega

section
variable {Bad : Prop} {p : Profile} (hp : p = .debug → Bad) {g : Cfg} (hwf : g.WF)
  {ml : List (Option Nat)} (hb : ∀ r ∈ g.rules, ∀ s ∈ r.rhs, tbl ml s = none → Bad)
include hp hwf hb

theorem updateForwardIn_out {m : MinimalDistance} (hm : MSmall g m) (hl : m.minLength = ml) {i : Nat}
    {r : CfgRule} (hr : g.rules[i]? = some r) {slice : List Sym} (hlen : slice.length ≤ r.rhs.length)
    (hsub : ∀ s ∈ slice, s ∈ r.rhs) {cur : Nat} (hcur : cur < 2 ^ 32) :
    Res.Out Bad (m.updateForwardIn p cur slice i) fun x =>
      Upd g m x.1 x.2.2 ∧ x.2.1 < 2 ^ 32 := by
  have hi : i < m.distances.length := by rw [hm.rowsLen]; exact (List.getElem?_eq_some_iff.1 hr).1
  unfold MinimalDistance.updateForwardIn
  refine (Res.Out.index hi).bind fun row hrow => ?_
  refine (updateRuleIn_out hp hm.lens slice hcur (hm.smallR row (List.mem_of_getElem? hrow)) hm.fwd false
    (by rw [hm.rows i r row hr hrow]; omega) fun s hs =>
      ⟨(hwf r (List.mem_of_getElem? hr)).2 s (hsub s hs),
        by rw [hl]; exact hb r (List.mem_of_getElem? hr) s (hsub s hs)⟩).bind fun a ha => ?_
  obtain ⟨h1, h2, h3⟩ := set_row hm hrow ha.1 ha.2.1 ha.2.2.2.2 a.2.1 m.backwardDistances ha.2.2.1 hm.bwd
  exact .ok ⟨⟨h1, rfl, h2, h3⟩, ha.2.2.2.1⟩

theorem updateBackwardIn_out {m : MinimalDistance} (hm : MSmall g m) (hl : m.minLength = ml) {i : Nat}
    {r : CfgRule} (hr : g.rules[i]? = some r) {slice : List Sym} (hlen : slice.length ≤ r.rhs.length)
    (hsub : ∀ s ∈ slice, s ∈ r.rhs) {cur : Nat} (hcur : cur < 2 ^ 32) :
    Res.Out Bad (m.updateBackwardIn p cur slice i) fun x =>
      Upd g m x.1 x.2.2 ∧ x.2.1 < 2 ^ 32 := by
  have hi : i < m.distances.length := by rw [hm.rowsLen]; exact (List.getElem?_eq_some_iff.1 hr).1
  unfold MinimalDistance.updateBackwardIn
  refine (Res.Out.index hi).bind fun row hrow => ?_
  refine (updateRuleIn_out hp hm.lens slice hcur (hm.smallR row (List.mem_of_getElem? hrow)) hm.bwd true
    (by rw [hm.rows i r row hr hrow]; omega) fun s hs =>
      ⟨(hwf r (List.mem_of_getElem? hr)).2 s (hsub s hs),
        by rw [hl]; exact hb r (List.mem_of_getElem? hr) s (hsub s hs)⟩).bind fun a ha => ?_
  obtain ⟨h1, h2, h3⟩ := set_row hm hrow ha.1 ha.2.1 ha.2.2.2.2 m.forwardDistances a.2.1 hm.fwd ha.2.2.1
  exact .ok ⟨⟨h1, rfl, h2, h3⟩, ha.2.2.2.1⟩

theorem processDotIn_out {m : MinimalDistance} (hm : MSmall g m) (hl : m.minLength = ml) {i : Nat}
    {r : CfgRule} (hr : g.rules[i]? = some r) (dir : DistanceDirection) {dot : Nat}
    (hdot : dot ≤ r.rhs.length) :
    Res.Out Bad (m.processDotIn p i r dir dot) fun m' => MSmall g m' ∧ m'.minLength = ml := by
  have hlhs : r.lhs < g.numSyms := (hwf r (List.mem_of_getElem? hr)).1
  have hslice : sliceCheck r.rhs dot = .ok () := by unfold sliceCheck; rw [if_pos hdot]
  have h1 : Res.Out Bad (if dir.includesForward then m.processForwardIn p i r dot else .ok m)
      fun m' => MSmall g m' ∧ m'.minLength = ml := by
    split
    · unfold MinimalDistance.processForwardIn
      rw [hslice, Res.bind_ok]
      refine (updateForwardIn_out hp hwf hb hm hl hr (by simp) (fun s hs => List.mem_of_mem_take hs)
        (by decide : 0 < 2 ^ 32)).bind fun a ha => ?_
      have hi := ha.1.inv
      refine (setMinAt_out hi.fwd.smallB (by rw [hi.fwd.before]; exact hlhs) ha.2).bind fun b hb => ?_
      exact .ok ⟨⟨hi.rowsLen, hi.rows, hi.smallR,
        ⟨hb.1.trans hi.fwd.before, hi.fwd.after, hb.2.1, hi.fwd.smallA⟩, hi.bwd, hi.pot, hi.lens⟩, ha.1.lens.trans hl⟩
    · exact .ok ⟨hm, hl⟩
  have h2 : ∀ m' : MinimalDistance, MSmall g m' ∧ m'.minLength = ml →
      Res.Out Bad (if dir.includesBackward then m'.processBackwardIn p i r dot else .ok m')
        fun m' => MSmall g m' ∧ m'.minLength = ml := by
   intro m' hm'
   split
   · unfold MinimalDistance.processBackwardIn
     rw [hslice, Res.bind_ok]
     refine (updateBackwardIn_out hp hwf hb hm'.1 hm'.2 hr (by simp) (fun s hs => List.mem_of_mem_drop hs)
       (by decide : 0 < 2 ^ 32)).bind fun a ha => ?_
     have hi := ha.1.inv
     refine (setMinAt_out hi.bwd.smallB (by rw [hi.bwd.before]; exact hlhs) ha.2).bind fun b hb => ?_
     exact .ok ⟨⟨hi.rowsLen, hi.rows, hi.smallR, hi.fwd,
       ⟨hb.1.trans hi.bwd.before, hi.bwd.after, hb.2.1, hi.bwd.smallA⟩, hi.pot, hi.lens⟩, ha.1.lens.trans hm'.2⟩
   · exact .ok hm'
  unfold MinimalDistance.processDotIn
  cases hdir : dir.includesForward with
  | true =>
    rw [hdir] at h1
    exact Res.Out.bind h1 h2
  | false => exact h2 m ⟨hm, hl⟩

theorem immediateIn_out {m : MinimalDistance} (hm : MSmall g m) (hl : m.minLength = ml)
    (dots : List (Nat × Nat)) (dir : DistanceDirection)
    (hdots : ∀ x ∈ dots, ∀ r, g.rules[x.1]? = some r → x.2 ≤ r.rhs.length) :
    Res.Out Bad (m.immediateIn p g dots dir) fun m' => MSmall g m' ∧ m'.minLength = ml := by
  unfold MinimalDistance.immediateIn
  refine Res.Out.foldlM (Inv := fun m => MSmall g m ∧ m.minLength = ml) _ ?_ m ⟨hm, hl⟩
  rintro ⟨r, i⟩ hx m hm
  rw [List.mk_mem_zipIdx_iff_getElem?] at hx
  refine Res.Out.foldlM (Inv := fun m => MSmall g m ∧ m.minLength = ml) _ ?_ m hm
  intro d hd m hm
  obtain ⟨h1, h2⟩ := mem_dotSpan hd
  subst h2
  exact processDotIn_out hp hwf hb hm.1 hm.2 hx dir (hdots d h1 r hx)

theorem passRuleIn_out {m : MinimalDistance} (hm : MSmall g m) (hl : m.minLength = ml) {i : Nat}
    {r : CfgRule} (hr : g.rules[i]? = some r) (changed : Bool) :
    Res.Out Bad (m.passRuleIn p r i changed) fun x => Upd g m x.1 (x.2 && !changed) := by
  have hlhs : r.lhs < g.numSyms := (hwf r (List.mem_of_getElem? hr)).1
  have hsame : ∀ m c, MSmall g m → Upd g m m (c && !c) := fun m c h1 =>
    ⟨h1, rfl, rfl, by cases c <;> simp⟩
  unfold MinimalDistance.passRuleIn
  have h1 : Res.Out Bad (m.passForwardIn p r i changed) fun x => Upd g m x.1 (x.2 && !changed) := by
    unfold MinimalDistance.passForwardIn
    refine (Res.Out.index (by rw [hm.fwd.after]; exact hlhs)).bind fun o ho => ?_
    cases o with
    | none => exact .ok (hsame m changed hm)
    | some distance =>
      refine (updateForwardIn_out hp hwf hb hm hl hr (Nat.le_refl _) (fun _ h => h)
        (small_at hm.fwd.smallA ho)).bind fun a ha => ?_
      refine .ok ⟨ha.1.inv, ha.1.lens, ha.1.len, ?_⟩
      have := ha.1.total
      cases changed <;> cases h : a.2.2 <;> simp [h] at this ⊢ <;> omega
  refine h1.bind fun x hx => ?_
  unfold MinimalDistance.passBackwardIn
  refine (Res.Out.index (by rw [hx.inv.bwd.after]; exact hlhs)).bind fun o ho => ?_
  cases o with
  | none => exact .ok hx
  | some distance =>
    refine (updateBackwardIn_out hp hwf hb hx.inv (hx.lens.trans hl) hr (Nat.le_refl _) (fun _ h => h)
      (small_at hx.inv.bwd.smallA ho)).bind fun a ha => ?_
    refine .ok ⟨ha.1.inv, ha.1.lens.trans hx.lens, ha.1.len.trans hx.len, ?_⟩
    have h2 := ha.1.total
    have h3 := hx.total
    cases changed <;> cases h : a.2.2 <;> cases h' : x.2 <;> simp [h, h'] at h2 h3 ⊢ <;> omega

theorem passIn_out {m : MinimalDistance} (hm : MSmall g m) (hl : m.minLength = ml) :
    Res.Out Bad (m.passIn p g) fun x => Upd g m x.1 x.2 := by
  unfold MinimalDistance.passIn
  refine Res.Out.foldlM (Inv := fun x => Upd g m x.1 x.2) _ ?_ (m, false) ⟨hm, rfl, rfl, by simp⟩
  rintro ⟨r, i⟩ hx st hst
  rw [List.mk_mem_zipIdx_iff_getElem?] at hx
  refine (passRuleIn_out hp hwf hb hst.inv (hst.lens.trans hl) hx st.2).mono fun y hy => ⟨hy.inv,
    hy.lens.trans hst.lens,
    hy.len.trans hst.len, ?_⟩
  have h2 := hy.total
  have h3 := hst.total
  cases h : st.2 <;> cases h' : y.2 <;> simp [h, h'] at h2 h3 ⊢ <;> omega

theorem transitiveIn_out (fuel : Nat) {m : MinimalDistance} (hm : MSmall g m) (hl : m.minLength = ml)
    (hf : m.total < fuel) :
    Res.Out Bad (MinimalDistance.transitiveIn p g fuel m) fun m' => MSmall g m' ∧ m'.minLength = ml := by
  induction fuel generalizing m with
  | zero => omega
  | succ fuel ih =>
    unfold MinimalDistance.transitiveIn
    refine (passIn_out hp hwf hb hm hl).bind fun x hx => ?_
    dsimp only
    split
    · rename_i hc
      have := hx.total
      rw [hc] at this
      exact ih hx.inv (hx.lens.trans hl) (by simp at this; omega)
    · exact .ok ⟨hx.inv, hx.lens.trans hl⟩

end

/-! ## Which symbols have a length -/

/-- A table whose entries are 32-bit numbers for symbols that derive strings. -/
def LensSome (g : Cfg) (value : List (Option Nat)) : Prop :=
  value.length = g.numSyms ∧ ∀ s v, tbl value s = some v → v < 2 ^ 32 ∧ ∃ w, g.Lang s w

theorem weight_derives {g : Cfg} {f : Sym → Option Nat} (hf : ∀ s v, f s = some v → ∃ w, g.Lang s w)
    {w : List Sym} {c : Nat} (hw : weight f w = some c) : ∃ v, Der g.prod w v ∧ ∀ a ∈ v, g.Term a := by
  induction w generalizing c with
  | nil => exact ⟨[], .nil, by simp⟩
  | cons a w ih =>
    simp only [weight] at hw
    cases ha : f a with
    | none => simp [ha] at hw
    | some x =>
      cases hb : weight f w with
      | none => simp [ha, hb] at hw
      | some y =>
        obtain ⟨v₁, h1⟩ := hf a x ha
        obtain ⟨v₂, h3, h4⟩ := ih hb
        obtain ⟨h6, h7⟩ := inLang_iff.1 h1
        refine ⟨v₁ ++ v₂, Der.append (u₁ := [a]) h6 h3, fun b hb => ?_⟩
        rcases List.mem_append.1 hb with hb | hb
        · exact h7 b hb
        · exact h4 b hb

theorem derives_weight {g : Cfg} {f : Sym → Option Nat} (ht : ∀ s, g.Term s → ∃ v, f s = some v)
    (he : ∀ s, g.prod s [] → ∃ v, f s = some v) {u v : List Sym} (d : Der g.prod u v)
    (hv : ∀ a ∈ v, g.Term a) : ∃ w c, Der (NonEmptyProds g.prod) u w ∧ weight f w = some c := by
  induction d with
  | nil => exact ⟨[], 0, .nil, rfl⟩
  | @keep a u v d ih =>
    obtain ⟨w, c, h1, h2⟩ := ih fun b hb => hv b (by simp [hb])
    obtain ⟨x, hx⟩ := ht a (hv a (by simp))
    exact ⟨a :: w, x + c, .keep a h1, by simp only [weight, hx, h2]⟩
  | @expand A α v₁ u v₂ hp h₁ h₂ ih₁ ih₂ =>
    obtain ⟨w₂, c₂, h3, h4⟩ := ih₂ fun b hb => hv b (by simp [hb])
    by_cases hα : α = []
    · subst hα
      obtain ⟨x, hx⟩ := he A hp
      exact ⟨A :: w₂, x + c₂, .keep A h3, by simp only [weight, hx, h4]⟩
    · obtain ⟨w₁, c₁, h5, h6⟩ := ih₁ fun b hb => hv b (by simp [hb])
      exact ⟨w₁ ++ w₂, c₁ + c₂, .expand ⟨hp, hα⟩ h5 h3, by rw [weight_append, h6, h4]⟩

theorem minimalSentenceLengthsIn_out {Bad : Prop} {p : Profile} (hp : p = .debug → Bad) {g : Cfg}
    (hwf : g.WF) {value : List (Option Nat)} (hs : LensSome g value) :
    Res.Out Bad (g.minimalSentenceLengthsIn p value) fun value' =>
      LensSome g value' ∧ ∀ s, (∃ w, g.Lang s w) → ∃ v, tbl value' s = some v := by
  obtain ⟨b, b1, b2, b3⟩ := BitSet.terminal_spec hwf
  obtain ⟨v1, h1, h2, h3⟩ := setValue_fold id 1 b.iter value fun a ha => by
    rw [hs.1]; exact ((b3 a).1 (BitSet.mem_iter.1 ha)).1
  obtain ⟨v2, h4, h5, h6⟩ := setValue_fold CfgRule.lhs 0 (g.rules.filter fun r => r.rhs.isEmpty) v1
    fun a ha => by rw [h2, hs.1]; exact (hwf a (List.mem_filter.1 ha).1).1
  have hmem1 : ∀ s, s ∈ b.iter.map id ↔ g.Term s := fun s => by
    rw [List.map_id, BitSet.mem_iter, b3]
  have hmem2 : ∀ s, s ∈ (g.rules.filter fun r => r.rhs.isEmpty).map CfgRule.lhs ↔ g.prod s [] := by
    intro s
    simp only [List.mem_map, List.mem_filter, List.isEmpty_iff, Cfg.prod]
    constructor
    · rintro ⟨r, ⟨h1, h2⟩, h3⟩; exact ⟨r, h1, h3, h2⟩
    · rintro ⟨r, h1, h3, h2⟩; exact ⟨r, ⟨h1, h2⟩, h3⟩
  have hval : ∀ s v, tbl v2 s = some v → v < 2 ^ 32 ∧ ∃ w, g.Lang s w := by
    intro s v hv
    by_cases hp : g.prod s []
    · rw [(h6 s).1 ((hmem2 s).2 hp)] at hv
      cases hv
      exact ⟨by omega, [], inLang_iff.2 ⟨.prod hp, by simp⟩⟩
    · rw [(h6 s).2 fun h => hp ((hmem2 s).1 h)] at hv
      by_cases ht : g.Term s
      · rw [(h3 s).1 ((hmem1 s).2 ht)] at hv
        cases hv
        exact ⟨by omega, [s], inLang_iff.2 ⟨.refl _, by simpa using ht⟩⟩
      · rw [(h3 s).2 fun h => ht ((hmem1 s).1 h)] at hv
        exact hs.2 s v hv
  have hempty : ∀ s, g.prod s [] → ∃ v, tbl v2 s = some v := fun s h =>
    ⟨0, (h6 s).1 ((hmem2 s).2 h)⟩
  have hterm : ∀ s, g.Term s → ∃ v, tbl v2 s = some v := by
    intro s ht
    by_cases h : g.prod s []
    · exact hempty s h
    · exact ⟨1, by rw [(h6 s).2 fun h' => h ((hmem2 s).1 h'), (h3 s).1 ((hmem1 s).2 ht)]⟩
  have hlen : v2.length = g.numSyms := by rw [h5, h2, hs.1]
  have e1 : List.foldlM (fun l terminal => Cfg.minimalSentenceLengths.setValue l terminal 1)
      value b.iter = .ok v1 := h1
  have hback : ∀ s, (∃ w, g.Lang s w) → ∃ c, HasWeight (NonEmptyProds g.prod) (tbl v2) s c := by
    rintro s ⟨w, hw⟩
    obtain ⟨a1, a2⟩ := inLang_iff.1 hw
    obtain ⟨w', c, a3, a4⟩ := derives_weight hterm hempty a1 a2
    exact ⟨c, w', derives_iff_der.2 a3, a4⟩
  have hforth : ∀ s c, HasWeight (NonEmptyProds g.prod) (tbl v2) s c → ∃ w, g.Lang s w := by
    rintro s c ⟨w, d, hw⟩
    obtain ⟨v, a1, a2⟩ := weight_derives (fun s v h => (hval s v h).2) hw
    exact ⟨v, inLang_iff.2 ⟨Der.trans ((derives_iff_der.1 d).mono fun A α h => h.1) a1, a2⟩⟩
  cases p with
  | debug =>
    have e : g.minimalSentenceLengthsIn .debug value = g.rhsClosureWithValues v2 := by
      show g.minimalSentenceLengths value = _
      unfold Cfg.minimalSentenceLengths
      rw [show g.terminalSymbols = .ok b from b1, Res.bind_ok, e1, Res.bind_ok,
        foldlM_filter (fun r : CfgRule => r.rhs.isEmpty)
        (fun l r => Cfg.minimalSentenceLengths.setValue l r.lhs 0), h4, Res.bind_ok]
    rw [e]
    cases hx : g.rhsClosureWithValues v2 with
    | panic => exact .inl ⟨hp rfl, rfl⟩
    | ok v' =>
      have hr := valuesLoopWrap_agrees hx
      obtain ⟨v'', a1, a2, a3, a4⟩ := rhsClosureWithValuesRelease_spec hwf v2 hlen
        fun s v h => (hval s v h).1
      have : v' = v'' := Res.ok.inj ((show g.rhsClosureWithValuesRelease v2 = .ok v' from hr).symm.trans a1)
      subst this
      refine .ok ⟨⟨a2, fun s v h => ⟨(a3 s v h).1, ?_⟩⟩, fun s h => ?_⟩
      · obtain ⟨c, hc, -⟩ := (a3 s v h).2
        exact hforth s c hc
      · obtain ⟨c, hc⟩ := hback s h
        exact a4 s c hc
    | diverge =>
      exfalso
      obtain ⟨K, hK1, hK⟩ : ∃ K, 1 ≤ K ∧ ∀ r ∈ g.rules, r.rhs.length ≤ K := by
        refine ⟨(g.rules.map fun r => r.rhs.length).sum + 1, by omega, fun r hr => ?_⟩
        generalize g.rules = l at hr
        induction l with
        | nil => simp at hr
        | cons a l ih =>
          rw [List.map_cons, List.sum_cons]
          rcases List.mem_cons.1 hr with rfl | hr
          · omega
          · have := ih hr; omega
      rcases rhsClosureWithValues_spec hwf v2 hlen (fun s v h => (hval s v h).1) (2 ^ 32) K hK1 hK
        (fun s v h => Nat.le_of_lt (hval s v h).1) with ⟨h, -⟩ | ⟨v', h, -⟩ <;>
      · rw [hx] at h; cases h
  | release =>
    have e : g.minimalSentenceLengthsIn .release value = g.rhsClosureWithValuesRelease v2 := by
      show g.minimalSentenceLengthsRelease value = _
      unfold Cfg.minimalSentenceLengthsRelease
      rw [show g.terminalSymbols = .ok b from b1, Res.bind_ok, e1, Res.bind_ok,
        foldlM_filter (fun r : CfgRule => r.rhs.isEmpty)
        (fun l r => Cfg.minimalSentenceLengths.setValue l r.lhs 0), h4, Res.bind_ok]
    rw [e]
    obtain ⟨v', a1, a2, a3, a4⟩ := rhsClosureWithValuesRelease_spec hwf v2 hlen
      fun s v h => (hval s v h).1
    rw [a1]
    refine .ok ⟨⟨a2, fun s v h => ⟨(a3 s v h).1, ?_⟩⟩, fun s h => ?_⟩
    · obtain ⟨c, hc, -⟩ := (a3 s v h).2
      exact hforth s c hc
    · obtain ⟨c, hc⟩ := hback s h
      exact a4 s c hc

/-- One call: it returns, or it panics, the latter only in a debug build or if a symbol in a right side
derives no string. -/
theorem minimalDistancesIn_out (p : Profile) {g : Cfg} (hwf : g.WF) {m : MinimalDistance}
    (hm : MSmall g m) (hl : LensSome g m.minLength) (dots : List (Nat × Nat)) (dir : DistanceDirection)
    (hdots : ∀ x ∈ dots, ∀ r, g.rules[x.1]? = some r → x.2 ≤ r.rhs.length) :
    Res.Out (p = .debug ∨ ∃ r ∈ g.rules, ∃ s ∈ r.rhs, ∀ w, ¬ g.Lang s w)
      (m.minimalDistancesIn p g dots dir) fun m' => MSmall g m' ∧ LensSome g m'.minLength := by
  have hp : p = .debug → p = .debug ∨ ∃ r ∈ g.rules, ∃ s ∈ r.rhs, ∀ w, ¬ g.Lang s w := .inl
  unfold MinimalDistance.minimalDistancesIn
  refine (minimalSentenceLengthsIn_out hp hwf hl).bind fun ml hml => ?_
  have hm1 : MSmall g { m with minLength := ml } :=
    ⟨hm.rowsLen, hm.rows, hm.smallR, hm.fwd, hm.bwd, hm.pot, hml.1.1⟩
  have hb : ∀ r ∈ g.rules, ∀ s ∈ r.rhs, tbl ml s = none →
      p = .debug ∨ ∃ r ∈ g.rules, ∃ s ∈ r.rhs, ∀ w, ¬ g.Lang s w := by
    intro r hr s hs hn
    refine .inr ⟨r, hr, s, hs, fun w hw => ?_⟩
    obtain ⟨v, hv⟩ := hml.2 s ⟨w, hw⟩
    rw [hv] at hn
    cases hn
  refine (immediateIn_out hp hwf hb hm1 rfl _ dir fun x hx =>
    hdots x ((List.perm_insertionSort _ _).mem_iff.1 hx)).bind fun m' hm' => ?_
  refine (transitiveIn_out hp hwf hb m'.fuel hm'.1 hm'.2 (by
    have := hm'.1.pot
    unfold MinimalDistance.fuel
    omega)).mono fun m'' hm'' => ⟨hm''.1, by rw [hm''.2]; exact hml.1⟩

theorem small_new (g : Cfg) : MSmall g (MinimalDistance.new g) ∧
    LensSome g (MinimalDistance.new g).minLength := by
  have hs : ∀ n, Small (List.replicate n none) := fun n s v h => by rw [tbl_replicate] at h; cases h
  have hd : DSmall g.numSyms (Distances.new g.numSyms) :=
    ⟨by simp [Distances.new], by simp [Distances.new], hs _, hs _⟩
  have hb := (between_new (g := g) (K := 0) (M := 0)).inv
  refine ⟨⟨hb.rowsLen, hb.rows, ?_, hd, hd, hb.pot, by simp [MinimalDistance.new]⟩,
    by simp [MinimalDistance.new], fun s v h => ?_⟩
  · intro row hr
    simp only [MinimalDistance.new, List.mem_map] at hr
    obtain ⟨r, -, rfl⟩ := hr
    exact hs _
  · simp only [MinimalDistance.new, tbl_replicate] at h; cases h

end Verif
