import Verif.Spec.Grammar
import Verif.Proofs.Derivation
import Verif.Proofs.Tactics

/-! # Helper lemmas on `add_rule` and `limit_rhs_len` -/

namespace Verif

/-- `k` further anonymous symbols. -/
def SymbolSource.anon (s : SymbolSource) (k : Nat) : SymbolSource :=
  ⟨s.numSyms + k, s.names ++ List.replicate k none⟩

theorem SymbolSource.anon_zero (s : SymbolSource) : s.anon 0 = s := by
  simp [SymbolSource.anon]

theorem SymbolSource.anon_add (s : SymbolSource) (k l : Nat) :
    (s.anon k).anon l = s.anon (k + l) := by
  simp only [SymbolSource.anon, List.append_assoc, List.replicate_append_replicate,
    Nat.add_assoc]

namespace Cfg

theorem nextSym_none (g : Cfg) :
    g.nextSym none = (g.numSyms, { g with src := g.src.anon 1 }) := by
  simp [nextSym, SymbolSource.nextSym, SymbolSource.anon, numSyms]

/-- The chain of rules made from one long rule: fresh symbols start at `f`. -/
inductive Chain (n : Nat) (lhs : Sym) : Nat → List Sym → List CfgRule → Prop
  | last {f : Nat} {rhs : List Sym} {r : CfgRule} :
      rhs.length ≤ n → r.lhs = lhs → r.rhs = rhs → Chain n lhs f rhs [r]
  | more {f : Nat} {rhs : List Sym} {r : CfgRule} {rs : List CfgRule} :
      n < rhs.length → r.lhs = f → r.rhs = rhs.take n →
      Chain n lhs (f + 1) (f :: rhs.drop n) rs → Chain n lhs f rhs (r :: rs)

theorem Chain.ne_nil {n : Nat} {lhs : Sym} {f : Nat} {rhs : List Sym} {rs : List CfgRule}
    (h : Chain n lhs f rhs rs) : 1 ≤ rs.length := by
  cases h <;> simp

/-- The grammar after some rules were appended using `k` anonymous symbols. -/
def appended (g : Cfg) (rs : List CfgRule) (k : Nat) : Cfg :=
  { g with rules := g.rules ++ rs, src := g.src.anon k }

theorem appended_appended (g : Cfg) (rs rs' : List CfgRule) (k l : Nat) :
    (g.appended rs k).appended rs' l = g.appended (rs ++ rs') (k + l) := by
  simp [appended, SymbolSource.anon_add]

theorem take_drop_reverse (l : List Sym) (n : Nat) :
    (l.reverse.drop (l.length - n)).reverse = l.take n ∧
    l.reverse.take (l.length - n) = (l.drop n).reverse := by
  constructor
  · rw [List.drop_reverse, List.reverse_reverse]
    by_cases h : n ≤ l.length
    · rw [show l.length - (l.length - n) = n by omega]
    · rw [show l.length - (l.length - n) = l.length by omega, List.take_length,
        List.take_of_length_le (by omega)]
  · rw [List.take_reverse]
    by_cases h : n ≤ l.length
    · rw [show l.length - (l.length - n) = n by omega]
    · rw [show l.length - (l.length - n) = l.length by omega, List.drop_length,
        List.drop_of_length_le (by omega)]

/-- One iteration of the loop, last part. -/
theorem addRuleLoop_last (rule : CfgRule) (fuel : Nat) (g : Cfg) (rhs : List Sym)
    (parts : Nat) (hne : rhs ≠ []) (hle : rhs.length ≤ g.rhsLenEnd) (h : History)
    (hh : (if parts = 0 ∨ g.rhsLenEnd ≠ 2 then Res.ok rule.history
        else processLinked (.binarize parts rule.rhs.length true) rule.history) = .ok h) :
    addRuleLoop rule (fuel + 1) g rhs.reverse parts
      = .ok (g.pushRule ⟨rule.lhs, rhs, h⟩, parts + 1) := by
  obtain ⟨e1, e2⟩ := take_drop_reverse rhs g.rhsLenEnd
  have e3 : rhs.reverse.isEmpty = false := by simpa using hne
  have e4 : rhs.drop g.rhsLenEnd = [] := List.drop_of_length_le hle
  have e5 : rhs.take g.rhsLenEnd = rhs := List.take_of_length_le hle
  rw [e4] at e2
  rw [e5] at e1
  rw [addRuleLoop.eq_def]
  simp only [e3, List.length_reverse, e1, e2, List.reverse_nil, List.isEmpty_nil, if_true,
    Bool.false_eq_true, if_false, and_true, Res.bind_ok]
  split at hh
  · rename_i hc
    cases hh
    rw [if_pos hc, addRuleLoop.eq_def]
    simp
  · rename_i hc
    rw [if_neg hc, hh, Res.bind_ok, addRuleLoop.eq_def]
    simp

/-- One iteration of the loop, not the last part. -/
theorem addRuleLoop_more (rule : CfgRule) (fuel : Nat) (g : Cfg) (rhs : List Sym)
    (parts : Nat) (hlt : g.rhsLenEnd < rhs.length) (h : History)
    (hh : (if g.rhsLenEnd ≠ 2 then Res.ok rule.history
        else processLinked (.binarize parts rule.rhs.length false) rule.history) = .ok h) :
    addRuleLoop rule (fuel + 1) g rhs.reverse parts
      = addRuleLoop rule fuel (g.appended [⟨g.numSyms, rhs.take g.rhsLenEnd, h⟩] 1)
          (g.numSyms :: rhs.drop g.rhsLenEnd).reverse (parts + 1) := by
  obtain ⟨e1, e2⟩ := take_drop_reverse rhs g.rhsLenEnd
  have hne : rhs ≠ [] := by rintro rfl; simp at hlt
  have e3 : rhs.reverse.isEmpty = false := by simpa using hne
  have e4 : (rhs.drop g.rhsLenEnd).reverse.isEmpty = false := by simpa using hlt
  have e6 : ({ g with src := g.src.anon 1 } : Cfg).rhsLenEnd = g.rhsLenEnd := rfl
  conv_lhs => rw [addRuleLoop.eq_def]
  have e5 : ((rhs.drop g.rhsLenEnd).reverse ++ [g.numSyms]).isEmpty = false := by simp
  simp only [e3, List.length_reverse, e1, e2, e4, Bool.false_eq_true, if_false, nextSym_none,
    e5, and_false, false_or, e6, Res.bind_ok, List.reverse_cons]
  split at hh
  · rename_i hc
    cases hh
    rw [if_pos hc]
    rfl
  · rename_i hc
    rw [if_neg hc, hh, Res.bind_ok]
    rfl

theorem binarize_ok {h : History} {height fullLen : Nat} {top : Bool}
    (hh : top = false → 2 + height ≤ fullLen) :
    ∃ h', processLinked (.binarize height fullLen top) h = .ok h' := by
  unfold processLinked History.binarize
  cases top
  · have := hh rfl
    simp only [Bool.false_eq_true, if_false, Nat.not_lt.2 this]
    exact ⟨_, rfl⟩
  · simp only [if_true]
    split
    · exact ⟨_, rfl⟩
    · split <;> exact ⟨_, rfl⟩

/-- The histories of the parts, numbered from `parts`. -/
def HistSpec (rule : CfgRule) (n parts : Nat) (rs : List CfgRule) : Prop :=
  ∀ (i : Nat) r, rs[i]? = some r →
    if (parts = 0 ∧ rs.length = 1) ∨ n ≠ 2 then r.history = rule.history
    else processLinked (.binarize (parts + i) rule.rhs.length (decide (i + 1 = rs.length)))
      rule.history = .ok r.history

theorem addRuleLoop_spec (rule : CfgRule) (n : Nat) (hn : 2 ≤ n) (fuel : Nat) (g : Cfg)
    (hg : g.rhsLenEnd = n) (rhs : List Sym) (hne : rhs ≠ []) (parts : Nat)
    (hfuel : rhs.length ≤ fuel) (hfull : n = 2 → rhs.length + parts = rule.rhs.length)
    (h0 : parts = 0 → rhs = rule.rhs) :
    ∃ rs, addRuleLoop rule fuel g rhs.reverse parts
        = .ok (g.appended rs (rs.length - 1), parts + rs.length) ∧
      Chain n rule.lhs g.numSyms rhs rs ∧ (parts = 0 → rhs.length ≤ n → rs = [rule]) ∧
      HistSpec rule n parts rs := by
  induction fuel generalizing g rhs parts with
  | zero => exact absurd (List.length_eq_zero_iff.1 (by omega)) hne
  | succ fuel ih =>
    by_cases hle : rhs.length ≤ n
    · obtain ⟨h, hh⟩ : ∃ h, (if parts = 0 ∨ g.rhsLenEnd ≠ 2 then Res.ok rule.history
          else processLinked (.binarize parts rule.rhs.length true) rule.history) = .ok h := by
        split
        · exact ⟨_, rfl⟩
        · exact binarize_ok (by simp)
      refine ⟨[⟨rule.lhs, rhs, h⟩], ?_, .last hle rfl rfl, ?_, ?_⟩
      · rw [addRuleLoop_last rule fuel g rhs parts hne (hg ▸ hle) h hh]
        simp [appended, pushRule, SymbolSource.anon_zero]
      · intro hp _
        simp only [hp, true_or, if_true, Res.ok.injEq] at hh
        rw [h0 hp, ← hh]
      · intro i r hir
        rcases i with _ | i
        · simp at hir
          subst hir
          rw [hg] at hh
          by_cases hc : parts = 0 ∨ n ≠ 2
          · rw [if_pos hc] at hh
            cases hh
            rw [if_pos (by simpa using hc)]
          · rw [if_neg hc] at hh
            rw [if_neg (by simpa using hc)]
            simpa using hh
        · simp at hir
    · obtain ⟨h, hh⟩ : ∃ h, (if g.rhsLenEnd ≠ 2 then Res.ok rule.history
          else processLinked (.binarize parts rule.rhs.length false) rule.history) = .ok h := by
        split
        · exact ⟨_, rfl⟩
        · rename_i h2
          have := hfull (by omega)
          exact binarize_ok fun _ => by omega
      rw [addRuleLoop_more rule fuel g rhs parts (by omega) h hh, hg]
      have hlen : (g.numSyms :: rhs.drop n).length = rhs.length - n + 1 := by simp
      obtain ⟨rs, h1, h2, -, h3⟩ := ih (g.appended [⟨g.numSyms, rhs.take n, h⟩] 1) hg
        (g.numSyms :: rhs.drop n) (by simp) (parts + 1) (by rw [hlen]; omega)
        (fun e => by have := hfull e; rw [hlen]; omega) (by omega)
      refine ⟨⟨g.numSyms, rhs.take n, h⟩ :: rs, ?_, ?_, fun _ h => absurd h hle, ?_⟩
      · rw [h1, appended_appended]
        have := h2.ne_nil
        simp only [List.length_cons, List.cons_append, List.nil_append, Res.ok.injEq,
          Prod.mk.injEq]
        exact ⟨by rw [show 1 + (rs.length - 1) = rs.length + 1 - 1 by omega], by omega⟩
      · exact .more (by omega) rfl rfl h2
      · have hpos := h2.ne_nil
        rw [hg] at hh
        intro i r hir
        rw [List.length_cons]
        rcases i with _ | i
        · simp at hir
          subst hir
          by_cases hc : n ≠ 2
          · rw [if_pos hc] at hh
            cases hh
            rw [if_pos (.inr hc)]
          · rw [if_neg hc] at hh
            rw [if_neg (by omega)]
            rw [← hh]
            have : decide (0 + 1 = rs.length + 1) = false := decide_eq_false (by omega)
            rw [this, Nat.add_zero]
        · rw [List.getElem?_cons_succ] at hir
          have := h3 i r hir
          by_cases hc : n ≠ 2
          · rw [if_pos (.inr hc)] at this ⊢
            exact this
          · rw [if_neg (by omega)] at this ⊢
            rw [← this, show parts + 1 + i = parts + (i + 1) by omega]
            congr 2
            simp

/-- `add_rule` under a limit `n ≥ 2`. -/
theorem addRule_spec (g : Cfg) (rule : CfgRule) (n : Nat) (hn : 2 ≤ n)
    (hg : g.rhsLenInvariant = some n) :
    ∃ rs, g.addRule rule = .ok (g.appended rs (rs.length - 1), rs.length) ∧
      Chain n rule.lhs g.numSyms rule.rhs rs ∧ (rule.rhs.length ≤ n → rs = [rule]) ∧
      HistSpec rule n 0 rs := by
  unfold addRule
  by_cases hlt : rule.rhs.length < n
  · have : g.rhsLenAllowed rule.rhs.length = true := by simp [rhsLenAllowed, hg, hlt]
    rw [if_pos this]
    refine ⟨[rule], ?_, .last (by omega) rfl rfl, fun _ => rfl, ?_⟩
    · simp [appended, pushRule, SymbolSource.anon_zero]
    · intro i r hir
      rcases i with _ | i
      · simp at hir; subst hir; simp
      · simp at hir
  · have : ¬ g.rhsLenAllowed rule.rhs.length = true := by simp [rhsLenAllowed, hg, hlt]
    rw [if_neg this]
    have hend : g.rhsLenEnd = n := by simp [rhsLenEnd, hg]
    obtain ⟨rs, h1, h2, h3, h4⟩ := addRuleLoop_spec rule n hn (rule.rhs.length + 1) g hend
      rule.rhs (by intro h; rw [h] at hlt; simp at hlt; omega) 0 (by omega) (fun _ => by omega)
      (fun _ => rfl)
    exact ⟨rs, by simpa using h1, h2, h3 rfl, h4⟩

/-- `add_rule` without a limit. -/
theorem addRule_none (g : Cfg) (rule : CfgRule) (hg : g.rhsLenInvariant = none) :
    g.addRule rule = .ok (g.appended [rule] 0, 1) := by
  simp [addRule, rhsLenAllowed, hg, appended, pushRule, SymbolSource.anon_zero]

/-- The limit is absent or at least two. -/
def LimitOk (g : Cfg) : Prop := ∀ n, g.rhsLenInvariant = some n → 2 ≤ n

instance (g : Cfg) : Decidable g.LimitOk :=
  match h : g.rhsLenInvariant with
  | none => .isTrue (by intro n hn; simp [h] at hn)
  | some m => if hm : 2 ≤ m then .isTrue (by intro n hn; rw [h] at hn; cases hn; exact hm)
    else .isFalse (fun H => hm (H m h))

/-! ### Chains and derivations -/

theorem Chain.der {n : Nat} {lhs : Sym} {f : Nat} {rhs : List Sym} {rs : List CfgRule}
    (h : Chain n lhs f rhs rs) (P : Productions) (hP : ∀ r ∈ rs, P r.lhs r.rhs) :
    Der P [lhs] rhs := by
  induction h with
  | @last f rhs r _ e1 e2 =>
    have := hP r (by simp)
    rw [e1, e2] at this
    exact .prod this
  | @more f rhs r rs hlt e1 e2 _ ih =>
    have h1 := ih fun r' hr' => hP r' (by simp [hr'])
    have h2 := hP r (by simp)
    rw [e1, e2] at h2
    have h3 : Der P (f :: rhs.drop n) (rhs.take n ++ rhs.drop n) :=
      (Der.prod h2).append (.refl _)
    rw [List.take_append_drop] at h3
    exact h1.trans h3

theorem flatMap_congr_mem {h h' : Sym → List Sym} {l : List Sym} (H : ∀ x ∈ l, h x = h' x) :
    l.flatMap h = l.flatMap h' := by
  induction l with
  | nil => rfl
  | cons a l ih =>
    simp only [List.flatMap_cons]
    rw [H a (by simp), ih fun x hx => H x (by simp [hx])]

theorem Chain.hom {n : Nat} {lhs : Sym} {f : Nat} {rhs : List Sym} {rs : List CfgRule}
    (h : Chain n lhs f rhs rs) (h₀ : Sym → List Sym) (hr : ∀ x ∈ rhs, x < f) :
    ∃ k : Sym → List Sym, (∀ x, x < f → k x = h₀ x) ∧
      ∀ r ∈ rs, (r.lhs = lhs ∧ r.rhs.flatMap k = rhs.flatMap h₀) ∨
        k r.lhs = r.rhs.flatMap k := by
  induction h generalizing h₀ with
  | @last f rhs r _ e1 e2 =>
    refine ⟨h₀, fun _ _ => rfl, fun r' hr' => ?_⟩
    rw [List.mem_singleton] at hr'
    subst hr'
    exact .inl ⟨e1, by rw [e2]⟩
  | @more f rhs r rs hlt e1 e2 _ ih =>
    obtain ⟨k, hk1, hk2⟩ := ih (fun x => if x = f then (rhs.take n).flatMap h₀ else h₀ x) (by
      intro x hx
      rcases List.mem_cons.1 hx with rfl | hx
      · omega
      · have := hr x (List.mem_of_mem_drop hx); omega)
    have hk : ∀ x, x < f → k x = h₀ x := by
      intro x hx
      rw [hk1 x (by omega), if_neg (by omega)]
    refine ⟨k, hk, fun r' hr' => ?_⟩
    rcases List.mem_cons.1 hr' with rfl | hr'
    · right
      rw [e1, e2, hk1 f (by omega), if_pos rfl]
      exact flatMap_congr_mem fun x hx => (hk x (hr x (List.mem_of_mem_take hx))).symm
    · rcases hk2 r' hr' with ⟨e3, e4⟩ | e
      · refine .inl ⟨e3, ?_⟩
        rw [e4, List.flatMap_cons, if_pos rfl]
        rw [flatMap_congr_mem (h' := h₀) (l := rhs.drop n) fun x hx => by
          rw [if_neg (by have := hr x (List.mem_of_mem_drop hx); omega)]]
        rw [← List.flatMap_append, List.take_append_drop]
      · exact .inr e

theorem Chain.bounds {n : Nat} {lhs : Sym} {f : Nat} {rhs : List Sym} {rs : List CfgRule}
    (h : Chain n lhs f rhs rs) (N : Nat) (hN : f + (rs.length - 1) ≤ N) (hl : lhs < N)
    (hr : ∀ x ∈ rhs, x < N) :
    ∀ r ∈ rs, (r.lhs = lhs ∨ f ≤ r.lhs) ∧ r.lhs < N ∧ ∀ x ∈ r.rhs, x < N := by
  induction h with
  | @last f rhs r _ e1 e2 =>
    intro r' hr'
    rw [List.mem_singleton] at hr'
    subst hr'
    rw [e1, e2]
    exact ⟨.inl rfl, hl, hr⟩
  | @more f rhs r rs hlt e1 e2 hc ih =>
    have := hc.ne_nil
    simp only [List.length_cons] at hN
    intro r' hr'
    rcases List.mem_cons.1 hr' with rfl | hr'
    · rw [e1, e2]
      exact ⟨.inr (Nat.le_refl _), by omega, fun x hx => hr x (List.mem_of_mem_take hx)⟩
    · obtain ⟨h1, h2⟩ := ih (by omega) (by
        intro x hx
        rcases List.mem_cons.1 hx with rfl | hx
        · omega
        · exact hr x (List.mem_of_mem_drop hx)) r' hr'
      exact ⟨h1.imp id (by omega), h2⟩

theorem Chain.len {n : Nat} {lhs : Sym} {f : Nat} {rhs : List Sym} {rs : List CfgRule}
    (h : Chain n lhs f rhs rs) : ∀ r ∈ rs, r.rhs.length ≤ n := by
  induction h with
  | @last f rhs r hle e1 e2 =>
    intro r' hr'
    rw [List.mem_singleton] at hr'
    subst hr'
    rw [e2]; exact hle
  | @more f rhs r rs hlt e1 e2 hc ih =>
    intro r' hr'
    rcases List.mem_cons.1 hr' with rfl | hr'
    · rw [e2, List.length_take]; omega
    · exact ih r' hr'

theorem Chain.lhs_iff {n : Nat} {lhs : Sym} {f : Nat} {rhs : List Sym} {rs : List CfgRule}
    (h : Chain n lhs f rhs rs) (a : Sym) :
    (∃ r ∈ rs, r.lhs = a) ↔ a = lhs ∨ (f ≤ a ∧ a < f + (rs.length - 1)) := by
  induction h with
  | @last f rhs r hle e1 e2 =>
    simp only [List.mem_singleton, exists_eq_left, e1, List.length_singleton]
    omega
  | @more f rhs r rs hlt e1 e2 hc ih =>
    have := hc.ne_nil
    simp only [List.mem_cons, exists_eq_or_imp, ih, e1, List.length_cons]
    omega

/-! ### Language transfer -/

/-- The grammar `g` defines, for symbols below `N`, the same derivations as `P`; symbols from
`N` on abbreviate strings of smaller symbols. -/
structure SplitInv (N : Nat) (P : Productions) (g : Cfg) : Prop where
  wf : g.WF
  le : N ≤ g.numSyms
  fwd : ∀ A α, P A α → Der g.prod [A] α
  bwd : ∃ h : Sym → List Sym, (∀ x, x < N → h x = [x]) ∧
    ∀ r ∈ g.rules, Der P (h r.lhs) (r.rhs.flatMap h)
  lhs : ∀ a, (∃ r ∈ g.rules, r.lhs = a) ↔ (∃ α, P a α) ∨ (N ≤ a ∧ a < g.numSyms)

theorem SplitInv.refl {g : Cfg} (h : g.WF) : SplitInv g.numSyms g.prod g := by
  refine ⟨h, Nat.le_refl _, fun A α hp => .prod hp, ⟨fun x => [x], fun _ _ => rfl, ?_⟩, ?_⟩
  · intro r hr
    simpa using Der.prod (P := g.prod) (A := r.lhs) (α := r.rhs) ⟨r, hr, rfl, rfl⟩
  · intro a
    constructor
    · rintro ⟨r, hr, rfl⟩; exact .inl ⟨r.rhs, r, hr, rfl, rfl⟩
    · rintro (⟨α, r, hr, e, -⟩ | h)
      · exact ⟨r, hr, e⟩
      · omega

theorem flatMap_single_of_lt {N : Nat} {h : Sym → List Sym} (hh : ∀ x, x < N → h x = [x])
    {w : List Sym} (hw : ∀ x ∈ w, x < N) : w.flatMap h = w := by
  rw [flatMap_congr_mem (h' := fun x => [x]) fun x hx => hh x (hw x hx)]
  simp

theorem SplitInv.derives {N : Nat} {P : Productions} {g : Cfg} (hi : SplitInv N P g)
    {A : Sym} (hA : A < N) {w : List Sym} (hw : ∀ x ∈ w, x < N) :
    Derives g.prod [A] w ↔ Derives P [A] w := by
  rw [derives_iff_der, derives_iff_der]
  constructor
  · intro d
    obtain ⟨h, h1, h2⟩ := hi.bwd
    have := Der.map (Q := P) h (fun A α ⟨r, hr, e1, e2⟩ => by rw [← e1, ← e2]; exact h2 r hr) d
    rw [flatMap_single_of_lt h1 hw, flatMap_single_of_lt h1 (by simpa using hA)] at this
    exact this
  · exact Der.mono' hi.fwd

theorem SplitInv.term {N : Nat} {P : Productions} {g : Cfg} (hi : SplitInv N P g) (a : Sym) :
    g.Term a ↔ a < N ∧ ∀ α, ¬ P a α := by
  have h1 := hi.lhs a
  have h2 := hi.le
  unfold Term
  constructor
  · rintro ⟨h3, h4⟩
    have h5 : ¬ ∃ r ∈ g.rules, r.lhs = a := by rintro ⟨r, hr, e⟩; exact h4 r hr e
    rw [h1] at h5
    refine ⟨?_, fun α hα => h5 (.inl ⟨α, hα⟩)⟩
    by_contra h
    exact h5 (.inr ⟨by omega, h3⟩)
  · rintro ⟨h3, h4⟩
    refine ⟨by omega, fun r hr e => ?_⟩
    rcases h1.1 ⟨r, hr, e⟩ with ⟨α, h⟩ | h
    · exact h4 α h
    · omega

theorem SplitInv.inLang {N : Nat} {P : Productions} {g : Cfg} (hi : SplitInv N P g)
    {A : Sym} (hA : A < N) (w : List Sym) :
    g.Lang A w ↔ InLang P (fun a => a < N ∧ ∀ α, ¬ P a α) A w := by
  unfold Lang InLang
  constructor
  · rintro ⟨h1, h2⟩
    have h3 := fun a ha => (hi.term a).1 (h2 a ha)
    exact ⟨(hi.derives hA fun x hx => (h3 x hx).1).1 h1, h3⟩
  · rintro ⟨h1, h2⟩
    exact ⟨(hi.derives hA fun x hx => (h2 x hx).1).2 h1, fun a ha => (hi.term a).2 (h2 a ha)⟩

theorem term_iff_prod {g : Cfg} (a : Sym) :
    g.Term a ↔ a < g.numSyms ∧ ∀ α, ¬ g.prod a α := by
  unfold Term
  constructor
  · rintro ⟨h1, h2⟩
    exact ⟨h1, fun α ⟨r, hr, e, _⟩ => h2 r hr e⟩
  · rintro ⟨h1, h2⟩
    exact ⟨h1, fun r hr e => h2 r.rhs ⟨r, hr, e, rfl⟩⟩

/-- Productions extended by one rule. -/
def addProd (P : Productions) (rule : CfgRule) : Productions :=
  fun A α => P A α ∨ (A = rule.lhs ∧ α = rule.rhs)

theorem SplitInv.appended {N : Nat} {P : Productions} {g : Cfg} (hi : SplitInv N P g)
    {n : Nat} {rule : CfgRule} (hl : rule.lhs < N) (hr : ∀ x ∈ rule.rhs, x < N)
    {rs : List CfgRule} (hc : Chain n rule.lhs g.numSyms rule.rhs rs) :
    SplitInv N (addProd P rule) (g.appended rs (rs.length - 1)) := by
  have hn : (g.appended rs (rs.length - 1)).numSyms = g.numSyms + (rs.length - 1) := rfl
  have hle := hi.le
  refine ⟨?_, by omega, ?_, ?_, ?_⟩
  · intro r hrm
    rw [hn]
    rcases List.mem_append.1 hrm with hrm | hrm
    · obtain ⟨h1, h2⟩ := hi.wf r hrm
      exact ⟨by omega, fun s hs => by have := h2 s hs; omega⟩
    · exact (hc.bounds _ (Nat.le_refl _) (by omega) (fun x hx => by
        have := hr x hx; omega) r hrm).2
  · rintro A α (hp | ⟨rfl, rfl⟩)
    · refine (hi.fwd A α hp).mono ?_
      rintro A α ⟨r, hr, e⟩
      exact ⟨r, List.mem_append.2 (.inl hr), e⟩
    · exact hc.der _ fun r hr => ⟨r, List.mem_append.2 (.inr hr), rfl, rfl⟩
  · obtain ⟨h, h1, h2⟩ := hi.bwd
    obtain ⟨k, hk1, hk2⟩ := hc.hom h (fun x hx => by have := hr x hx; omega)
    refine ⟨k, fun x hx => by rw [hk1 x (by omega), h1 x hx], fun r hrm => ?_⟩
    rcases List.mem_append.1 hrm with hrm | hrm
    · obtain ⟨h3, h4⟩ := hi.wf r hrm
      rw [hk1 _ h3, flatMap_congr_mem fun x hx => hk1 x (h4 x hx)]
      exact (h2 r hrm).mono fun A α => .inl
    · rcases hk2 r hrm with ⟨e1, e2⟩ | e
      · rw [e1, e2, hk1 _ (by omega), h1 _ hl, flatMap_single_of_lt h1 hr]
        exact .prod (.inr ⟨rfl, rfl⟩)
      · rw [e]; exact .refl _
  · intro a
    have e1 : (∃ r ∈ (g.appended rs (rs.length - 1)).rules, r.lhs = a) ↔
        (∃ r ∈ g.rules, r.lhs = a) ∨ ∃ r ∈ rs, r.lhs = a := by
      simp only [Cfg.appended, List.mem_append, or_and_right, exists_or]
    have e2 : (∃ α, addProd P rule a α) ↔ (∃ α, P a α) ∨ a = rule.lhs := by
      constructor
      · rintro ⟨α, h | ⟨h, -⟩⟩
        exacts [.inl ⟨α, h⟩, .inr h]
      · rintro (⟨α, h⟩ | h)
        exacts [⟨α, .inl h⟩, ⟨rule.rhs, .inr ⟨h, rfl⟩⟩]
    rw [e1, e2, hi.lhs, hc.lhs_iff, hn]
    constructor
    · rintro ((h | h) | h | h)
      · exact .inl (.inl h)
      · exact .inr (by omega)
      · exact .inl (.inr h)
      · exact .inr (by omega)
    · rintro ((h | h) | h)
      · exact .inl (.inl h)
      · exact .inr (.inl h)
      · by_cases e : a < g.numSyms
        · exact .inl (.inr ⟨h.1, e⟩)
        · exact .inr (.inr (by omega))

theorem SplitInv.congr {N : Nat} {P Q : Productions} {g : Cfg} (hi : SplitInv N P g)
    (h : ∀ A α, P A α ↔ Q A α) : SplitInv N Q g := by
  have : P = Q := by funext A α; exact propext (h A α)
  exact this ▸ hi

theorem addRule_inv {N : Nat} {P : Productions} {g : Cfg} (hi : SplitInv N P g)
    (hlim : g.LimitOk) (rule : CfgRule) (hl : rule.lhs < N) (hr : ∀ x ∈ rule.rhs, x < N) :
    ∃ g' k, g.addRule rule = .ok (g', k) ∧ SplitInv N (addProd P rule) g' ∧
      g'.rhsLenInvariant = g.rhsLenInvariant ∧ g'.roots = g.roots ∧
      g'.wrappedRoots = g.wrappedRoots ∧ g.numSyms ≤ g'.numSyms ∧
      (∃ rs, g'.rules = g.rules ++ rs ∧ k = rs.length) := by
  cases e : g.rhsLenInvariant with
  | none =>
    refine ⟨_, _, addRule_none g rule e, ?_, e, rfl, rfl, Nat.le_refl _, [rule], rfl, rfl⟩
    exact hi.appended (n := rule.rhs.length) hl hr (rs := [rule]) (.last (Nat.le_refl _) rfl rfl)
  | some n =>
    obtain ⟨rs, h1, h2, -⟩ := addRule_spec g rule n (hlim n e) e
    exact ⟨_, _, h1, hi.appended hl hr h2, e, rfl, rfl,
      Nat.le_add_right _ _, rs, rfl, rfl⟩

/-- `addRules` under an admissible limit. -/
theorem addRules_inv {N : Nat} {P : Productions} (rules : List CfgRule) {g : Cfg}
    (hi : SplitInv N P g) (hlim : g.LimitOk)
    (hr : ∀ r ∈ rules, r.lhs < N ∧ ∀ x ∈ r.rhs, x < N) :
    ∃ g', g.addRules rules = .ok g' ∧
      SplitInv N (fun A α => P A α ∨ ∃ r ∈ rules, r.lhs = A ∧ r.rhs = α) g' ∧
      g'.rhsLenInvariant = g.rhsLenInvariant ∧ g'.roots = g.roots ∧
      g'.wrappedRoots = g.wrappedRoots ∧ g.numSyms ≤ g'.numSyms := by
  induction rules generalizing P g with
  | nil => exact ⟨g, rfl, hi.congr (by simp), rfl, rfl, rfl, Nat.le_refl _⟩
  | cons r rules ih =>
    obtain ⟨g₁, k, h1, h2, h3, h4, h5, h6, -⟩ := addRule_inv hi hlim r (hr r (by simp)).1
      (hr r (by simp)).2
    obtain ⟨g', h1', h2', h3', h4', h5', h6'⟩ := ih h2 (by unfold LimitOk; rw [h3]; exact hlim)
      (fun r' hr' => hr r' (by simp [hr']))
    refine ⟨g', ?_, h2'.congr fun A α => ?_, h3'.trans h3, h4'.trans h4, h5'.trans h5,
      by omega⟩
    · unfold addRules at h1' ⊢
      rw [List.foldlM_cons, h1]
      exact h1'
    · unfold addProd
      simp only [List.mem_cons, exists_eq_or_imp]
      constructor
      · rintro ((h | ⟨rfl, rfl⟩) | h)
        · exact .inl h
        · exact .inr (.inl ⟨rfl, rfl⟩)
        · exact .inr (.inr h)
      · rintro (h | ⟨rfl, rfl⟩ | h)
        · exact .inl (.inl h)
        · exact .inl (.inr ⟨rfl, rfl⟩)
        · exact .inr h

theorem limitRhsLen_inv (g : Cfg) (hwf : g.WF) (limit : Option Nat)
    (hlim : ∀ n, limit = some n → 2 ≤ n) :
    ∃ g', g.limitRhsLen limit = .ok g' ∧ SplitInv g.numSyms g.prod g' ∧
      g'.rhsLenInvariant = limit ∧ g'.roots = g.roots ∧ g'.wrappedRoots = g.wrappedRoots := by
  have h0 : SplitInv g.numSyms (fun _ _ => False)
      { g with rhsLenInvariant := limit, rules := [] } :=
    ⟨by intro r hr; simp at hr, Nat.le_refl _, fun _ _ h => h.elim, ⟨fun x => [x],
      fun _ _ => rfl, by simp⟩, fun a => by
        have : ¬ (g.numSyms ≤ a ∧ a < g.numSyms) := by omega
        simp [numSyms] at this ⊢⟩
  obtain ⟨g', h1, h2, h3, h4, h5, -⟩ := addRules_inv g.rules h0 hlim hwf
  exact ⟨g', h1, h2.congr (by simp [prod]), h3, h4, h5⟩

/-! ### Lengths -/

theorem addRules_len {n : Nat} (hn : 2 ≤ n) (rules : List CfgRule) {g : Cfg}
    (hg : g.rhsLenInvariant = some n) (hb : ∀ r ∈ g.rules, r.rhs.length ≤ n) :
    ∃ g', g.addRules rules = .ok g' ∧ g'.rhsLenInvariant = some n ∧
      (∀ r ∈ g'.rules, r.rhs.length ≤ n) ∧
      ((∀ r ∈ rules, r.rhs.length ≤ n) → g' = { g with rules := g.rules ++ rules }) := by
  induction rules generalizing g with
  | nil => exact ⟨g, rfl, hg, hb, fun _ => by simp⟩
  | cons r rules ih =>
    obtain ⟨rs, h1, h2, h3, -⟩ := addRule_spec g r n hn hg
    obtain ⟨g', h4, h5, h6, h7⟩ := ih (g := g.appended rs (rs.length - 1)) hg (by
      intro r' hr'
      rcases List.mem_append.1 hr' with h | h
      · exact hb r' h
      · exact h2.len r' h)
    refine ⟨g', ?_, h5, h6, fun hall => ?_⟩
    · unfold addRules at h4 ⊢
      rw [List.foldlM_cons, h1]
      exact h4
    · rw [h7 fun r' hr' => hall r' (by simp [hr']), h3 (hall r (by simp))]
      simp [appended, SymbolSource.anon_zero]

/-! ### Wrapping -/

/-- The grammar after the three symbols of `wrap_input` were taken. -/
def wrapSyms (g : Cfg) : Cfg :=
  { g with src := ⟨g.src.numSyms + 3,
      g.src.names ++ [some "root", some "start_of_input", some "end_of_input"]⟩ }

/-- The rule added by `wrap_input` for the root `r`. -/
def wrapRule (g : Cfg) (r : Sym) : CfgRule :=
  ⟨g.numSyms, [g.numSyms + 1, r, g.numSyms + 2], History.ofRoot (.rule g.numSyms)⟩

/-- The bookkeeping at the end of an iteration of `wrap_input`. -/
def wrapRecord (g g' : Cfg) (r : Sym) : Cfg :=
  { g' with
    wrappedRoots := g'.wrappedRoots ++ [⟨g.numSyms + 1, r, g.numSyms + 2, g.numSyms⟩]
    roots := g'.roots ++ [g.numSyms] }

theorem wrapOne_eq (g : Cfg) (r : Sym) :
    g.wrapOne r = (g.wrapSyms.addRule (g.wrapRule r) >>= fun p => .ok (wrapRecord g p.1 r)) := by
  unfold wrapOne
  simp only [nextSym, SymbolSource.nextSym]
  simp only [List.append_assoc, List.cons_append, List.nil_append]
  rfl

/-! ### Shape -/

/-- The left-nested chain made from the pieces `c₀, cs`: `f ::= c₀`, `f+1 ::= f c₁`, …, and
the last part has the original left side. -/
def chainSpec (lhs : Sym) : Nat → List Sym → List (List Sym) → List (Sym × List Sym)
  | _, c₀, [] => [(lhs, c₀)]
  | f, c₀, c :: cs => (f, c₀) :: chainSpec lhs (f + 1) (f :: c) cs

theorem Chain.shape {n : Nat} {lhs : Sym} {f : Nat} {rhs : List Sym} {rs : List CfgRule}
    (h : Chain n lhs f rhs rs) (hn : 2 ≤ n) :
    ∃ c₀ cs, rhs = c₀ ++ cs.flatten ∧
      rs.map (fun r => (r.lhs, r.rhs)) = chainSpec lhs f c₀ cs ∧
      (rhs.length ≤ n → cs = []) ∧ (n < rhs.length → c₀.length = n ∧ cs ≠ []) ∧
      (∀ c ∈ cs, 1 ≤ c.length ∧ c.length ≤ n - 1) ∧ (∀ c ∈ cs.dropLast, c.length = n - 1) ∧
      rs.length = cs.length + 1 := by
  induction h with
  | @last f rhs r hle e1 e2 =>
    exact ⟨rhs, [], by simp, by simp [chainSpec, e1, e2], fun _ => rfl,
      fun h => absurd h (by omega), by simp, by simp, rfl⟩
  | @more f rhs r rs hlt e1 e2 hc ih =>
    obtain ⟨c₀, cs, h1, h2, h3, h4, h5, h6, h7⟩ := ih
    have hdl : (rhs.drop n).length = rhs.length - n := by simp
    have hlen' : (f :: rhs.drop n).length = rhs.length - n + 1 := by simp
    obtain ⟨c, rfl⟩ : ∃ c, c₀ = f :: c := by
      cases c₀ with
      | nil =>
        by_cases hle : (f :: rhs.drop n).length ≤ n
        · rw [h3 hle] at h1; simp at h1
        · have := (h4 (by omega)).1; simp at this; omega
      | cons a c =>
        simp only [List.cons_append, List.cons.injEq] at h1
        exact ⟨c, by rw [h1.1]⟩
    simp only [List.cons_append, List.cons.injEq, true_and] at h1
    refine ⟨rhs.take n, c :: cs, ?_, ?_, fun h => absurd h (by omega), fun _ => ⟨?_, by simp⟩,
      ?_, ?_, by simp [h7]⟩
    · rw [List.flatten_cons, ← h1, List.take_append_drop]
    · simp only [List.map_cons, e1, e2, chainSpec, h2]
    · rw [List.length_take]; omega
    · intro c' hc'
      rcases List.mem_cons.1 hc' with rfl | hc'
      · by_cases hle : (f :: rhs.drop n).length ≤ n
        · have := h3 hle
          subst this
          simp only [List.flatten_nil, List.append_nil] at h1
          rw [← h1]
          omega
        · have := (h4 (by omega)).1
          simp only [List.length_cons] at this
          omega
      · exact h5 c' hc'
    · intro c' hc'
      cases cs with
      | nil => simp at hc'
      | cons d cs =>
        rw [List.dropLast_cons_of_ne_nil (by simp)] at hc'
        rcases List.mem_cons.1 hc' with rfl | hc'
        · by_cases hle : (f :: rhs.drop n).length ≤ n
          · have := h3 hle; simp at this
          · have := (h4 (by omega)).1
            simp only [List.length_cons] at this
            omega
        · exact h6 c' hc'

theorem Chain.count {n : Nat} {lhs : Sym} {f : Nat} {rhs : List Sym} {rs : List CfgRule}
    (h : Chain n lhs f rhs rs) (hn : 2 ≤ n) (hm : 2 ≤ rhs.length) :
    rhs.length - 1 ≤ rs.length * (n - 1) ∧ (rs.length - 1) * (n - 1) < rhs.length - 1 := by
  induction h with
  | @last f rhs r hle e1 e2 => simp; omega
  | @more f rhs r rs hlt e1 e2 hc ih =>
    have hlen' : (f :: rhs.drop n).length = rhs.length - n + 1 := by simp
    rw [hlen'] at ih
    obtain ⟨h1, h2⟩ := ih (by omega)
    have := hc.ne_nil
    rw [List.length_cons, Nat.add_sub_cancel, Nat.succ_mul]
    obtain ⟨k, hk⟩ : ∃ k, rs.length = k + 1 := ⟨rs.length - 1, by omega⟩
    rw [hk, Nat.add_sub_cancel] at h2
    rw [hk, Nat.succ_mul] at h1 ⊢
    omega

end Cfg

end Verif
