import Verif.Model.Nulling
import Verif.Proofs.Closure
import Verif.Proofs.Binarize
import Verif.Proofs.Basic

/-! # Helper lemmas on nulling-rule elimination -/

namespace Verif

variable {P : Productions}

/-! ## Derivations of nullable symbols -/

theorem Der.nullable_mem {u : List Sym} (d : Der P u []) : ∀ s ∈ u, Nullable P s := by
  generalize e : ([] : List Sym) = w at d
  induction d with
  | nil => simp
  | keep => simp at e
  | @expand A α x u v hp hx _ _ ihu =>
    obtain ⟨rfl, rfl⟩ : x = [] ∧ v = [] := by simpa using e.symm
    intro s hs
    rcases List.mem_cons.1 hs with rfl | hs
    · exact derives_iff_der.2 (Der.single_iff.2 (.inr ⟨α, hp, hx⟩))
    · exact ihu rfl s hs

theorem der_nil_of_nullable {u : List Sym} (h : ∀ s ∈ u, Nullable P s) : Der P u [] := by
  induction u with
  | nil => exact .nil
  | cons a u ih =>
    have h1 := derives_iff_der.1 (h a (by simp))
    have h2 := ih fun s hs => h s (by simp [hs])
    exact Der.append (u₁ := [a]) h1 h2

/-- The productions whose right side is wholly nullable. -/
def nullProds (P : Productions) : Productions := fun A α => P A α ∧ ∀ s ∈ α, Nullable P s

theorem nullable_nullProds (s : Sym) : Nullable (nullProds P) s ↔ Nullable P s := by
  constructor
  · exact Derives.mono fun A α h => h.1
  · intro h
    have key : ∀ {u w : List Sym}, Der P u w → w = [] → Der (nullProds P) u [] := by
      intro u w d
      induction d with
      | nil => intro _; exact .nil
      | keep => simp
      | @expand A α x u v hp hx _ ihx ihu =>
        intro e
        obtain ⟨rfl, rfl⟩ : x = [] ∧ v = [] := by simpa using e
        exact Der.expand (x := []) (v := []) ⟨hp, hx.nullable_mem⟩ (ihx rfl) (ihu rfl)
    exact derives_iff_der.2 (key (derives_iff_der.1 h) rfl)

/-! ## Erasing nullable symbols -/

/-- `u'` is `u` with some nullable symbols erased. -/
inductive Erase (N : Sym → Prop) : List Sym → List Sym → Prop
  | nil : Erase N [] []
  | keep (a : Sym) {u v : List Sym} : Erase N u v → Erase N (a :: u) (a :: v)
  | drop {a : Sym} {u v : List Sym} : N a → Erase N u v → Erase N (a :: u) v

/-- `β` arises from `α = [a, b]` by erasing one symbol. -/
def Shortened (N : Sym → Prop) (α β : List Sym) : Prop :=
  ∃ a b, α = [a, b] ∧ ((β = [a] ∧ N b) ∨ (β = [b] ∧ N a))

/-- The productions after the elimination, before the unproductive ones are dropped. -/
def elimProds (P : Productions) : Productions := fun A β =>
  (P A β ∨ ∃ α, P A α ∧ Shortened (Nullable P) α β) ∧ β ≠ []

theorem erase_short {N : Sym → Prop} {α β : List Sym} (h : Erase N α β) (hl : α.length ≤ 2)
    (hne : β ≠ []) : β = α ∨ Shortened N α β := by
  cases h with
  | nil => simp at hne
  | @keep a u v h =>
    cases h with
    | nil => exact .inl rfl
    | @keep b u' v' h' =>
      cases h' with
      | nil => exact .inl rfl
      | keep => simp at hl
      | drop => simp at hl
    | @drop b u' _ hb h' =>
      cases h' with
      | nil => exact .inr ⟨a, b, rfl, .inl ⟨rfl, hb⟩⟩
      | keep => simp at hl
      | drop => simp at hl
  | @drop a u _ ha h =>
    cases h with
    | nil => simp at hne
    | @keep b u' v' h' =>
      cases h' with
      | nil => exact .inr ⟨a, b, rfl, .inr ⟨rfl, ha⟩⟩
      | keep => simp at hl
      | drop => simp at hl
    | @drop b u' _ hb h' =>
      cases h' with
      | nil => simp at hne
      | keep => simp at hl
      | drop => simp at hl

/-- Without empty productions only the empty string derives the empty string. -/
theorem Der.eq_nil {Q : Productions} (hQ : ∀ A, ¬ Q A []) {u w : List Sym} (d : Der Q u w)
    (hw : w = []) : u = [] := by
  induction d with
  | nil => rfl
  | keep => simp at hw
  | @expand A α x u v hp _ _ ihx _ =>
    obtain ⟨rfl, -⟩ : x = [] ∧ v = [] := by simpa using hw
    rw [ihx rfl] at hp
    exact (hQ A hp).elim

theorem not_nullable_of_nonempty {Q : Productions} (hQ : ∀ A, ¬ Q A []) (s : Sym) :
    ¬ Nullable Q s := fun h => by
  have := Der.eq_nil hQ (derives_iff_der.1 h) rfl
  simp at this

theorem der_elim (h2 : ∀ A α, P A α → α.length ≤ 2) {u w : List Sym} (d : Der P u w) :
    ∃ u', Erase (Nullable P) u u' ∧ Der (elimProds P) u' w := by
  induction d with
  | nil => exact ⟨[], .nil, .nil⟩
  | keep a _ ih =>
    obtain ⟨u', h1, h2⟩ := ih
    exact ⟨a :: u', .keep a h1, .keep a h2⟩
  | @expand A α x u v hp hx _ ihx ihu =>
    obtain ⟨α', hα, dα⟩ := ihx
    obtain ⟨u', hu, du⟩ := ihu
    by_cases e : x = []
    · subst e
      have : Nullable P A := derives_iff_der.2 (Der.single_iff.2 (.inr ⟨α, hp, hx⟩))
      exact ⟨u', .drop this hu, by simpa using du⟩
    · have hne : α' ≠ [] := by
        rintro rfl
        cases dα
        exact e rfl
      refine ⟨A :: u', .keep A hu, .expand (α := α') ⟨?_, hne⟩ dα du⟩
      rcases erase_short hα (h2 A α hp) hne with rfl | h
      · exact .inl hp
      · exact .inr ⟨α, hp, h⟩

theorem elimProds_der {A : Sym} {β : List Sym} (h : elimProds P A β) : Der P [A] β := by
  obtain ⟨h | ⟨α, hp, a, b, rfl, h⟩, -⟩ := h
  · exact .prod h
  · refine (Der.prod hp).trans ?_
    rcases h with ⟨rfl, hb⟩ | ⟨rfl, ha⟩
    · exact Der.append (u₁ := [a]) (.refl _) (derives_iff_der.1 hb)
    · exact Der.append (u₁ := [a]) (v₁ := []) (derives_iff_der.1 ha) (.refl _)

/-- The elimination keeps the non-empty strings. -/
theorem derives_elim (h2 : ∀ A α, P A α → α.length ≤ 2) (A : Sym) {w : List Sym} (hw : w ≠ []) :
    Der (elimProds P) [A] w ↔ Der P [A] w := by
  constructor
  · exact Der.mono' fun A α h => elimProds_der h
  · intro d
    obtain ⟨u', h, d'⟩ := der_elim h2 d
    cases h with
    | keep _ h => cases h; exact d'
    | drop _ h => cases h; cases d'; exact (hw rfl).elim

/-! ## Productive symbols -/

theorem productive_closed {T : Sym → Prop} {A : Sym} {α : List Sym} (hp : P A α)
    (h : ∀ s ∈ α, Productive P T s) : Productive P T A := by
  have : ∃ w, Der P α w ∧ ∀ a ∈ w, T a := by
    clear hp
    induction α with
    | nil => exact ⟨[], .nil, by simp⟩
    | cons a α ih =>
      obtain ⟨w₁, h1, h2⟩ := h a (by simp)
      obtain ⟨w₂, h3, h4⟩ := ih fun s hs => h s (by simp [hs])
      refine ⟨w₁ ++ w₂, Der.append (u₁ := [a]) (derives_iff_der.1 h1) h3, fun x hx => ?_⟩
      rcases List.mem_append.1 hx with hx | hx
      · exact h2 x hx
      · exact h4 x hx
  obtain ⟨w, h1, h2⟩ := this
  exact ⟨w, derives_iff_der.2 (Der.single_iff.2 (.inr ⟨α, hp, h1⟩)), h2⟩

/-- The closure of the terminals and of the left sides of empty rules is the set of productive
symbols. -/
theorem least_productive {T R I : Sym → Prop} (hI : ∀ s, I s ↔ T s ∨ P s [])
    (h : IsLeast (ClosedAll P) I R) (s : Sym) : R s ↔ Productive P T s := by
  obtain ⟨h1, h2, h3⟩ := h
  constructor
  · refine h3 (Productive P T) (fun s hs => ?_) (fun A α hp _ hα => productive_closed hp hα) s
    rcases (hI s).1 hs with hs | hs
    · exact ⟨[s], .refl, by simpa using hs⟩
    · exact productive_closed hs (by simp)
  · rintro ⟨w, d, hw⟩
    have key : ∀ {u w : List Sym}, Der P u w → (∀ a ∈ w, T a) → ∀ s ∈ u, R s := by
      intro u w d
      induction d with
      | nil => simp
      | keep a _ ih =>
        intro hw s hs
        rcases List.mem_cons.1 hs with rfl | hs
        · exact h1 _ ((hI _).2 (.inl (hw _ (by simp))))
        · exact ih (fun a ha => hw a (by simp [ha])) s hs
      | @expand A α x u v hp _ _ ihx ihu =>
        intro hw s hs
        rcases List.mem_cons.1 hs with rfl | hs
        · have hα := ihx fun a ha => hw a (by simp [ha])
          by_cases e : α = []
          · subst e; exact h1 _ ((hI _).2 (.inr hp))
          · exact h2 _ α hp e hα
        · exact ihu (fun a ha => hw a (by simp [ha])) s hs
    exact key (derives_iff_der.1 d) hw s (by simp)

/-- Dropping the productions of unproductive symbols keeps the derivations of terminal strings. -/
theorem der_productive {T : Sym → Prop} {Q : Productions}
    (hQ : ∀ A α, Q A α ↔ P A α ∧ Productive P T A) {u w : List Sym} (hw : ∀ a ∈ w, T a) :
    Der Q u w ↔ Der P u w := by
  constructor
  · exact Der.mono fun A α h => ((hQ A α).1 h).1
  · intro d
    induction d with
    | nil => exact .nil
    | keep a _ ih => exact .keep a (ih fun a ha => hw a (by simp [ha]))
    | @expand A α x u v hp dx _ ihx ihu =>
      have hx : ∀ a ∈ x, T a := fun a ha => hw a (by simp [ha])
      refine .expand ((hQ A α).2 ⟨hp, x, ?_, hx⟩) (ihx hx) (ihu fun a ha => hw a (by simp [ha]))
      exact derives_iff_der.2 (Der.single_iff.2 (.inr ⟨α, hp, dx⟩))

/-! ## The code -/

theorem retainLhs_spec (b : BitSet) (rules : List CfgRule) (h : ∀ r ∈ rules, r.lhs < b.length) :
    retainLhs b rules = .ok (rules.filter fun r => decide (Has b r.lhs)) := by
  induction rules with
  | nil => rfl
  | cons r rs ih =>
    unfold retainLhs
    rw [get_has (h r (by simp)), ih fun r hr => h r (by simp [hr])]
    simp only [Res.bind_ok, List.filter_cons]

theorem nullableAt_spec (b : BitSet) (rhs : List Sym) (h : ∀ s ∈ rhs, s < b.length) (i : Nat) :
    nullableAt b rhs i = .ok (rhs[i]?.map fun s => decide (Has b s)) := by
  unfold nullableAt
  cases e : rhs[i]? with
  | none => rfl
  | some s => simp [get_has (h s (List.mem_of_getElem? e))]

theorem ruleHistoryRhs_none {g : Cfg} (hg : g.rhsLenInvariant = none) (lhs : Sym) (h : History)
    (rhs : List Sym) : g.ruleHistoryRhs lhs h rhs =
      .ok { g with rules := g.rules ++ [⟨lhs, rhs, h⟩] } := by
  simp [Cfg.ruleHistoryRhs, Cfg.addRule_none g _ hg, Cfg.appended, SymbolSource.anon_zero]

/-- The shortened rules of a rule, in order, when `n` tells the nullable symbols. -/
def shorts (n : Sym → Bool) (p : Sym × List Sym) : List (Sym × List Sym) :=
  match p.2 with
  | [a, c] => (if n c then [(p.1, [a])] else []) ++ if n a then [(p.1, [c])] else []
  | _ => []

/-- The rules of a list as pairs of a left and a right side. -/
def rulePairs (rules : List CfgRule) : List (Sym × List Sym) := rules.map fun r => (r.lhs, r.rhs)

/-- A rule in the grammar of nulling rules: of the history only the origin is left. -/
def nulled (r : CfgRule) : CfgRule := { r with history := { origin := r.history.origin } }

/-- The shortened rules of a rule with their histories, in order, when `n` tells the nullable
symbols. -/
def shortRules (n : Sym → Bool) (r : CfgRule) : List CfgRule :=
  match r.rhs with
  | [a, c] =>
    if n a && n c then [⟨r.lhs, [a], { origin := r.history.origin }⟩,
      ⟨r.lhs, [c], { origin := r.history.origin }⟩]
    else if n a then [⟨r.lhs, [c], { r.history with nullable := some (a, false) }⟩]
    else if n c then [⟨r.lhs, [a], { r.history with nullable := some (c, true) }⟩]
    else []
  | _ => []

/-- One step of the loop appends the rule to `result` if it is wholly nullable, and the shortened
rules to `work`. -/
theorem elimBody_spec (b : BitSet) (result work : Cfg) (rule : CfgRule)
    (hr : result.rhsLenInvariant = none) (hwk : work.rhsLenInvariant = none)
    (hs : ∀ s ∈ rule.rhs, s < b.length) (hl : rule.rhs.length ≤ 2) :
    ∃ rs ws, elimBody b (result, work) rule =
        .ok ({ result with rules := result.rules ++ rs }, { work with rules := work.rules ++ ws }) ∧
      rulePairs rs = (rulePairs [rule]).filter (fun p => p.2.all fun s => decide (Has b s)) ∧
      rulePairs ws = (rulePairs [rule]).flatMap (shorts fun s => decide (Has b s)) ∧
      rs = ([rule].filter fun r => r.rhs.all fun s => decide (Has b s)).map nulled ∧
      ws = shortRules (fun s => decide (Has b s)) rule ∧
      (∀ A α, (∃ r ∈ rs, r.lhs = A ∧ r.rhs = α) ↔
        A = rule.lhs ∧ α = rule.rhs ∧ ∀ s ∈ rule.rhs, Has b s) ∧
      (∀ A α, (∃ r ∈ ws, r.lhs = A ∧ r.rhs = α) ↔
        A = rule.lhs ∧ Shortened (Has b) rule.rhs α) := by
  have h0 := nullableAt_spec b rule.rhs hs 0
  have h1 := nullableAt_spec b rule.rhs hs 1
  obtain ⟨lhs, rhs, hist⟩ := rule
  simp only at hs hl h0 h1
  match rhs, hl with
  | [], _ =>
    refine ⟨[⟨lhs, [], { origin := hist.origin }⟩], [], ?_, ?_, ?_, ?_, ?_, ?_, ?_⟩
    · simp [elimBody, h0, h1, maybeWhich, processLinked, History.eliminateNulling,
        BinarizedRhsRange.slice, ruleHistoryRhs_none hr]
    · rfl
    · simp [rulePairs, shorts, *]
    · rfl
    · simp [shortRules, *]
    · intro A α; simp [eq_comm]
    · intro A α; simp [Shortened]
  | [a], _ =>
    by_cases ha : Has b a
    · refine ⟨[⟨lhs, [a], { origin := hist.origin }⟩], [], ?_, ?_, ?_, ?_, ?_, ?_, ?_⟩
      · simp [elimBody, h0, h1, maybeWhich, processLinked, History.eliminateNulling,
          BinarizedRhsRange.slice, ruleHistoryRhs_none hr, ha]
      · simp [rulePairs, *]
      · simp [rulePairs, shorts, *]
      · simp [nulled, *]
      · simp [shortRules, *]
      · intro A α; simp [eq_comm, ha]
      · intro A α; simp [Shortened]
    · refine ⟨[], [], ?_, ?_, ?_, ?_, ?_, ?_, ?_⟩
      · simp [elimBody, h0, h1, maybeWhich, ha]
      · simp [rulePairs, *]
      · simp [rulePairs, shorts, *]
      · simp [*]
      · simp [shortRules, *]
      · intro A α; simp [ha]
      · intro A α; simp [Shortened]
  | [a, c], _ =>
    by_cases ha : Has b a <;> by_cases hc : Has b c
    · refine ⟨[⟨lhs, [a, c], { origin := hist.origin }⟩],
        [⟨lhs, [a], { origin := hist.origin }⟩, ⟨lhs, [c], { origin := hist.origin }⟩], ?_, ?_, ?_, ?_, ?_, ?_, ?_⟩
      · simp [elimBody, h0, h1, maybeWhich, processLinked, History.eliminateNulling,
          BinarizedRhsRange.slice, ha, hc,
          Cfg.ruleHistoryRhs, Cfg.addRule, Cfg.rhsLenAllowed, Cfg.pushRule, hr, hwk]
      · simp [rulePairs, *]
      · simp [rulePairs, shorts, *]
      · simp [nulled, *]
      · simp [shortRules, *]
      · intro A α
        constructor
        · rintro ⟨r, hr, rfl, rfl⟩
          rw [List.mem_singleton] at hr
          subst hr
          exact ⟨rfl, rfl, by simp [ha, hc]⟩
        · rintro ⟨rfl, rfl, -⟩
          exact ⟨_, List.mem_singleton.2 rfl, rfl, rfl⟩
      · intro A α
        simp only [List.mem_cons, List.not_mem_nil, or_false, exists_eq_or_imp, exists_eq_left,
          Shortened]
        constructor
        · rintro (⟨rfl, rfl⟩ | ⟨rfl, rfl⟩)
          · exact ⟨rfl, a, c, rfl, .inl ⟨rfl, hc⟩⟩
          · exact ⟨rfl, a, c, rfl, .inr ⟨rfl, ha⟩⟩
        · rintro ⟨rfl, a', c', e, h⟩
          simp only [List.cons.injEq, and_true] at e
          obtain ⟨rfl, rfl⟩ := e
          rcases h with ⟨rfl, _⟩ | ⟨rfl, _⟩
          · exact .inl ⟨rfl, rfl⟩
          · exact .inr ⟨rfl, rfl⟩
    · refine ⟨[], [⟨lhs, [c], { hist with nullable := some (a, false) }⟩], ?_, ?_, ?_, ?_, ?_, ?_, ?_⟩
      · simp [elimBody, h0, h1, maybeWhich, processLinked, History.eliminateNulling,
          BinarizedRhsRange.slice, BinarizedRhsRange.negate, ruleHistoryRhs_none hwk, ha, hc]
      · simp [rulePairs, *]
      · simp [rulePairs, shorts, *]
      · simp [*]
      · simp [shortRules, *]
      · intro A α; simp [hc]
      · intro A α
        simp only [List.mem_cons, List.not_mem_nil, or_false, exists_eq_left, Shortened]
        constructor
        · rintro ⟨rfl, rfl⟩
          exact ⟨rfl, a, c, rfl, .inr ⟨rfl, ha⟩⟩
        · rintro ⟨rfl, a', c', e, h⟩
          simp only [List.cons.injEq, and_true] at e
          obtain ⟨rfl, rfl⟩ := e
          rcases h with ⟨rfl, h⟩ | ⟨rfl, _⟩
          · exact (hc h).elim
          · exact ⟨rfl, rfl⟩
    · refine ⟨[], [⟨lhs, [a], { hist with nullable := some (c, true) }⟩], ?_, ?_, ?_, ?_, ?_, ?_, ?_⟩
      · simp [elimBody, h0, h1, maybeWhich, processLinked, History.eliminateNulling,
          BinarizedRhsRange.slice, BinarizedRhsRange.negate, ruleHistoryRhs_none hwk, ha, hc]
      · simp [rulePairs, *]
      · simp [rulePairs, shorts, *]
      · simp [*]
      · simp [shortRules, *]
      · intro A α; simp [ha]
      · intro A α
        simp only [List.mem_cons, List.not_mem_nil, or_false, exists_eq_left, Shortened]
        constructor
        · rintro ⟨rfl, rfl⟩
          exact ⟨rfl, a, c, rfl, .inl ⟨rfl, hc⟩⟩
        · rintro ⟨rfl, a', c', e, h⟩
          simp only [List.cons.injEq, and_true] at e
          obtain ⟨rfl, rfl⟩ := e
          rcases h with ⟨rfl, _⟩ | ⟨rfl, h⟩
          · exact ⟨rfl, rfl⟩
          · exact (ha h).elim
    · refine ⟨[], [], ?_, ?_, ?_, ?_, ?_, ?_, ?_⟩
      · simp [elimBody, h0, h1, maybeWhich, ha, hc]
      · simp [rulePairs, *]
      · simp [rulePairs, shorts, *]
      · simp [*]
      · simp [shortRules, *]
      · intro A α; simp [ha]
      · intro A α
        simp only [List.not_mem_nil, false_and, exists_false, Shortened, false_iff]
        rintro ⟨rfl, a', c', e, h⟩
        simp only [List.cons.injEq, and_true] at e
        obtain ⟨rfl, rfl⟩ := e
        rcases h with ⟨rfl, h⟩ | ⟨rfl, h⟩
        · exact hc h
        · exact ha h
  | _ :: _ :: _ :: _, h => simp at h

theorem elimBody_fold (b : BitSet) (rules : List CfgRule) (result work : Cfg)
    (hr : result.rhsLenInvariant = none) (hwk : work.rhsLenInvariant = none)
    (hs : ∀ r ∈ rules, ∀ s ∈ r.rhs, s < b.length) (hl : ∀ r ∈ rules, r.rhs.length ≤ 2) :
    ∃ rs ws, rules.foldlM (elimBody b) (result, work) =
        .ok ({ result with rules := result.rules ++ rs }, { work with rules := work.rules ++ ws }) ∧
      rulePairs rs = (rulePairs rules).filter (fun p => p.2.all fun s => decide (Has b s)) ∧
      rulePairs ws = (rulePairs rules).flatMap (shorts fun s => decide (Has b s)) ∧
      rs = (rules.filter fun r => r.rhs.all fun s => decide (Has b s)).map nulled ∧
      ws = rules.flatMap (shortRules fun s => decide (Has b s)) ∧
      (∀ A α, (∃ r ∈ rs, r.lhs = A ∧ r.rhs = α) ↔
        ∃ r ∈ rules, r.lhs = A ∧ r.rhs = α ∧ ∀ s ∈ r.rhs, Has b s) ∧
      (∀ A α, (∃ r ∈ ws, r.lhs = A ∧ r.rhs = α) ↔
        ∃ r ∈ rules, r.lhs = A ∧ Shortened (Has b) r.rhs α) := by
  induction rules generalizing result work with
  | nil => exact ⟨[], [], by simp, rfl, rfl, rfl, rfl, by simp, by simp⟩
  | cons r rules ih =>
    obtain ⟨rs₁, ws₁, h1, h7, h8, h11, h12, h2, h3⟩ := elimBody_spec b result work r hr hwk (hs r (by simp))
      (hl r (by simp))
    obtain ⟨rs₂, ws₂, h4, h9, h10, h13, h14, h5, h6⟩ := ih { result with rules := result.rules ++ rs₁ }
      { work with rules := work.rules ++ ws₁ } hr hwk (fun r hr => hs r (by simp [hr]))
      (fun r hr => hl r (by simp [hr]))
    refine ⟨rs₁ ++ rs₂, ws₁ ++ ws₂, ?_, ?_, ?_, ?_, ?_, fun A α => ?_, fun A α => ?_⟩
    · rw [List.foldlM_cons, h1, Res.bind_ok, h4]
      simp
    · have e : rulePairs (r :: rules) = rulePairs [r] ++ rulePairs rules := rfl
      have e' : rulePairs (rs₁ ++ rs₂) = rulePairs rs₁ ++ rulePairs rs₂ := List.map_append
      rw [e, e', h7, h9, List.filter_append]
    · have e : rulePairs (r :: rules) = rulePairs [r] ++ rulePairs rules := rfl
      have e' : rulePairs (ws₁ ++ ws₂) = rulePairs ws₁ ++ rulePairs ws₂ := List.map_append
      rw [e, e', h8, h10, List.flatMap_append]
    · rw [h11, h13, ← List.map_append, ← List.filter_append]
      rfl
    · rw [h12, h14, List.flatMap_cons]
    · simp only [List.mem_append, or_and_right, exists_or, h2, h5, List.mem_cons,
        exists_eq_left]
      apply or_congr _ Iff.rfl
      constructor
      · rintro ⟨rfl, rfl, h⟩; exact ⟨rfl, rfl, h⟩
      · rintro ⟨rfl, rfl, h⟩; exact ⟨rfl, rfl, h⟩
    · simp only [List.mem_append, or_and_right, exists_or, h3, h6, List.mem_cons,
        exists_eq_left]
      apply or_congr _ Iff.rfl
      constructor
      · rintro ⟨rfl, h⟩; exact ⟨rfl, h⟩
      · rintro ⟨rfl, h⟩; exact ⟨rfl, h⟩

/-- What `binarize_and_eliminate_nulling_rules` does, in terms of the binarized grammar `g₁`. -/
structure ElimSpec (g g₁ g' res : Cfg) : Prop where
  inv : Cfg.SplitInv g.numSyms g.prod g₁
  len : ∀ r ∈ g₁.rules, r.rhs.length ≤ 2
  syms : g'.numSyms = g₁.numSyms ∧ res.numSyms = g₁.numSyms
  roots : g'.roots = g.roots ∧ g'.wrappedRoots = g.wrappedRoots
  limit : g'.rhsLenInvariant = some 2
  nulling : ∀ A α, res.prod A α ↔ nullProds g₁.prod A α
  prods : (∀ s, ¬ Nullable g₁.prod s) ∧ g' = g₁ ∨
    (∃ s, Nullable g₁.prod s) ∧ ∀ A α, g'.prod A α ↔
      elimProds g₁.prod A α ∧ Productive (elimProds g₁.prod) g₁.Term A
  lists : ∃ n q : Sym → Bool, (∀ s, n s = true ↔ Nullable g₁.prod s) ∧
    (∀ A, Productive (elimProds g₁.prod) g₁.Term A → q A = true) ∧
    rulePairs res.rules = (rulePairs g₁.rules).filter (fun p => p.2.all n) ∧
    rulePairs g'.rules = (rulePairs g₁.rules ++ (rulePairs g₁.rules).flatMap (shorts n)).filter
      fun p => !p.2.isEmpty && q p.1
  split : g.limitRhsLen (some 2) = .ok g₁
  full : ∃ n q : Sym → Bool, (∀ s, n s = true ↔ Nullable g₁.prod s) ∧
    (∀ A, Productive (elimProds g₁.prod) g₁.Term A → q A = true) ∧
    res.rules = (g₁.rules.filter fun r => r.rhs.all n).map nulled ∧
    g'.rules = (g₁.rules ++ g₁.rules.flatMap (shortRules n)).filter
      fun r => !r.rhs.isEmpty && q r.lhs

theorem elim_spec {g : Cfg} (hwf : g.WF) :
    ∃ g₁ g' res, g.binarizeAndEliminateNulling = .ok (g', res) ∧ ElimSpec g g₁ g' res := by
  obtain ⟨g₁, e1, hinv, hlim, hroots, hwrap⟩ := Cfg.limitRhsLen_inv g hwf (some 2) (by simp)
  obtain ⟨g₁', e1', -, hlen, -⟩ := Cfg.addRules_len (n := 2) (by omega) g.rules
    (g := { g with rhsLenInvariant := some 2, rules := [] }) rfl (by simp)
  have : g₁' = g₁ := by
    have h : g.limitRhsLen (some 2) = .ok g₁' := e1'
    rw [e1] at h; cases h; rfl
  subst this
  obtain ⟨b₀, e2, hb₀, hb₀'⟩ := BitSet.nulling_spec hinv.wf (BitSet.reset g₁'.src)
    (BitSet.length_reset _)
  have hI : ∀ s, Has b₀ s ↔ g₁'.prod s [] := by
    intro s
    rw [hb₀']
    have : ¬ Has (BitSet.reset g₁'.src) s := by
      unfold Has
      rw [BitSet.getElem?_reset]
      split <;> simp
    simp [this]
  obtain ⟨b, e3, hb, hleast⟩ := closureAll_spec hinv.wf b₀ hb₀
  have hN : ∀ s, Has b s ↔ Nullable g₁'.prod s := least_nullable hI hleast
  have hN' : Has b = Nullable g₁'.prod := by funext s; exact propext (hN s)
  by_cases hemp : (BitSet.iter b).length = 0
  · have hno : ∀ s, ¬ Nullable g₁'.prod s := by
      intro s hs
      have := BitSet.mem_iter.2 ((hN s).2 hs)
      rw [List.length_eq_zero_iff.1 hemp] at this
      simp at this
    refine ⟨g₁', g₁', Cfg.withSymSource g₁'.src, ?_, hinv, hlen, ⟨rfl, rfl⟩, ⟨hroots, hwrap⟩,
      hlim, fun A α => ?_, .inl ⟨hno, rfl⟩, ⟨fun _ => false, fun _ => true, ?_, fun _ _ => rfl, ?_, ?_⟩, e1,
      ⟨fun _ => false, fun _ => true, ?_, fun _ _ => rfl, ?_, ?_⟩⟩
    · simp only [Cfg.binarizeAndEliminateNulling, e1, Res.bind_ok, Cfg.nullingSymbols, e2, e3,
        hemp, if_true]
    · constructor
      · rintro ⟨r, hr, -⟩; simp [Cfg.withSymSource] at hr
      · rintro ⟨hp, hα⟩
        exact (hno A (derives_iff_der.2 (Der.single_iff.2 (.inr ⟨α, hp,
          der_nil_of_nullable hα⟩)))).elim
    · intro s
      simp [hno s]
    · symm
      refine List.filter_eq_nil_iff.2 fun p hp he => ?_
      obtain ⟨r, hr, rfl⟩ := List.mem_map.1 hp
      have e : r.rhs = [] := by
        cases e : r.rhs with
        | nil => rfl
        | cons a l => simp [e] at he
      exact hno r.lhs (derives_iff_der.2 (.prod ⟨r, hr, rfl, e⟩))
    · have e : (rulePairs g₁'.rules).flatMap (shorts fun _ => false) = [] := by
        refine List.flatMap_eq_nil_iff.2 fun p _ => ?_
        unfold shorts
        split <;> rfl
      rw [e, List.append_nil]
      symm
      refine List.filter_eq_self.2 fun p hp => ?_
      obtain ⟨r, hr, rfl⟩ := List.mem_map.1 hp
      cases e : r.rhs with
      | nil => exact (hno r.lhs (derives_iff_der.2 (.prod ⟨r, hr, rfl, e⟩))).elim
      | cons a l => simp
    · intro s
      simp [hno s]
    · symm
      refine List.map_eq_nil_iff.2 ?_
      refine List.filter_eq_nil_iff.2 fun r hr he => ?_
      have e : r.rhs = [] := by
        cases e : r.rhs with
        | nil => rfl
        | cons a l => simp [e] at he
      exact hno r.lhs (derives_iff_der.2 (.prod ⟨r, hr, rfl, e⟩))
    · have e : g₁'.rules.flatMap (shortRules fun _ => false) = [] := by
        refine List.flatMap_eq_nil_iff.2 fun p _ => ?_
        unfold shortRules
        split <;> rfl
      rw [e, List.append_nil]
      symm
      refine List.filter_eq_self.2 fun r hr => ?_
      cases e : r.rhs with
      | nil => exact (hno r.lhs (derives_iff_der.2 (.prod ⟨r, hr, rfl, e⟩))).elim
      | cons a l => simp
  · have hsome : ∃ s, Nullable g₁'.prod s := by
      cases hi : BitSet.iter b with
      | nil => simp [hi] at hemp
      | cons a l => exact ⟨a, (hN a).1 (BitSet.mem_iter.1 (by rw [hi]; simp))⟩
    obtain ⟨rs, ws, e4, hrl, hwl, hrf, hwf', hrs, hws⟩ := elimBody_fold b g₁'.rules (Cfg.withSymSource g₁'.src)
      Cfg.new rfl rfl (fun r hr s hs => by rw [hb]; exact (hinv.wf r hr).2 s hs) hlen
    rw [hN'] at hws
    have hrs' : ∀ A α, (∃ r ∈ rs, r.lhs = A ∧ r.rhs = α) ↔ nullProds g₁'.prod A α := by
      intro A α
      rw [hrs, hN']
      constructor
      · rintro ⟨r, hr, rfl, rfl, h⟩; exact ⟨⟨r, hr, rfl, rfl⟩, h⟩
      · rintro ⟨⟨r, hr, rfl, rfl⟩, h⟩; exact ⟨r, hr, rfl, rfl, h⟩
    -- the grammar before the last step
    obtain ⟨g₂, hg₂⟩ : ∃ g₂ : Cfg, g₂ = { g₁' with
      rules := (g₁'.rules ++ ws).filter fun rule => !rule.rhs.isEmpty } := ⟨_, rfl⟩
    have hp2 : ∀ A β, g₂.prod A β ↔ elimProds g₁'.prod A β := by
      intro A β
      unfold elimProds
      have : (∃ α, g₁'.prod A α ∧ Shortened (Nullable g₁'.prod) α β) ↔
          ∃ r ∈ ws, r.lhs = A ∧ r.rhs = β := by
        rw [hws]
        constructor
        · rintro ⟨α, ⟨r, hr, rfl, rfl⟩, h⟩; exact ⟨r, hr, rfl, h⟩
        · rintro ⟨r, hr, rfl, h⟩; exact ⟨r.rhs, ⟨r, hr, rfl, rfl⟩, h⟩
      rw [this]
      unfold Cfg.prod
      subst hg₂
      constructor
      · rintro ⟨r, hr, rfl, rfl⟩
        simp only [List.mem_filter, List.mem_append, Bool.not_eq_true', List.isEmpty_eq_false_iff]
          at hr
        exact ⟨hr.1.imp (fun h => ⟨r, h, rfl, rfl⟩) (fun h => ⟨r, h, rfl, rfl⟩), hr.2⟩
      · rintro ⟨⟨r, hr, rfl, rfl⟩ | ⟨r, hr, rfl, rfl⟩, hne⟩
        · exact ⟨r, by simp [hr, hne], rfl, rfl⟩
        · exact ⟨r, by simp [hr, hne], rfl, rfl⟩
    have hwf2 : g₂.WF := by
      intro r hr
      have hn : g₂.numSyms = g₁'.numSyms := by rw [hg₂]; rfl
      rw [hn]
      obtain ⟨h | ⟨α, ⟨r', hr', e, rfl⟩, a, c, e', h⟩, -⟩ := (hp2 r.lhs r.rhs).1 ⟨r, hr, rfl, rfl⟩
      · obtain ⟨r', hr', e, e'⟩ := h
        rw [← e, ← e']
        exact hinv.wf r' hr'
      · obtain ⟨h3, h4⟩ := hinv.wf r' hr'
        rw [e'] at h4
        refine ⟨e ▸ h3, ?_⟩
        rcases h with ⟨h, -⟩ | ⟨h, -⟩ <;> rw [h] <;> simp [h4]
    obtain ⟨t, e5, ht, ht'⟩ := BitSet.terminal_spec hwf2
    have hn2 : g₂.numSyms = g₁'.numSyms := by rw [hg₂]; rfl
    obtain ⟨t', e6, hlt', hsub⟩ := BitSet.subtractProductive_spec (b₀ := t)
      (g := { Cfg.withSymSource g₁'.src with rules := [] ++ rs }) (by
        intro r hr
        obtain ⟨⟨r', hr', e, -⟩, -⟩ := (hrs' r.lhs r.rhs).1 ⟨r, by simpa using hr, rfl, rfl⟩
        rw [ht, hn2, ← e]
        exact (hinv.wf r' hr').1) (by
        intro h
        rw [ht, hn2] at h; exact h)
    obtain ⟨pr, e7, hpr, hpleast⟩ := closureAll_spec hwf2 t' (by rw [hlt', ht])
    have hT : ∀ s, Has t' s ↔ g₁'.Term s ∨ g₂.prod s [] := by
      intro s
      have hne : ¬ g₂.prod s [] := by rw [hp2]; exact fun h => h.2 rfl
      rw [hsub, ht', Cfg.term_iff_prod, Cfg.term_iff_prod, hn2]
      simp only [hne, or_false]
      constructor
      · rintro ⟨⟨h1, h2⟩, h3⟩
        refine ⟨h1, fun α hα => ?_⟩
        by_cases e : α = []
        · subst e
          obtain ⟨r, hr, e, -⟩ := (hrs' s []).2 ⟨hα, by simp⟩
          exact h3 r (by simpa using hr) e
        · exact h2 α ((hp2 s α).2 ⟨.inl hα, e⟩)
      · rintro ⟨h1, h2⟩
        refine ⟨⟨h1, fun α hα => ?_⟩, fun r hr e => ?_⟩
        · obtain ⟨h | ⟨α', h, -⟩, -⟩ := (hp2 s α).1 hα
          · exact h2 _ h
          · exact h2 _ h
        · exact h2 r.rhs (((hrs' s r.rhs).1 ⟨r, by simpa using hr, e, rfl⟩).1)
    have hprod := least_productive hT hpleast
    have eP : g₂.prod = elimProds g₁'.prod := by funext A α; exact propext (hp2 A α)
    refine ⟨g₁', { g₂ with rules := g₂.rules.filter fun r => decide (Has pr r.lhs) },
      { Cfg.withSymSource g₁'.src with rules := [] ++ rs }, ?_, hinv, hlen, ⟨hn2, rfl⟩, ?_, ?_, ?_,
      .inr ⟨hsome, fun A α => ?_⟩, ⟨fun s => decide (Has b s), fun s => decide (Has pr s), ?_, ?_,
        hrl, ?_⟩, e1, ⟨fun s => decide (Has b s), fun s => decide (Has pr s), ?_, ?_, hrf, ?_⟩⟩
    · have e8 := retainLhs_spec pr g₂.rules (fun r hr => by rw [hpr]; exact (hwf2 r hr).1)
      simp only [Cfg.binarizeAndEliminateNulling, e1, Res.bind_ok, Cfg.nullingSymbols, e2, e3,
        hemp, if_false, e4]
      have eg : ({ g₁'.extend { Cfg.new with rules := Cfg.new.rules ++ ws } with
          rules := (g₁'.extend { Cfg.new with rules := Cfg.new.rules ++ ws }).rules.filter
            fun rule => !rule.rhs.isEmpty } : Cfg) = g₂ := by
        rw [hg₂]
        simp [Cfg.extend, Cfg.new, Cfg.withSymSource]
      have er : ({ Cfg.withSymSource g₁'.src with
          rules := (Cfg.withSymSource g₁'.src).rules ++ rs } : Cfg) =
          { Cfg.withSymSource g₁'.src with rules := [] ++ rs } := rfl
      rw [eg, er, e5]
      simp only [Res.bind_ok, e6, e7]
      rw [show ((g₁'.extend { Cfg.new with rules := Cfg.new.rules ++ ws }).rules.filter
        fun rule => !rule.rhs.isEmpty) = g₂.rules from congrArg Cfg.rules eg, e8]
      rw [hg₂]
      rfl
    · rw [hg₂]; exact ⟨hroots, hwrap⟩
    · rw [hg₂]; exact hlim
    · intro A α
      rw [← hrs']
      rfl
    · rw [← hp2 A α, ← eP, ← hprod A]
      unfold Cfg.prod
      constructor
      · rintro ⟨r, hr, rfl, rfl⟩
        rw [List.mem_filter, decide_eq_true_eq] at hr
        exact ⟨⟨r, hr.1, rfl, rfl⟩, hr.2⟩
      · rintro ⟨⟨r, hr, rfl, rfl⟩, h⟩
        exact ⟨r, List.mem_filter.2 ⟨hr, by simpa using h⟩, rfl, rfl⟩
    · intro s
      rw [decide_eq_true_eq, hN]
    · intro A hA
      rw [decide_eq_true_eq, hprod A, eP]
      exact hA
    · rw [← hwl, hg₂]
      unfold rulePairs
      rw [← List.map_append]
      simp only [List.filter_map, List.filter_filter]
      congr 1
      apply List.filter_congr
      intro r _
      simp [Bool.and_comm]
    · intro s
      rw [decide_eq_true_eq, hN]
    · intro A hA
      rw [decide_eq_true_eq, hprod A, eP]
      exact hA
    · rw [← hwf', hg₂]
      simp only [List.filter_filter]
      apply List.filter_congr
      intro r _
      simp [Bool.and_comm]

end Verif
