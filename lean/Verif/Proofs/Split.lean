import Verif.Proofs.Binarize

/-!
# Building a grammar out of fresh symbols and added rules

`OSplit O P g`: `g` is what `add_rule` made of the productions `P` over the symbols in `O`, all
other symbols of `g` being those made by splitting long rules.
-/

namespace Verif

namespace Cfg

/-- Generalisation of `SplitInv` to a set `O` of original symbols. -/
structure OSplit (O : Sym → Prop) (P : Productions) (g : Cfg) : Prop where
  wf : g.WF
  le : ∀ x, O x → x < g.numSyms
  inO : ∀ A α, P A α → O A ∧ ∀ x ∈ α, O x
  fwd : ∀ A α, P A α → Der g.prod [A] α
  bwd : ∃ h : Sym → List Sym, (∀ x, O x → h x = [x]) ∧
    ∀ r ∈ g.rules, Der P (h r.lhs) (r.rhs.flatMap h)
  lhs : ∀ a, (∃ r ∈ g.rules, r.lhs = a) ↔ (∃ α, P a α) ∨ (¬ O a ∧ a < g.numSyms)

variable {O : Sym → Prop} {P : Productions} {g : Cfg}

theorem OSplit.refl (h : g.WF) : OSplit (· < g.numSyms) g.prod g := by
  refine ⟨h, fun _ h => h, ?_, fun A α hp => .prod hp, ⟨fun x => [x], fun _ _ => rfl, ?_⟩, ?_⟩
  · rintro A α ⟨r, hr, rfl, rfl⟩; exact h r hr
  · intro r hr
    simpa using Der.prod (P := g.prod) (A := r.lhs) (α := r.rhs) ⟨r, hr, rfl, rfl⟩
  · intro a
    constructor
    · rintro ⟨r, hr, rfl⟩; exact .inl ⟨r.rhs, r, hr, rfl, rfl⟩
    · rintro (⟨α, r, hr, e, -⟩ | h)
      · exact ⟨r, hr, e⟩
      · exact absurd h.2 h.1

theorem flatMap_single_of {O : Sym → Prop} {h : Sym → List Sym} (hh : ∀ x, O x → h x = [x])
    {w : List Sym} (hw : ∀ x ∈ w, O x) : w.flatMap h = w := by
  rw [flatMap_congr_mem (h' := fun x => [x]) fun x hx => hh x (hw x hx)]
  simp

theorem OSplit.derives (hi : OSplit O P g) {A : Sym} (hA : O A) {w : List Sym}
    (hw : ∀ x ∈ w, O x) : Derives g.prod [A] w ↔ Derives P [A] w := by
  rw [derives_iff_der, derives_iff_der]
  constructor
  · intro d
    obtain ⟨h, h1, h2⟩ := hi.bwd
    have := Der.map (Q := P) h (fun A α ⟨r, hr, e1, e2⟩ => by rw [← e1, ← e2]; exact h2 r hr) d
    rw [flatMap_single_of h1 hw, flatMap_single_of h1 (by simpa using hA)] at this
    exact this
  · exact Der.mono' hi.fwd

theorem OSplit.term (hi : OSplit O P g) (a : Sym) : g.Term a ↔ O a ∧ ∀ α, ¬ P a α := by
  have h1 := hi.lhs a
  unfold Term
  constructor
  · rintro ⟨h3, h4⟩
    have h5 : ¬ ∃ r ∈ g.rules, r.lhs = a := by rintro ⟨r, hr, e⟩; exact h4 r hr e
    rw [h1] at h5
    refine ⟨?_, fun α hα => h5 (.inl ⟨α, hα⟩)⟩
    by_contra h
    exact h5 (.inr ⟨h, h3⟩)
  · rintro ⟨h3, h4⟩
    refine ⟨hi.le a h3, fun r hr e => ?_⟩
    rcases h1.1 ⟨r, hr, e⟩ with ⟨α, h⟩ | h
    · exact h4 α h
    · exact h.1 h3

theorem OSplit.inLang (hi : OSplit O P g) {A : Sym} (hA : O A) (w : List Sym) :
    g.Lang A w ↔ InLang P g.Term A w := by
  unfold Lang InLang
  constructor
  · rintro ⟨h1, h2⟩
    exact ⟨(hi.derives hA fun x hx => ((hi.term x).1 (h2 x hx)).1).1 h1, h2⟩
  · rintro ⟨h1, h2⟩
    exact ⟨(hi.derives hA fun x hx => ((hi.term x).1 (h2 x hx)).1).2 h1, h2⟩

/-- A fresh symbol. -/
theorem OSplit.fresh (hi : OSplit O P g) (name : Option String) :
    OSplit (fun x => O x ∨ x = g.numSyms) P (g.nextSym name).2 := by
  have hn : (g.nextSym name).2.numSyms = g.numSyms + 1 := rfl
  have hr : (g.nextSym name).2.rules = g.rules := rfl
  have hp : (g.nextSym name).2.prod = g.prod := rfl
  refine ⟨?_, ?_, ?_, ?_, ?_, ?_⟩
  · intro r h
    obtain ⟨h1, h2⟩ := hi.wf r h
    rw [hn]
    exact ⟨by omega, fun s hs => by have := h2 s hs; omega⟩
  · rintro x (h | rfl)
    · have := hi.le x h; omega
    · omega
  · intro A α h
    obtain ⟨h1, h2⟩ := hi.inO A α h
    exact ⟨.inl h1, fun x hx => .inl (h2 x hx)⟩
  · rw [hp]; exact hi.fwd
  · obtain ⟨h, h1, h2⟩ := hi.bwd
    refine ⟨fun x => if x = g.numSyms then [x] else h x, ?_, ?_⟩
    · rintro x (hx | rfl)
      · have := hi.le x hx
        simp only [if_neg (show x ≠ g.numSyms by omega), h1 x hx]
      · simp
    · intro r hrm
      obtain ⟨h3, h4⟩ := hi.wf r hrm
      have h3 : r.lhs < g.numSyms := h3
      rw [flatMap_congr_mem (h' := h) fun x hx => by
        have : x < g.numSyms := h4 x hx
        simp only [if_neg (show x ≠ g.numSyms by omega)]]
      simp only [if_neg (show r.lhs ≠ g.numSyms by omega)]
      exact h2 r hrm
  · intro a
    rw [hr, hi.lhs, hn]
    constructor
    · rintro (h | h)
      · exact .inl h
      · refine .inr ⟨?_, by omega⟩
        rintro (h' | h')
        · exact h.1 h'
        · omega
    · rintro (h | h)
      · exact .inl h
      · refine .inr ⟨fun h' => h.1 (.inl h'), ?_⟩
        have : a ≠ g.numSyms := fun h' => h.1 (.inr h')
        omega

theorem OSplit.appended (hi : OSplit O P g)
    {n : Nat} {rule : CfgRule} (hl : O rule.lhs) (hr : ∀ x ∈ rule.rhs, O x)
    {rs : List CfgRule} (hc : Chain n rule.lhs g.numSyms rule.rhs rs) :
    OSplit O (addProd P rule) (g.appended rs (rs.length - 1)) := by
  have hn : (g.appended rs (rs.length - 1)).numSyms = g.numSyms + (rs.length - 1) := rfl
  have hle := hi.le
  have hl' := hi.le _ hl
  have hr' : ∀ x ∈ rule.rhs, x < g.numSyms := fun x hx => hi.le x (hr x hx)
  refine ⟨?_, ?_, ?_, ?_, ?_, ?_⟩
  · intro r hrm
    rw [hn]
    rcases List.mem_append.1 hrm with hrm | hrm
    · obtain ⟨h1, h2⟩ := hi.wf r hrm
      exact ⟨by omega, fun s hs => by have := h2 s hs; omega⟩
    · exact (hc.bounds _ (Nat.le_refl _) (by omega) (fun x hx => by
        have := hr' x hx; omega) r hrm).2
  · intro x hx
    have := hle x hx
    omega
  · rintro A α (hp | ⟨rfl, rfl⟩)
    · exact hi.inO A α hp
    · exact ⟨hl, hr⟩
  · rintro A α (hp | ⟨rfl, rfl⟩)
    · refine (hi.fwd A α hp).mono ?_
      rintro A α ⟨r, hr, e⟩
      exact ⟨r, List.mem_append.2 (.inl hr), e⟩
    · exact hc.der _ fun r hr => ⟨r, List.mem_append.2 (.inr hr), rfl, rfl⟩
  · obtain ⟨h, h1, h2⟩ := hi.bwd
    obtain ⟨k, hk1, hk2⟩ := hc.hom h hr'
    refine ⟨k, fun x hx => by rw [hk1 x (hle x hx), h1 x hx], fun r hrm => ?_⟩
    rcases List.mem_append.1 hrm with hrm | hrm
    · obtain ⟨h3, h4⟩ := hi.wf r hrm
      rw [hk1 _ h3, flatMap_congr_mem fun x hx => hk1 x (h4 x hx)]
      exact (h2 r hrm).mono fun A α => .inl
    · rcases hk2 r hrm with ⟨e1, e2⟩ | e
      · rw [e1, e2, hk1 _ hl', h1 _ hl, flatMap_single_of h1 hr]
        exact .prod (.inr ⟨rfl, rfl⟩)
      · rw [e]; exact .refl _
  · intro a
    have e1 : (∃ r ∈ (g.appended rs (rs.length - 1)).rules, r.lhs = a) ↔
        (∃ r ∈ g.rules, r.lhs = a) ∨ ∃ r ∈ rs, r.lhs = a := by
      simp only [Cfg.appended, List.mem_append, or_and_right, exists_or]
    have e2 : (∃ α, addProd P rule a α) ↔ (∃ α, P a α) ∨ a = rule.lhs := by
      constructor
      · rintro ⟨α, h | ⟨h, -⟩⟩
        exacts [.inl ⟨α, h⟩, .inr h]
      · rintro (⟨α, h⟩ | h)
        exacts [⟨α, .inl h⟩, ⟨rule.rhs, .inr ⟨h, rfl⟩⟩]
    rw [e1, e2, hi.lhs, hc.lhs_iff, hn]
    constructor
    · rintro ((h | h) | h | h)
      · exact .inl (.inl h)
      · exact .inr ⟨h.1, by omega⟩
      · exact .inl (.inr h)
      · exact .inr ⟨fun ho => by have := hle a ho; omega, by omega⟩
    · rintro ((h | h) | h)
      · exact .inl (.inl h)
      · exact .inr (.inl h)
      · by_cases e : a < g.numSyms
        · exact .inl (.inr ⟨h.1, e⟩)
        · exact .inr (.inr (by omega))

/-- `add_rule` under an admissible limit. -/
theorem OSplit.addRule (hi : OSplit O P g) (hlim : g.LimitOk) (rule : CfgRule) (hl : O rule.lhs)
    (hr : ∀ x ∈ rule.rhs, O x) :
    ∃ g' k, g.addRule rule = .ok (g', k) ∧ OSplit O (addProd P rule) g' ∧
      g'.rhsLenInvariant = g.rhsLenInvariant ∧ g'.roots = g.roots ∧
      g'.wrappedRoots = g.wrappedRoots ∧ g.numSyms ≤ g'.numSyms ∧
      (∃ l, g'.src.names = g.src.names ++ List.replicate l none) ∧
      (∃ rs, g'.rules = g.rules ++ rs ∧ rs.length = k ∧ g'.numSyms = g.numSyms + (k - 1)) ∧
      (k - 1) ≤ rule.rhs.length - 2 := by
  cases e : g.rhsLenInvariant with
  | none =>
    refine ⟨_, _, addRule_none g rule e, ?_, e, rfl, rfl, Nat.le_refl _, ⟨0, rfl⟩,
      ⟨[rule], rfl, rfl, rfl⟩, by simp⟩
    have := hi.appended (n := rule.rhs.length) hl hr (rs := [rule])
      (.last (Nat.le_refl _) rfl rfl)
    simpa [Cfg.appended, SymbolSource.anon_zero, pushRule] using this
  | some n =>
    obtain ⟨rs, h1, h2, h3, -⟩ := addRule_spec g rule n (hlim n e) e
    refine ⟨_, _, h1, hi.appended hl hr h2, e, rfl, rfl, Nat.le_add_right _ _,
      ⟨rs.length - 1, rfl⟩, ⟨rs, rfl, rfl, rfl⟩, ?_⟩
    have hn := hlim n e
    by_cases hlen : rule.rhs.length ≤ n
    · rw [h3 hlen]; simp
    · obtain ⟨-, h4⟩ := h2.count hn (by omega)
      have : rs.length - 1 ≤ (rs.length - 1) * (n - 1) := Nat.le_mul_of_pos_right _ (by omega)
      omega

theorem OSplit.congrO {O' : Sym → Prop} (hi : OSplit O P g) (h : ∀ x, O x ↔ O' x) :
    OSplit O' P g := by
  have : O = O' := by funext x; exact propext (h x)
  exact this ▸ hi

end Cfg

/-! ## Languages as least solutions -/

/-- Concatenation of the languages `V a` over the symbols of a string. -/
def ConcatLang (V : Sym → List Sym → Prop) : List Sym → List Sym → Prop
  | [], w => w = []
  | a :: α, w => ∃ u v, w = u ++ v ∧ V a u ∧ ConcatLang V α v

theorem concatLang_append {V : Sym → List Sym → Prop} {α β w : List Sym} :
    ConcatLang V (α ++ β) w ↔ ∃ u v, w = u ++ v ∧ ConcatLang V α u ∧ ConcatLang V β v := by
  induction α generalizing w with
  | nil => simp [ConcatLang]
  | cons a α ih =>
    simp only [List.cons_append, ConcatLang, ih]
    constructor
    · rintro ⟨u, v, rfl, h1, u', v', rfl, h2, h3⟩
      exact ⟨u ++ u', v', by simp, ⟨u, u', rfl, h1, h2⟩, h3⟩
    · rintro ⟨_, v, rfl, ⟨u, u', rfl, h1, h2⟩, h3⟩
      exact ⟨u, u' ++ v, by simp, h1, u', v, rfl, h2, h3⟩

theorem concatLang_single {V : Sym → List Sym → Prop} {a : Sym} {w : List Sym} :
    ConcatLang V [a] w ↔ V a w := by
  simp [ConcatLang]

/-- Any solution contains the language. -/
theorem der_concatLang {P : Productions} {T : Sym → Prop} {V : Sym → List Sym → Prop}
    (hT : ∀ a, T a → V a [a]) (hP : ∀ A α w, P A α → ConcatLang V α w → V A w)
    {u w : List Sym} (h : Der P u w) (hw : ∀ a ∈ w, T a) : ConcatLang V u w := by
  induction h with
  | nil => rfl
  | @keep a u v _ ih =>
    exact ⟨[a], v, rfl, hT a (hw a (by simp)), ih fun b hb => hw b (by simp [hb])⟩
  | @expand A α v₁ u v₂ hp h₁ h₂ ih₁ ih₂ =>
    exact ⟨_, _, rfl, hP A α _ hp (ih₁ fun b hb => hw b (by simp [hb])),
      ih₂ fun b hb => hw b (by simp [hb])⟩

theorem inLang_le {P : Productions} {T : Sym → Prop} {V : Sym → List Sym → Prop}
    (hT : ∀ a, T a → V a [a]) (hP : ∀ A α w, P A α → ConcatLang V α w → V A w)
    {A : Sym} {w : List Sym} (h : InLang P T A w) : V A w :=
  concatLang_single.1 (der_concatLang hT hP (derives_iff_der.1 h.1) h.2)

end Verif
