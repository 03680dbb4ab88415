import Verif.Model.Remap
import Verif.Spec.Rename
import Verif.Proofs.Derivation
import Verif.Proofs.Binarize
import Verif.Proofs.BitSet
import Verif.Proofs.Tactics
import Verif.Props.Symbols
import Mathlib.Data.List.Sort
import Mathlib.Data.List.Nodup
import Mathlib.Data.List.Perm.Subperm

/-! # Proofs about symbol renumbering -/

namespace Verif

/-! ## Sorting -/

theorem orderedInsert_ties {le : Nat → Nat → Prop} [DecidableRel le]
    (total : ∀ a b, le a b ∨ le b a) (trans : ∀ a b c, le a b → le b c → le a c) (a : Nat)
    (M : List Nat) (h : M.Pairwise fun x y => le x y ∧ (le y x → x < y)) (ha : ∀ b ∈ M, a < b) :
    (M.orderedInsert le a).Pairwise fun x y => le x y ∧ (le y x → x < y) := by
  induction M with
  | nil => simp
  | cons c M ih =>
    rw [List.pairwise_cons] at h
    rw [List.orderedInsert_cons]
    by_cases hc : le a c
    · rw [if_pos hc, List.pairwise_cons, List.pairwise_cons]
      refine ⟨fun y hy => ⟨?_, fun _ => ha y hy⟩, h⟩
      rcases List.mem_cons.1 hy with rfl | hy
      · exact hc
      · exact trans _ _ _ hc (h.1 y hy).1
    · rw [if_neg hc, List.pairwise_cons]
      refine ⟨fun y hy => ?_, ih h.2 fun b hb => ha b (by simp [hb])⟩
      rcases (List.mem_orderedInsert le).1 hy with rfl | hy
      · exact ⟨(total _ _).resolve_left hc, fun e => absurd e hc⟩
      · exact h.1 y hy

theorem insertionSort_ties {le : Nat → Nat → Prop} [DecidableRel le]
    (total : ∀ a b, le a b ∨ le b a) (trans : ∀ a b c, le a b → le b c → le a c)
    (l : List Nat) (h : l.Pairwise (· < ·)) :
    (l.insertionSort le).Pairwise fun x y => le x y ∧ (le y x → x < y) := by
  induction l with
  | nil => simp
  | cons a l ih =>
    rw [List.pairwise_cons] at h
    exact orderedInsert_ties total trans a _ (ih h.2)
      fun b hb => h.1 b ((List.perm_insertionSort le l).mem_iff.1 hb)

/-- The renumbering: the position in the sorted list of symbols. -/
theorem sorted_symbols {f : Sym → Sym → Ordering} (hf : TotalCmp f) (n : Nat)
    (L : List Sym) (hL : L = (List.range n).insertionSort fun a b => f a b ≠ .gt) :
    L.Nodup ∧ (∀ a, a ∈ L ↔ a < n) ∧ L.length = n ∧
      ∀ a b, a < n → b < n →
        (L.idxOf a < L.idxOf b ↔ f a b = .lt ∨ (f a b = .eq ∧ a < b)) := by
  have hp : L.Perm (List.range n) := hL ▸ List.perm_insertionSort _ _
  have hnd : L.Nodup := hp.nodup_iff.2 List.nodup_range
  have hmem : ∀ a, a ∈ L ↔ a < n := fun a => by rw [hp.mem_iff, List.mem_range]
  have hord : L.Pairwise fun x y => f x y ≠ .gt ∧ (f y x ≠ .gt → x < y) := by
    rw [hL]
    refine insertionSort_ties (le := fun a b => f a b ≠ .gt) ?_ hf.trans _ List.pairwise_lt_range
    intro a b
    rw [hf.swap a b]
    cases f a b <;> simp
  refine ⟨hnd, hmem, by rw [hp.length_eq, List.length_range], fun a b ha hb => ?_⟩
  have key : ∀ a b, a < n → b < n → L.idxOf a < L.idxOf b →
      f a b = .lt ∨ (f a b = .eq ∧ a < b) := by
    intro a b ha hb h
    have h1 := List.idxOf_lt_length_iff.2 ((hmem a).2 ha)
    have h2 := List.idxOf_lt_length_iff.2 ((hmem b).2 hb)
    have := (List.pairwise_iff_getElem.1 hord) _ _ h1 h2 h
    rw [List.getElem_idxOf, List.getElem_idxOf] at this
    rw [hf.swap a b] at this
    revert this
    cases f a b <;> simp
  refine ⟨key a b ha hb, fun h => ?_⟩
  by_contra hc
  rcases Nat.lt_or_eq_of_le (Nat.le_of_not_lt hc) with h' | h'
  · have := key b a hb ha h'
    rw [hf.swap a b] at this
    rcases h with h | ⟨h, h2⟩ <;> rw [h] at this <;> simp at this
    omega
  · have e : a = b := by
      have h1 := List.idxOf_lt_length_iff.2 ((hmem a).2 ha)
      have h2 := List.idxOf_lt_length_iff.2 ((hmem b).2 hb)
      have e1 := List.getElem_idxOf h1
      have e2 := List.getElem_idxOf h2
      rw [← e1, ← e2]
      simp [h']
    subst e
    have := hf.swap a a
    rcases h with h | ⟨h, h2⟩
    · rw [h] at this; simp at this
    · omega

/-! ## The new mapping -/

theorem fillInternal_spec (L : List Sym) (k : Nat) (acc : List (Option Sym)) (hnd : L.Nodup)
    (hlt : ∀ a ∈ L, a < acc.length) :
    ∃ t, fillInternal (L.zipIdx k) acc = .ok t ∧ t.length = acc.length ∧
      ∀ b, t[b]? = if b ∈ L then some (some (k + L.idxOf b)) else acc[b]? := by
  induction L generalizing k acc with
  | nil => exact ⟨acc, rfl, rfl, by simp⟩
  | cons a L ih =>
    rw [List.nodup_cons] at hnd
    obtain ⟨t, h1, h2, h3⟩ := ih (k + 1) (acc.set a (some k)) hnd.2
      fun b hb => by rw [List.length_set]; exact hlt b (by simp [hb])
    have ha := hlt a (by simp)
    refine ⟨t, ?_, by rw [h2, List.length_set], fun b => ?_⟩
    · rw [List.zipIdx_cons, fillInternal, if_pos ha, h1]
    · rw [h3]
      by_cases e : a = b
      · subst e
        simp [hnd.1, ha]
      · rw [List.getElem?_set_ne e, List.idxOf_cons_ne _ e]
        by_cases hb : b ∈ L
        · simp [hb]; omega
        · simp [hb, Ne.symm e]

/-! ## Rules, roots and names -/

theorem remapRules_spec {map : Sym → Res Sym} {σ : Sym → Sym} {n : Nat}
    (hm : ∀ a, a < n → map a = .ok (σ a)) (rules : List CfgRule)
    (h : ∀ r ∈ rules, r.lhs < n ∧ ∀ s ∈ r.rhs, s < n) :
    remapRules map rules = .ok (rules.filter (fun r => decide (r.rename σ = r)),
      (rules.filter (fun r => !decide (r.rename σ = r))).map (·.rename σ)) := by
  induction rules with
  | nil => rfl
  | cons r rules ih =>
    have h1 := h r (by simp)
    have e : r.remap map = .ok (r.rename σ) := by
      unfold CfgRule.remap
      rw [hm _ h1.1, mapM_ok (g := σ) (fun a ha => hm a (h1.2 a ha))]
      rfl
    rw [remapRules, e, ih fun s hs => h s (by simp [hs])]
    simp only [Res.bind_ok]
    have e2 : r.rename σ = r ↔ (r.rename σ).lhs = r.lhs ∧ (r.rename σ).rhs = r.rhs := by
      constructor
      · intro h; rw [h]; exact ⟨rfl, rfl⟩
      · rintro ⟨h1, h2⟩
        cases r
        simp only [CfgRule.rename] at h1 h2 ⊢
        rw [h1, h2]
    by_cases hc : r.rename σ = r
    · rw [if_pos (e2.1 hc)]
      simp [hc]
    · rw [if_neg (fun h => hc (e2.2 h))]
      simp [hc]

theorem filter_rename_perm (σ : Sym → Sym) (rules : List CfgRule) :
    (rules.filter (fun r => decide (r.rename σ = r)) ++
      (rules.filter (fun r => !decide (r.rename σ = r))).map (·.rename σ)).Perm
      (rules.map (·.rename σ)) := by
  have e : rules.filter (fun r => decide (r.rename σ = r)) =
      (rules.filter (fun r => decide (r.rename σ = r))).map (·.rename σ) := by
    conv_lhs => rw [← List.map_id (rules.filter _)]
    apply List.map_congr_left
    intro r hr
    simpa [eq_comm] using (List.mem_filter.1 hr).2
  rw [e, ← List.map_append]
  exact (List.filter_append_perm _ rules).map _

theorem addRules_same {g : Cfg} (rs : List CfgRule)
    (h : ∀ n, g.rhsLenInvariant = some n → 2 ≤ n ∧ (∀ r ∈ g.rules, r.rhs.length ≤ n) ∧
      ∀ r ∈ rs, r.rhs.length ≤ n) :
    g.addRules rs = .ok { g with rules := g.rules ++ rs } := by
  rcases Option.eq_none_or_eq_some g.rhsLenInvariant with hg | ⟨n, hg⟩
  case inr =>
    obtain ⟨h1, h2, h3⟩ := h n hg
    obtain ⟨g', e1, -, -, e2⟩ := Cfg.addRules_len h1 rs hg h2
    rw [e1, e2 h3]
  case inl =>
    clear h
    induction rs generalizing g with
    | nil => simp [Cfg.addRules, pure]
    | cons r rs ih =>
      have e : g.addRule r = .ok ({ g with rules := g.rules ++ [r] }, 1) := by
        simp [Cfg.addRule, Cfg.rhsLenAllowed, hg, Cfg.pushRule]
      have := ih (g := { g with rules := g.rules ++ [r] }) hg
      unfold Cfg.addRules at this ⊢
      rw [List.foldlM_cons, e]
      simp only [Res.bind_ok]
      rw [this]
      simp

theorem placeName_get (acc : List (Option String)) (s : Sym) (nm : Option String) (x : Nat) :
    (SymbolSource.placeName acc s nm)[x]?.join = if x = s then nm else acc[x]?.join := by
  unfold SymbolSource.placeName
  by_cases e : x = s
  · subst e
    rw [if_pos rfl, List.getElem?_set_self (by simp; omega)]
    rfl
  · rw [if_neg e, List.getElem?_set_ne (Ne.symm e)]
    by_cases h : x < acc.length
    · rw [List.getElem?_append_left h]
    · rw [List.getElem?_append_right (by omega), List.getElem?_eq_none (l := acc) (by omega),
        List.getElem?_replicate]
      split <;> rfl

theorem placeName_length (acc : List (Option String)) (s : Sym) (nm : Option String) :
    (SymbolSource.placeName acc s nm).length = max acc.length (s + 1) := by
  simp [SymbolSource.placeName]; omega

theorem remapNames_spec {map : Sym → Res Sym} {σ : Sym → Sym} {n : Nat}
    (hm : ∀ a, a < n → map a = .ok (σ a)) (hin : ∀ a, a < n → σ a < n)
    (hinj : ∀ a b, a < n → b < n → σ a = σ b → a = b)
    (s : SymbolSource) (hs : s.names.length ≤ n) :
    ∃ s', s.remapSymbols map = .ok s' ∧ s'.numSyms = s.numSyms ∧ s'.names.length ≤ n ∧
      ∀ a, a < n → s'.originalNameOf (σ a) = s.originalNameOf a := by
  have key : ∀ (l : List (Option String)) (k : Nat) (acc : List (Option String)),
      k + l.length ≤ n → acc.length ≤ n →
      ∃ res, (l.zipIdx k).foldlM (m := Res)
        (fun acc (x : Option String × Nat) => do .ok (SymbolSource.placeName acc (← map x.2) x.1))
          acc = .ok res ∧ res.length ≤ n ∧
        ∀ a, a < n → res[σ a]?.join =
          if k ≤ a ∧ a < k + l.length then l[a - k]?.join else acc[σ a]?.join := by
    intro l
    induction l with
    | nil => intro k acc _ ha; exact ⟨acc, rfl, ha, fun a _ => by rw [if_neg (by simp)]⟩
    | cons x l ih =>
      intro k acc hk hacc
      simp only [List.length_cons] at hk
      have hkn : k < n := by omega
      obtain ⟨res, h1, h2, h3⟩ := ih (k + 1) (SymbolSource.placeName acc (σ k) x) (by omega)
        (by rw [placeName_length]; have := hin k hkn; omega)
      refine ⟨res, ?_, h2, fun a ha => ?_⟩
      · rw [List.zipIdx_cons, List.foldlM_cons]
        simp only [hm k hkn, Res.bind_ok]
        exact h1
      · rw [h3 a ha]
        by_cases e : a = k
        · subst e
          rw [if_neg (by omega), placeName_get, if_pos rfl, if_pos (by simp)]
          simp
        · rw [placeName_get, if_neg (fun h => e (hinj a k ha hkn h))]
          by_cases h : k + 1 ≤ a ∧ a < k + 1 + l.length
          · rw [if_pos h, if_pos (by simp; omega)]
            obtain ⟨d, rfl⟩ : ∃ d, a = k + 1 + d := ⟨a - (k + 1), by omega⟩
            rw [show k + 1 + d - k = d + 1 by omega, show k + 1 + d - (k + 1) = d by omega]
            simp
          · rw [if_neg h, if_neg (by simp; omega)]
  have hname : ∀ (t : SymbolSource) (a : Sym), t.originalNameOf a = t.names[a]?.join := by
    intro t a
    unfold SymbolSource.originalNameOf
    cases t.names[a]? <;> rfl
  obtain ⟨res, h1, h2, h3⟩ := key s.names 0 [] (by omega) (by simp)
  refine ⟨⟨s.numSyms, res⟩, ?_, rfl, h2, fun a ha => ?_⟩
  · unfold SymbolSource.remapSymbols
    rw [h1]; rfl
  · rw [hname, hname]
    show res[σ a]?.join = _
    rw [h3 a ha]
    by_cases hl : a < s.names.length
    · rw [if_pos (by omega)]; simp
    · rw [if_neg (by omega), List.getElem?_eq_none (l := s.names) (by omega)]; simp

/-! ## Renumbering a grammar -/

theorem Remap.remapSymbols_spec (r : Remap) {map : Sym → Res Sym} {σ : Sym → Sym}
    (hm : ∀ a, a < r.g.numSyms → map a = .ok (σ a))
    (hin : ∀ a, a < r.g.numSyms → σ a < r.g.numSyms)
    (hinj : ∀ a b, a < r.g.numSyms → b < r.g.numSyms → σ a = σ b → a = b)
    (hwf : r.g.WF) (hroots : r.g.RootsIn (· < r.g.numSyms)) (hlim : r.g.Limited)
    (hnames : r.g.src.names.length ≤ r.g.numSyms) :
    ∃ g', r.remapSymbols map = .ok ⟨g', r.mapping⟩ ∧ g'.numSyms = r.g.numSyms ∧
      g'.rules.Perm (r.g.rules.map (·.rename σ)) ∧ g'.roots = r.g.roots.map σ ∧
      g'.wrappedRoots = r.g.wrappedRoots.map (·.rename σ) ∧
      g'.rhsLenInvariant = r.g.rhsLenInvariant ∧ g'.src.names.length ≤ r.g.numSyms ∧
      ∀ a, a < r.g.numSyms → g'.src.originalNameOf (σ a) = r.g.src.originalNameOf a := by
  obtain ⟨s', h1, h2, h3, h4⟩ := remapNames_spec hm hin hinj r.g.src hnames
  refine ⟨{ r.g with
    src := s'
    rules := r.g.rules.filter (fun r => decide (r.rename σ = r)) ++
      (r.g.rules.filter (fun r => !decide (r.rename σ = r))).map (·.rename σ)
    roots := r.g.roots.map σ
    wrappedRoots := r.g.wrappedRoots.map (·.rename σ) }, ?_, h2, filter_rename_perm σ _, rfl, rfl,
    rfl, h3, h4⟩
  unfold Remap.remapSymbols
  rw [remapRules_spec hm _ hwf]
  simp only [Res.bind_ok]
  rw [addRules_same]
  · simp only [Res.bind_ok]
    rw [mapM_ok (g := σ) fun a ha => hm a (hroots.1 a ha),
      mapM_ok (g := fun w => w.rename σ) (fun w hw => ?_), h1]
    · rfl
    · obtain ⟨w1, w2, w3, w4⟩ := hroots.2 w hw
      simp only [WrappedRoot.remap, hm _ w1, hm _ w2, hm _ w3, hm _ w4, Res.bind_ok]
      rfl
  · intro n hn
    obtain ⟨l1, l2⟩ := hlim n hn
    refine ⟨l1, fun x hx => l2 x (List.mem_filter.1 hx).1, fun x hx => ?_⟩
    obtain ⟨y, hy, rfl⟩ := List.mem_map.1 hx
    have := l2 y (List.mem_filter.1 hy).1
    simpa [CfgRule.rename] using this

theorem Remap.reorderSymbols_spec (r : Remap) {f : Sym → Sym → Ordering} (hf : TotalCmp f)
    (hwf : r.g.WF) (hroots : r.g.RootsIn (· < r.g.numSyms)) (hlim : r.g.Limited)
    (hnames : r.g.src.names.length ≤ r.g.numSyms) (hm : r.mapping.Consistent)
    (hsize : r.g.numSyms ≤ r.mapping.toExternal.length) :
    ∃ r' σ, r.reorderSymbols f = .ok r' ∧ r'.g.numSyms = r.g.numSyms ∧
      Cfg.Renaming (· < r.g.numSyms) σ r.g r'.g ∧ r'.g.src.names.length ≤ r.g.numSyms ∧
      (∀ a b, a < r.g.numSyms → b < r.g.numSyms →
        (σ a < σ b ↔ f a b = .lt ∨ (f a b = .eq ∧ a < b))) ∧
      r'.mapping.Consistent ∧ r'.mapping.toExternal.length = r.g.numSyms ∧
      (∀ e i : Nat, r'.mapping.toInternal[e]? = some (some i) ↔
        ∃ k < r.g.numSyms, r.mapping.toInternal[e]? = some (some k) ∧ i = σ k) := by
  set n := r.g.numSyms with hn
  set L := (List.range n).insertionSort fun a b => f a b ≠ .gt with hL
  obtain ⟨hnd, hmem, hlen, hord⟩ := sorted_symbols hf n L hL
  obtain ⟨t, t1, t2, t3⟩ := fillInternal_spec L 0 (Mapping.new n).toInternal hnd
    (fun a ha => by simpa [Mapping.new] using (hmem a).1 ha)
  have ht : ∀ a, a < n → t[a]? = some (some (L.idxOf a)) := by
    intro a ha
    rw [t3, if_pos ((hmem a).2 ha), Nat.zero_add]
  have hlt : ∀ a, a < n → L.idxOf a < n := fun a ha => by
    have := List.idxOf_lt_length_iff.2 ((hmem a).2 ha); omega
  have htn : t.length = n := by rw [t2]; simp [Mapping.new]
  have hsome : ∀ e i, t[e]? = some (some i) ↔ e < n ∧ i = L.idxOf e := by
    intro e i
    constructor
    · intro h
      have he : e < n := by
        rw [← htn]; exact (List.getElem?_eq_some_iff.1 h).1
      rw [ht e he] at h
      exact ⟨he, by injection h with h; injection h with h; exact h.symm⟩
    · rintro ⟨he, rfl⟩
      exact ht e he
  have hget : ∀ i e, L[i]? = some e ↔ e < n ∧ i = L.idxOf e := by
    intro i e
    constructor
    · intro h
      obtain ⟨hi, h⟩ := List.getElem?_eq_some_iff.1 h
      subst h
      exact ⟨(hmem _).1 (List.getElem_mem hi), (hnd.idxOf_getElem _ hi).symm⟩
    · rintro ⟨he, rfl⟩
      have := List.idxOf_lt_length_iff.2 ((hmem e).2 he)
      rw [List.getElem?_eq_getElem this, List.getElem_idxOf]
  have hcons : (⟨t, L⟩ : Mapping).Consistent := by
    intro e i
    show t[e]? = _ ↔ L[i]? = _
    rw [hsome, hget]
  obtain ⟨m', m1, m2, m3, m4, m5⟩ := C06_translate r.mapping ⟨t, L⟩ hm hcons
    (by show t.length ≤ _; omega)
  have hmap : ∀ a, a < n → (do Res.ofOption (← Res.index t a) : Res Sym) = .ok (L.idxOf a) := by
    intro a ha
    rw [Res.index_ok.2 (ht a ha)]
    rfl
  have hinj : ∀ a b, a < n → b < n → L.idxOf a = L.idxOf b → a = b := by
    intro a b ha hb h
    have h1 := (hget (L.idxOf a) a).2 ⟨ha, rfl⟩
    have h2 := (hget (L.idxOf b) b).2 ⟨hb, rfl⟩
    rw [h, h2] at h1
    exact (Option.some.inj h1).symm
  obtain ⟨g', g1, g2, g3, g4, g5, g6, g7, g8⟩ := Remap.remapSymbols_spec { r with mapping := m' }
    (σ := fun a => L.idxOf a) hmap hlt hinj hwf hroots hlim hnames
  refine ⟨⟨g', m'⟩, fun a => L.idxOf a, ?_, g2, ⟨?_, hinj, g3, g4, g5, g6, g8⟩, g7, hord, m5, ?_, ?_⟩
  · unfold Remap.reorderSymbols
    simp only [← hn, ← hL, t1, Res.bind_ok, m1]
    exact g1
  · intro x
    show x < g'.numSyms ↔ _
    rw [show g'.numSyms = n from g2]
    constructor
    · intro hx
      refine ⟨L[x], (hmem _).1 (List.getElem_mem (by omega)), hnd.idxOf_getElem _ (by omega)⟩
    · rintro ⟨a, ha, rfl⟩
      exact hlt a ha
  · have hn' : ∀ i, i < m'.toExternal.length ↔ i < n := by
      intro i
      constructor
      · intro hi
        obtain ⟨k, k1, -⟩ := (m3 i (m'.toExternal[i])).1 (List.getElem?_eq_getElem hi)
        have : L[i]? = some k := k1
        have := (List.getElem?_eq_some_iff.1 this).1
        omega
      · intro hi
        have hk : L[i] < r.mapping.toExternal.length := by
          have := (hmem _).1 (List.getElem_mem (l := L) (n := i) (by omega)); omega
        have := (m3 i (r.mapping.toExternal[L[i]])).2
          ⟨L[i], List.getElem?_eq_getElem (l := L) (by omega), List.getElem?_eq_getElem hk⟩
        exact (List.getElem?_eq_some_iff.1 this).1
    have h1 := hn' n
    have h2 := hn' m'.toExternal.length
    show m'.toExternal.length = n
    omega
  · intro e i
    show m'.toInternal[e]? = _ ↔ _
    rw [m2]
    constructor
    · rintro ⟨k, k1, k2⟩
      obtain ⟨h1, h2⟩ := (hsome k i).1 k2
      exact ⟨k, h1, k1, h2⟩
    · rintro ⟨k, h1, k1, h2⟩
      exact ⟨k, k1, (hsome k i).2 ⟨h1, h2⟩⟩

/-! ## Languages -/

theorem flatMap_single (f : Sym → Sym) (l : List Sym) : (l.flatMap fun a => [f a]) = l.map f := by
  induction l with
  | nil => rfl
  | cons a l ih => simp [ih]

theorem Cfg.Renaming.prod {U : Sym → Prop} {σ : Sym → Sym} {g g' : Cfg}
    (h : Cfg.Renaming U σ g g') (A : Sym) (β : List Sym) :
    g'.prod A β ↔ ∃ B α, g.prod B α ∧ A = σ B ∧ β = α.map σ := by
  constructor
  · rintro ⟨r, hr, rfl, rfl⟩
    obtain ⟨q, hq, rfl⟩ := List.mem_map.1 (h.rules.mem_iff.1 hr)
    exact ⟨q.lhs, q.rhs, ⟨q, hq, rfl, rfl⟩, rfl, rfl⟩
  · rintro ⟨B, α, ⟨q, hq, rfl, rfl⟩, rfl, rfl⟩
    exact ⟨q.rename σ, h.rules.mem_iff.2 (List.mem_map_of_mem hq), rfl, rfl⟩

theorem Cfg.Renaming.wf {U : Sym → Prop} {σ : Sym → Sym} {g g' : Cfg}
    (h : Cfg.Renaming U σ g g') (hU : ∀ r ∈ g.rules, U r.lhs ∧ ∀ a ∈ r.rhs, U a) : g'.WF := by
  intro r hr
  obtain ⟨q, hq, rfl⟩ := List.mem_map.1 (h.rules.mem_iff.1 hr)
  refine ⟨(h.onto _).2 ⟨q.lhs, (hU q hq).1, rfl⟩, fun s hs => ?_⟩
  obtain ⟨a, ha, rfl⟩ := List.mem_map.1 hs
  exact (h.onto _).2 ⟨a, (hU q hq).2 a ha, rfl⟩

theorem Cfg.Renaming.term {U : Sym → Prop} {σ : Sym → Sym} {g g' : Cfg}
    (h : Cfg.Renaming U σ g g') (hU : ∀ r ∈ g.rules, U r.lhs ∧ ∀ a ∈ r.rhs, U a)
    (hlt : ∀ a, U a → a < g.numSyms) (a : Sym) (ha : U a) : g'.Term (σ a) ↔ g.Term a := by
  unfold Cfg.Term
  rw [and_iff_right ((h.onto _).2 ⟨a, ha, rfl⟩), and_iff_right (hlt a ha)]
  constructor
  · intro hh r hr e
    exact hh (r.rename σ) (h.rules.mem_iff.2 (List.mem_map_of_mem hr)) (by rw [← e]; rfl)
  · intro hh r hr e
    obtain ⟨q, hq, rfl⟩ := List.mem_map.1 (h.rules.mem_iff.1 hr)
    exact hh q hq (h.inj _ _ (hU q hq).1 ha e)

theorem Cfg.Renaming.lang {U : Sym → Prop} {σ : Sym → Sym} {g g' : Cfg}
    (h : Cfg.Renaming U σ g g') (hU : ∀ r ∈ g.rules, U r.lhs ∧ ∀ a ∈ r.rhs, U a)
    (hlt : ∀ a, U a → a < g.numSyms) : Cfg.SameLang U σ g g' := by
  classical
  -- the inverse renaming
  obtain ⟨τ, hτ⟩ : ∃ τ : Sym → Sym, ∀ a, U a → τ (σ a) = a := by
    refine ⟨fun x => if hx : ∃ a, U a ∧ σ a = x then hx.choose else 0, fun a ha => ?_⟩
    have hx : ∃ b, U b ∧ σ b = σ a := ⟨a, ha, rfl⟩
    show (if hx : _ then _ else _) = _
    rw [dif_pos hx]
    exact h.inj _ _ hx.choose_spec.1 ha hx.choose_spec.2
  have hmapτ : ∀ v : List Sym, (∀ a ∈ v, U a) → (v.map σ).map τ = v := by
    intro v hv
    rw [List.map_map]
    conv_rhs => rw [← List.map_id v]
    exact List.map_congr_left fun a ha => hτ a (hv a ha)
  have hd1 : ∀ {u v}, Der g.prod u v → Der g'.prod (u.map σ) (v.map σ) := by
    intro u v d
    have := Der.map (Q := g'.prod) (fun a => [σ a]) (fun A α hp => by
      have : g'.prod (σ A) (α.map σ) := (h.prod _ _).2 ⟨A, α, hp, rfl, rfl⟩
      simpa [flatMap_single] using Der.prod this) d
    simpa [flatMap_single] using this
  have hd2 : ∀ {u v}, Der g'.prod u v → Der g.prod (u.map τ) (v.map τ) := by
    intro u v d
    have := Der.map (Q := g.prod) (fun a => [τ a]) (fun A α hp => by
      obtain ⟨B, β, hB, rfl, rfl⟩ := (h.prod _ _).1 hp
      obtain ⟨q, hq, rfl, rfl⟩ := hB
      have e := hmapτ q.rhs (hU q hq).2
      have : g.prod (τ (σ q.lhs)) ((q.rhs.map σ).map τ) := by
        rw [hτ _ (hU q hq).1, e]; exact ⟨q, hq, rfl, rfl⟩
      simpa [flatMap_single] using Der.prod this) d
    simpa [flatMap_single] using this
  have hUd : ∀ {u v}, Der g.prod u v → (∀ a ∈ u, U a) → ∀ a ∈ v, U a := by
    intro u v d
    induction d with
    | nil => simp
    | keep a _ ih =>
      intro hu b hb
      rcases List.mem_cons.1 hb with rfl | hb
      · exact hu _ (by simp)
      · exact ih (fun c hc => hu c (by simp [hc])) b hb
    | @expand A α v₁ u v₂ hp h₁ h₂ ih₁ ih₂ =>
      intro hu b hb
      obtain ⟨q, hq, rfl, rfl⟩ := hp
      rcases List.mem_append.1 hb with hb | hb
      · exact ih₁ (hU q hq).2 b hb
      · exact ih₂ (fun c hc => hu c (by simp [hc])) b hb
  have hUd' : ∀ {u v}, Der g'.prod u v → (∀ x ∈ u, ∃ a, U a ∧ σ a = x) →
      ∀ x ∈ v, ∃ a, U a ∧ σ a = x := by
    intro u v d
    induction d with
    | nil => simp
    | keep a _ ih =>
      intro hu b hb
      rcases List.mem_cons.1 hb with rfl | hb
      · exact hu _ (by simp)
      · exact ih (fun c hc => hu c (by simp [hc])) b hb
    | @expand A α v₁ u v₂ hp h₁ h₂ ih₁ ih₂ =>
      intro hu b hb
      obtain ⟨B, β, ⟨q, hq, rfl, rfl⟩, rfl, rfl⟩ := (h.prod _ _).1 hp
      rcases List.mem_append.1 hb with hb | hb
      · refine ih₁ (fun c hc => ?_) b hb
        obtain ⟨a, ha, rfl⟩ := List.mem_map.1 hc
        exact ⟨a, (hU q hq).2 a ha, rfl⟩
      · exact ih₂ (fun c hc => hu c (by simp [hc])) b hb
  intro A hA w
  unfold Cfg.Lang
  constructor
  · intro hw
    obtain ⟨hd, hT⟩ := inLang_iff.1 hw
    have hin := hUd' hd (by intro x hx; rw [List.mem_singleton] at hx; subst hx; exact ⟨A, hA, rfl⟩)
    have e : w = (w.map τ).map σ := by
      rw [List.map_map]
      conv_lhs => rw [← List.map_id w]
      apply List.map_congr_left
      intro x hx
      obtain ⟨a, ha, rfl⟩ := hin x hx
      simp [hτ a ha]
    refine ⟨w.map τ, e, inLang_iff.2 ⟨by simpa [hτ A hA] using hd2 hd, ?_⟩⟩
    intro x hx
    obtain ⟨y, hy, rfl⟩ := List.mem_map.1 hx
    obtain ⟨a, ha, rfl⟩ := hin y hy
    rw [hτ a ha]
    exact (h.term hU hlt a ha).1 (hT _ hy)
  · rintro ⟨v, rfl, hv⟩
    obtain ⟨hd, hT⟩ := inLang_iff.1 hv
    have hin := hUd hd (by intro x hx; rw [List.mem_singleton] at hx; subst hx; exact hA)
    refine inLang_iff.2 ⟨by simpa using hd1 hd, ?_⟩
    intro x hx
    obtain ⟨a, ha, rfl⟩ := List.mem_map.1 hx
    exact (h.term hU hlt a (hin a ha)).2 (hT a ha)

/-! ## Removing unused symbols -/

theorem cmpUnused_total (b : BitSet) : TotalCmp (cmpUnused b) := by
  constructor
  · intro x y
    unfold cmpUnused
    cases b.getD x false <;> cases b.getD y false <;> rfl
  · intro x y z
    unfold cmpUnused
    cases b.getD x false <;> cases b.getD y false <;> cases b.getD z false <;> decide

/-- The positions below the number of used symbols are those of the used symbols. -/
theorem used_first {n : Nat} {U : Sym → Prop} [DecidablePred U] {σ : Sym → Sym}
    (hσ : ∀ x, x < n ↔ ∃ a, a < n ∧ σ a = x)
    (hinj : ∀ a b, a < n → b < n → σ a = σ b → a = b)
    (hord : ∀ a b, a < n → b < n → U a → ¬ U b → σ a < σ b) (a : Sym) (ha : a < n) :
    σ a < ((List.range n).filter (fun a => decide (U a))).length ↔ U a := by
  -- the new numbers of the used symbols are pairwise different
  set us := (List.range n).filter (fun a => decide (U a)) with hus
  have hmem : ∀ a, a ∈ us ↔ a < n ∧ U a := by intro a; simp [hus]
  have hnd : (us.map σ).Nodup := by
    apply List.Nodup.map_on _ (List.nodup_range.filter _)
    intro x hx y hy e
    exact hinj x y ((hmem x).1 hx).1 ((hmem y).1 hy).1 e
  set vs := (List.range n).filter (fun a => !decide (U a)) with hvs
  have hmem' : ∀ a, a ∈ vs ↔ a < n ∧ ¬ U a := by intro a; simp [hvs]
  have hnd' : (vs.map σ).Nodup := by
    apply List.Nodup.map_on _ (List.nodup_range.filter _)
    intro x hx y hy e
    exact hinj x y ((hmem' x).1 hx).1 ((hmem' y).1 hy).1 e
  have hlen : us.length + vs.length = n := by
    have := (List.filter_append_perm (fun a => decide (U a)) (List.range n)).length_eq
    rw [List.length_append, List.length_range] at this
    exact this
  have hsub : ∀ (l : List Nat) (lo hi : Nat), l.Nodup → (∀ x ∈ l, lo ≤ x ∧ x < hi) →
      l.length ≤ hi - lo := by
    intro l lo hi h1 h2
    have := List.subperm_of_subset h1 (l₂ := List.range' lo (hi - lo))
      (fun x hx => by have := h2 x hx; rw [List.mem_range'_1]; omega)
    simpa using this.length_le
  constructor
  · intro h
    by_contra hu
    -- all used symbols come before `a`
    have := hsub (us.map σ) 0 (σ a) hnd fun x hx => by
      obtain ⟨b, hb, rfl⟩ := List.mem_map.1 hx
      obtain ⟨h1, h2⟩ := (hmem b).1 hb
      exact ⟨Nat.zero_le _, hord b a h1 ha h2 hu⟩
    rw [List.length_map] at this
    omega
  · intro hu
    -- all unused symbols come after `a`
    have := hsub (vs.map σ) (σ a + 1) n hnd' fun x hx => by
      obtain ⟨b, hb, rfl⟩ := List.mem_map.1 hx
      obtain ⟨h1, h2⟩ := (hmem' b).1 hb
      exact ⟨hord a b ha h1 hu h2, (hσ _).2 ⟨b, h1, rfl⟩⟩
    rw [List.length_map] at this
    have := (hσ (σ a)).2 ⟨a, ha, rfl⟩
    omega

theorem iter_length_unused {b : BitSet} {n : Nat} {U : Sym → Prop} [DecidablePred U]
    (hb : ∀ s, Has b s ↔ s < n ∧ ¬ U s) :
    n - b.iter.length = ((List.range n).filter (fun a => decide (U a))).length := by
  have h1 : b.iter.Perm ((List.range n).filter (fun a => !decide (U a))) := by
    refine (List.perm_ext_iff_of_nodup ((BitSet.iter_sorted b).imp (fun h => Nat.ne_of_lt h))
      (List.nodup_range.filter _)).2 fun a => ?_
    rw [BitSet.mem_iter, hb]
    simp
  have := (List.filter_append_perm (fun a => decide (U a)) (List.range n)).length_eq
  rw [List.length_append, List.length_range] at this
  rw [h1.length_eq]
  omega

end Verif
