import Verif.Props.Remap
import Verif.Props.Nulling
import Verif.Props.Cycles

/-! # Proofs about running a pass twice -/

namespace Verif

/-! ## Renumbering by a comparison that finds all symbols equal -/

theorem placeName_id (acc : List (Option String)) (nm : Option String) :
    SymbolSource.placeName acc acc.length nm = acc ++ [nm] := by
  unfold SymbolSource.placeName
  rw [show acc.length + 1 - acc.length = 1 by omega]
  simp

theorem remapNames_id {map : Sym → Res Sym} {n : Nat} (hm : ∀ a, a < n → map a = .ok a)
    (s : SymbolSource) (hs : s.names.length ≤ n) : s.remapSymbols map = .ok s := by
  unfold SymbolSource.remapSymbols
  have key : ∀ (l acc : List (Option String)), acc.length + l.length ≤ n →
      (l.zipIdx acc.length).foldlM (fun acc (x : Option String × Nat) => do
        .ok (SymbolSource.placeName acc (← map x.2) x.1)) acc = Res.ok (acc ++ l) := by
    intro l
    induction l with
    | nil => intro acc _; simp [pure]
    | cons a l ih =>
      intro acc h
      simp only [List.length_cons] at h
      rw [List.zipIdx_cons, List.foldlM_cons]
      simp only
      rw [hm _ (by omega), Res.bind_ok, Res.bind_ok, placeName_id]
      have := ih (acc ++ [a]) (by simp; omega)
      rw [List.length_append, List.length_singleton] at this
      rw [this, List.append_assoc]
      rfl
  have := key s.names [] (by simpa using hs)
  simp only [List.length_nil, List.nil_append] at this
  rw [this]
  rfl

theorem CfgRule.rename_id (r : CfgRule) : r.rename (fun a => a) = r := by
  cases r; simp [CfgRule.rename]

theorem WrappedRoot.rename_id (w : WrappedRoot) : w.rename (fun a => a) = w := rfl

theorem Remap.remapSymbols_id (r : Remap) {map : Sym → Res Sym}
    (hm : ∀ a, a < r.g.numSyms → map a = .ok a)
    (hwf : r.g.WF) (hroots : r.g.RootsIn (· < r.g.numSyms))
    (hnames : r.g.src.names.length ≤ r.g.numSyms) : r.remapSymbols map = .ok r := by
  unfold Remap.remapSymbols
  rw [remapRules_spec (σ := fun a => a) hm _ hwf]
  simp only [CfgRule.rename_id, decide_true, Bool.not_true, List.filter_true, List.filter_false,
    List.map_nil, Res.bind_ok]
  have e : Cfg.addRules { r.g with rules := r.g.rules } [] = .ok r.g := rfl
  rw [e]
  simp only [Res.bind_ok]
  rw [mapM_ok (g := fun a => a) fun a ha => hm a (hroots.1 a ha),
    mapM_ok (g := fun w => w) (fun w hw => ?_), remapNames_id hm _ hnames]
  · simp
  · obtain ⟨w1, w2, w3, w4⟩ := hroots.2 w hw
    simp only [WrappedRoot.remap, hm _ w1, hm _ w2, hm _ w3, hm _ w4, Res.bind_ok]

theorem insertionSort_all {le : Nat → Nat → Prop} [DecidableRel le] (h : ∀ a b, le a b)
    (l : List Nat) : l.insertionSort le = l := by
  induction l with
  | nil => rfl
  | cons a l ih =>
    rw [List.insertionSort_cons, ih]
    cases l with
    | nil => rfl
    | cons b l => rw [List.orderedInsert_cons, if_pos (h a b)]

theorem Remap.reorderSymbols_id (g : Cfg) {f : Sym → Sym → Ordering} (hf : ∀ a b, f a b ≠ .gt)
    (hwf : g.WF) (hroots : g.RootsIn (· < g.numSyms))
    (hnames : g.src.names.length ≤ g.numSyms) :
    (Remap.new g).reorderSymbols f = .ok (Remap.new g) := by
  set n := g.numSyms with hn
  have hL : ((List.range n).insertionSort fun a b => f a b ≠ .gt) = List.range n :=
    insertionSort_all (le := fun a b => f a b ≠ .gt) hf _
  obtain ⟨t, t1, t2, t3⟩ := fillInternal_spec (List.range n) 0 (Mapping.new n).toInternal
    List.nodup_range (fun a ha => by simpa [Mapping.new] using ha)
  have ht : t = (List.range n).map some := by
    apply List.ext_getElem?
    intro i
    rw [t3]
    by_cases hi : i < n
    · have : (List.range n).idxOf i = i := by
        have h1 := List.idxOf_lt_length_iff.2 (List.mem_range.2 hi)
        have h2 := List.getElem_idxOf h1
        rwa [List.getElem_range] at h2
      rw [if_pos (List.mem_range.2 hi), this]
      simp [hi]
    · rw [if_neg (by simpa using hi)]
      simp [Mapping.new, hi]
  subst ht
  have hm : (Remap.new g).mapping.translate ⟨(List.range n).map some, List.range n⟩ =
      .ok (Remap.new g).mapping := by
    unfold Mapping.translate
    have e : (List.range n).mapM (Res.index (Remap.new g).mapping.toExternal) =
        .ok (List.range n) := by
      rw [mapM_ok (g := fun a => a) fun a ha => Res.index_ok.2 (by
        have : a < n := by simpa using ha
        show (List.range n)[a]? = some a
        simp [this])]
      simp
    simp only [e, Res.bind_ok]
    have e2 : (Remap.new g).mapping.toInternal.map (fun internal : Option Sym =>
        match internal with
        | some sym => (((List.range n).map some)[sym]?).bind fun x => x
        | none => none) = (List.range n).map some := by
      show ((List.range n).map some).map _ = _
      rw [List.map_map]
      refine List.map_congr_left fun a ha => ?_
      have : a < n := by simpa using ha
      simp [this]
    exact congrArg (fun l => Res.ok (⟨l, List.range n⟩ : Mapping)) e2
  unfold Remap.reorderSymbols
  rw [show (Remap.new g).g.numSyms = n from rfl]
  simp only [hL, t1, Res.bind_ok, hm]
  refine Remap.remapSymbols_id ⟨g, (Remap.new g).mapping⟩ ?_ hwf hroots hnames
  intro a ha
  rw [Res.index_ok.2 (show ((List.range n).map some)[a]? = some (some a) by
    simp [show a < n from ha])]
  rfl

/-- If every symbol is used, `remove_unused_symbols` changes nothing. -/
theorem Remap.removeUnused_id (g : Cfg) (hwf : g.WF) (hroots : g.RootsIn (· < g.numSyms))
    (hnames : g.src.names.length ≤ g.numSyms) (hused : ∀ a, a < g.numSyms → g.Used a)
    (hpos : g.numSyms ≠ 0) : (Remap.new g).removeUnusedSymbols = .ok (Remap.new g) := by
  obtain ⟨b, b1, b2, b3⟩ := BitSet.unused_spec hwf
  have hno : ∀ s, ¬ Has b s := fun s hs => ((b3 s).1 hs).2 (hused s ((b3 s).1 hs).1)
  have hget : ∀ a, b.getD a false = false := by
    intro a
    have := hno a
    unfold Has at this
    rw [List.getD_eq_getElem?_getD]
    cases e : b[a]? with
    | none => rfl
    | some v => cases v <;> simp_all
  have hiter : BitSet.iter b = [] := by
    refine List.eq_nil_iff_forall_not_mem.2 fun a ha => hno a (BitSet.mem_iter.1 ha)
  unfold Remap.removeUnusedSymbols
  rw [show (Remap.new g).g.unusedSymbols = .ok b from b1, Res.bind_ok,
    Remap.reorderSymbols_id g (fun a c => by
      unfold cmpUnused; rw [hget, hget]; decide) hwf hroots hnames]
  simp only [Res.bind_ok, hiter, List.length_nil, Nat.sub_zero]
  show ((if g.numSyms = 0 then Res.panic else .ok ⟨g.numSyms, g.src.names.take g.numSyms⟩ :
    Res SymbolSource) >>= _) = _
  rw [if_neg hpos, List.take_of_length_le hnames]
  rfl

/-! ## Elimination of nulling rules -/

theorem limitRhsLen_id {g : Cfg} (h1 : g.rhsLenInvariant = some 2)
    (h2 : ∀ r ∈ g.rules, r.rhs.length ≤ 2) : g.limitRhsLen (some 2) = .ok g := by
  obtain ⟨g'', h4, h5, h6, h7⟩ := Cfg.addRules_len (n := 2) (by omega) g.rules
    (g := { g with rhsLenInvariant := some 2, rules := [] }) rfl (by simp)
  have := h7 h2
  unfold Cfg.limitRhsLen
  rw [h4, this]
  simp [← h1]

/-- On a grammar within the limit 2 and without nullable symbols nothing is changed. -/
theorem elim_id {g : Cfg} (hwf : g.WF) (h1 : g.rhsLenInvariant = some 2)
    (h2 : ∀ r ∈ g.rules, r.rhs.length ≤ 2) (hno : ∀ s, ¬ Nullable g.prod s) :
    g.binarizeAndEliminateNulling = .ok (g, Cfg.withSymSource g.src) := by
  obtain ⟨b₀, e2, hb₀, hb₀'⟩ := BitSet.nulling_spec hwf (BitSet.reset g.src)
    (BitSet.length_reset _)
  have hI : ∀ s, Has b₀ s ↔ g.prod s [] := by
    intro s
    rw [hb₀']
    have : ¬ Has (BitSet.reset g.src) s := by
      unfold Has
      rw [BitSet.getElem?_reset]
      split <;> simp
    simp [this]
  obtain ⟨b, e3, hb, hleast⟩ := closureAll_spec hwf b₀ hb₀
  have hemp : (BitSet.iter b).length = 0 := by
    rw [List.length_eq_zero_iff]
    exact List.eq_nil_iff_forall_not_mem.2 fun a ha =>
      hno a ((least_nullable hI hleast a).1 (BitSet.mem_iter.1 ha))
  simp only [Cfg.binarizeAndEliminateNulling, limitRhsLen_id h1 h2, Res.bind_ok,
    Cfg.nullingSymbols, e2, e3, hemp, if_true]

end Verif
