import Verif.Proofs.Lr0

/-! # Properties C48, C82, C83: LR(0) item sets -/

namespace Verif

theorem lrCtx_of_wf {g : Cfg} (hwf : g.WF) : ∃ t, g.terminalSymbols = .ok t ∧ LrCtx g t ∧
    t.length = g.numSyms ∧ ∀ a, a ∈ t.iter ↔ g.Term a := by
  obtain ⟨t, h1, h2, h3⟩ := BitSet.terminal_spec hwf
  refine ⟨t, h1, ⟨?_, ?_⟩, h2, fun a => by rw [BitSet.mem_iter, h3]⟩
  · intro r hr s hs
    rw [h2]
    exact (hwf r hr).2 s hs
  · intro s hs
    rw [h3]
    unfold Cfg.Term
    rw [← h2]
    exact ⟨fun h => h.2, fun h => ⟨hs, h⟩⟩

/-- **C82.** `closure` always terminates; its result has one item for each rule: with the dot at the
start if the left side of the rule is expanded, else the given item. A symbol is expanded if it is a
nonterminal after the dot of a given item, or the first symbol of a rule of an expanded symbol that
has no given item. -/
theorem C82_closure_exact {g : Cfg} (hwf : g.WF) {m0 : Lr0Items} (h0 : ItemsOk g.rules m0) :
    ∃ t m, g.terminalSymbols = .ok t ∧ lr0Closure g t m0 = .ok m ∧ ItemsOk g.rules m ∧
      ∀ i d, ItemSet m i d ↔ OneItemClosure g.rules (ItemSet m0) i d := by
  obtain ⟨t, h1, hc, -, -⟩ := lrCtx_of_wf hwf
  obtain ⟨m, h2, h3, h4⟩ := lr0Closure_spec hc h0
  exact ⟨t, m, h1, h2, h3, h4⟩

/-- **C48** when no rule with a given item, other than with the dot at the start, is added with the
dot at the start: the result is the item closure. What is missing: rules that need two items, for
which it is false (`C48_violated_lost_kernel`). -/
theorem C48_closure_partial {g : Cfg} (hwf : g.WF) {m0 : Lr0Items} (h0 : ItemsOk g.rules m0)
    (hk : ∀ i d, ItemSet m0 i d → ItemClosure g.rules (ItemSet m0) i 0 → d = 0) :
    ∃ t m, g.terminalSymbols = .ok t ∧ lr0Closure g t m0 = .ok m ∧
      ∀ i d, ItemSet m i d ↔ ItemClosure g.rules (ItemSet m0) i d := by
  obtain ⟨t, m, h1, h2, -, h4⟩ := C82_closure_exact hwf h0
  refine ⟨t, m, h1, h2, fun i d => (h4 i d).trans (oneItemClosure_iff ?_ hk i d)⟩
  rintro i d ⟨it, hm, -⟩
  obtain ⟨r, hr, -⟩ := h0.2 i it hm
  exact ⟨r, hr⟩

/-- Symbols `S E T + n ( )`: `S ::= E`, `E ::= E + T | T`, `T ::= n | ( E )`. -/
def lrGrammar : Cfg :=
  { src := ⟨7, List.replicate 7 none⟩,
    rules := [⟨0, [1], {}⟩, ⟨1, [1, 3, 2], {}⟩, ⟨1, [2], {}⟩, ⟨2, [4], {}⟩, ⟨2, [5, 1, 6], {}⟩],
    roots := [0] }

example : lrGrammar.WF ∧ ItemsOk lrGrammar.rules [(1, ⟨[1, 3, 2], 2⟩)] := by
  refine ⟨by decide +kernel, by decide +kernel, ?_⟩
  intro i it h
  simp only [List.mem_singleton, Prod.mk.injEq] at h
  obtain ⟨rfl, rfl⟩ := h
  exact ⟨_, rfl, rfl⟩

/-- `E ::= E + • T` also meets the condition of C48. -/
example : ∀ i d, ItemSet [(1, ⟨[1, 3, 2], 2⟩)] i d →
    ItemClosure lrGrammar.rules (ItemSet [(1, ⟨[1, 3, 2], 2⟩)]) i 0 → d = 0 := by
  have key : ∀ i d, ItemClosure lrGrammar.rules (ItemSet [(1, ⟨[1, 3, 2], 2⟩)]) i d →
      (i = 1 ∧ d = 2) ∨ i = 3 ∨ (i = 4 ∧ d = 0) := by
    intro i d h
    induction h with
    | kernel h =>
      obtain ⟨it, h1, h2⟩ := h
      simp only [List.mem_singleton, Prod.mk.injEq] at h1
      obtain ⟨rfl, rfl⟩ := h1
      exact .inl ⟨rfl, h2.symm⟩
    | @predict i d r j s _ hr hj hp ih =>
      have hj' : j < 5 := (List.getElem?_eq_some_iff.1 hj).1
      rcases ih with ⟨rfl, rfl⟩ | rfl | ⟨rfl, rfl⟩
      · cases hr
        have e : s.lhs = 2 := (Option.some.inj hp).symm
        rcases j with _ | _ | _ | _ | _ | j
        · cases hj; simp at e
        · cases hj; simp at e
        · cases hj; simp at e
        · exact .inr (.inl rfl)
        · exact .inr (.inr ⟨rfl, rfl⟩)
        · omega
      · cases hr
        rcases d with _ | d
        · have e : s.lhs = 4 := (Option.some.inj hp).symm
          rcases j with _ | _ | _ | _ | _ | j
          · cases hj; simp at e
          · cases hj; simp at e
          · cases hj; simp at e
          · cases hj; simp at e
          · cases hj; simp at e
          · omega
        · simp at hp
      · cases hr
        have e : s.lhs = 5 := (Option.some.inj hp).symm
        rcases j with _ | _ | _ | _ | _ | j
        · cases hj; simp at e
        · cases hj; simp at e
        · cases hj; simp at e
        · cases hj; simp at e
        · cases hj; simp at e
        · omega
  rintro i d ⟨it, h1, h2⟩ h
  simp only [List.mem_singleton, Prod.mk.injEq] at h1
  obtain ⟨rfl, rfl⟩ := h1
  rcases key _ _ h with ⟨-, h⟩ | h | ⟨h, -⟩ <;> omega

/-- **C48 is false** for `S ::= a • S`: the closure loses the given item, because the rule is added
again with the dot at the start. -/
theorem C48_violated_lost_kernel : ∃ (g : Cfg) (m0 : Lr0Items) (t : BitSet) (m : Lr0Items)
    (i d : Nat), g.WF ∧ ItemsOk g.rules m0 ∧ g.terminalSymbols = .ok t ∧
    lr0Closure g t m0 = .ok m ∧ ItemSet m0 i d ∧ ¬ ItemSet m i d := by
  refine ⟨{ src := ⟨2, [none, none]⟩, rules := [⟨0, [1, 0], {}⟩, ⟨0, [], {}⟩] },
    [(0, ⟨[1, 0], 1⟩)], [false, true], [(0, ⟨[1, 0], 0⟩), (1, ⟨[], 0⟩)], 0, 1, by decide +kernel,
    ⟨by decide +kernel, ?_⟩, by decide +kernel, by decide +kernel, ⟨⟨[1, 0], 1⟩, by simp, rfl⟩, ?_⟩
  · intro i it h
    simp only [List.mem_singleton, Prod.mk.injEq] at h
    obtain ⟨rfl, rfl⟩ := h
    exact ⟨_, rfl, rfl⟩
  · rintro ⟨it, h1, h2⟩
    simp only [List.mem_cons, Prod.mk.injEq, List.not_mem_nil, or_false] at h1
    rcases h1 with ⟨-, rfl⟩ | ⟨h, -⟩
    · simp at h2
    · simp at h

/-- **C48 is false** for `S ::= A • S` in another way: the rule is added again with the dot at the
start, but the rules of `A` are not. -/
theorem C48_violated_missing : ∃ (g : Cfg) (m0 : Lr0Items) (t : BitSet) (m : Lr0Items)
    (i d : Nat), g.WF ∧ ItemsOk g.rules m0 ∧ g.terminalSymbols = .ok t ∧
    lr0Closure g t m0 = .ok m ∧ ItemClosure g.rules (ItemSet m0) i d ∧ ¬ ∃ e, ItemSet m i e := by
  refine ⟨{ src := ⟨3, [none, none, none]⟩,
            rules := [⟨0, [1, 0], {}⟩, ⟨0, [], {}⟩, ⟨1, [2], {}⟩] },
    [(0, ⟨[1, 0], 1⟩)], [false, false, true], [(0, ⟨[1, 0], 0⟩), (1, ⟨[], 0⟩)], 2, 0,
    by decide +kernel, ⟨by decide +kernel, ?_⟩, by decide +kernel, by decide +kernel, ?_, ?_⟩
  · intro i it h
    simp only [List.mem_singleton, Prod.mk.injEq] at h
    obtain ⟨rfl, rfl⟩ := h
    exact ⟨_, rfl, rfl⟩
  · refine .predict (i := 0) (d := 0) (r := ⟨0, [1, 0], {}⟩) (s := ⟨1, [2], {}⟩) ?_ rfl rfl rfl
    exact .predict (i := 0) (d := 1) (r := ⟨0, [1, 0], {}⟩) (s := ⟨0, [1, 0], {}⟩)
      (.kernel ⟨⟨[1, 0], 1⟩, by simp, rfl⟩) rfl rfl rfl
  · rintro ⟨e, it, h1, h2⟩
    simp at h1

theorem lr0Augment_spec {g : Cfg} (hlim : g.LimitOk) (start : Sym) :
    ∃ g', g.lr0Augment start = .ok (g', g.numSyms, g.rules.length) ∧
      g'.rules = g.rules ++ [⟨g.numSyms, [start], History.ofRoot .noOp⟩] ∧
      g'.numSyms = g.numSyms + 1 := by
  unfold Cfg.lr0Augment
  simp only [RuleBuilder.rhsWithHistory, Res.ofOption, Res.bind_ok]
  have key : ∃ g', (g.nextSym none).2.addRule ⟨g.numSyms, [start], History.ofRoot .noOp⟩ =
      .ok (g', 1) ∧ g'.rules = g.rules ++ [⟨g.numSyms, [start], History.ofRoot .noOp⟩] ∧
      g'.numSyms = g.numSyms + 1 := by
    cases e : g.rhsLenInvariant with
    | none =>
      exact ⟨_, Cfg.addRule_none _ _ e, rfl, rfl⟩
    | some n =>
      have hn := hlim n e
      obtain ⟨rs, h1, -, h2, -⟩ := Cfg.addRule_spec (g.nextSym none).2
        ⟨g.numSyms, [start], History.ofRoot .noOp⟩ n hn e
      have h2 := h2 (by simp only [List.length_singleton]; omega)
      subst h2
      exact ⟨_, h1, rfl, rfl⟩
  obtain ⟨g', h1, h2, h3⟩ := key
  have e1 : (g.nextSym none).1 = g.numSyms := rfl
  have e2 : (g.nextSym none).2.rules = g.rules := rfl
  rw [e1, h1]
  exact ⟨g', rfl, h2, h3⟩

/-- **C83.** `make_lr0_fsm` always terminates. It adds a rule for a fresh start symbol. The first
node is the item closure of that rule. Different nodes have different items. A node has a link
through a symbol exactly if it is a terminal after the dot of some of its items; the link is unique
and leads to the (one item per rule) closure of the items with the dot moved. Every other node is
the target of a link from an earlier node. -/
theorem C83_lr0_fsm {g : Cfg} (hwf : g.WF) (hlim : g.LimitOk) {start : Sym}
    (hs : start < g.numSyms) :
    ∃ g' nodes, g.makeLr0Fsm start = .ok (g', nodes) ∧
      g'.rules = g.rules ++ [⟨g.numSyms, [start], History.ofRoot .noOp⟩] ∧
      (∃ n, nodes[0]? = some n ∧ ∀ i d, ItemSet n.items i d ↔
        ItemClosure g'.rules (fun i d => i = g.rules.length ∧ d = 0) i d) ∧
      (∀ (j k : Nat) (m n : Lr0Node), nodes[j]? = some m → nodes[k]? = some n →
        (∀ i d, ItemSet m.items i d ↔ ItemSet n.items i d) → j = k) ∧
      (∀ n ∈ nodes, ∀ a, (∃ k, (a, k) ∈ n.link) ↔
        g.Term a ∧ ∃ i d, Moved g'.rules (ItemSet n.items) a i d) ∧
      (∀ n ∈ nodes, ∀ a k, (a, k) ∈ n.link → (∀ k', (a, k') ∈ n.link → k' = k) ∧
        ∃ n', nodes[k]? = some n' ∧ ∀ i d, ItemSet n'.items i d ↔
          OneItemClosure g'.rules (Moved g'.rules (ItemSet n.items) a) i d) ∧
      (∀ k : Nat, 0 < k → k < nodes.length → ∃ j n a, j < k ∧ nodes[j]? = some n ∧ (a, k) ∈ n.link) := by
  obtain ⟨t, h1, hc, hlen, hterm⟩ := lrCtx_of_wf hwf
  obtain ⟨g', h2, h3, h4⟩ := lr0Augment_spec hlim start
  have hc' : LrCtx g' t := by
    constructor
    · intro r hr s hs'
      rw [h3] at hr
      rcases List.mem_append.1 hr with hr | hr
      · exact hc.rhs r hr s hs'
      · rw [List.mem_singleton] at hr
        subst hr
        rw [List.mem_singleton] at hs'
        omega
    · intro s hs'
      rw [hc.term s hs', h3]
      constructor
      · intro h r hr
        rcases List.mem_append.1 hr with hr | hr
        · exact h r hr
        · rw [List.mem_singleton] at hr
          subst hr
          simp only
          omega
      · intro h r hr
        exact h r (List.mem_append_left _ hr)
  have hin : LrItemsIn g'.rules [(g.rules.length, ⟨[start], 0⟩)] := by
    refine ⟨⟨by simp [BMap.Sorted], ?_⟩, ?_⟩
    · intro i it h
      simp only [List.mem_singleton, Prod.mk.injEq] at h
      obtain ⟨rfl, rfl⟩ := h
      exact ⟨⟨g.numSyms, [start], History.ofRoot .noOp⟩, by rw [h3]; simp, rfl⟩
    · intro i it h
      simp only [List.mem_singleton, Prod.mk.injEq] at h
      obtain ⟨rfl, rfl⟩ := h
      simp
  have hK : ItemSet [(g.rules.length, ⟨[start], 0⟩)] = fun i d => i = g.rules.length ∧ d = 0 := by
    funext i d
    apply propext
    constructor
    · rintro ⟨it, h, rfl⟩
      simp only [List.mem_singleton, Prod.mk.injEq] at h
      obtain ⟨rfl, rfl⟩ := h
      exact ⟨rfl, rfl⟩
    · rintro ⟨rfl, rfl⟩
      exact ⟨⟨[start], 0⟩, by simp, rfl⟩
  obtain ⟨m, h5, h6, h7⟩ := lr0Closure_in hc' hin
  rw [hK] at h7
  have h7' : ∀ i d, ItemSet m i d ↔ ItemClosure g'.rules (fun i d => i = g.rules.length ∧ d = 0) i d :=
    fun i d => (h7 i d).trans (oneItemClosure_iff (by
      rintro i d ⟨rfl, rfl⟩
      exact ⟨⟨g.numSyms, [start], History.ofRoot .noOp⟩, by rw [h3]; simp⟩) (fun i d h _ => h.2) i d)
  obtain ⟨nodes, e1, e2, ⟨N, e3⟩, e4, e5⟩ := lr0FsmLoop_spec hc' (lr0Fuel g'.rules) (L := [m])
    (f := Lr0Fsm.introduceSet {} m 0) (result := []) ⟨rfl, rfl, by simp, by simpa using h6⟩ (by simp)
    (by
      intro k x hk hk0
      have := (List.getElem?_eq_some_iff.1 hk).1
      simp only [List.length_singleton] at this
      omega) (by simp)
  have hitem : ∀ (k : Nat) (n : Lr0Node), nodes[k]? = some n → (nodes.map (·.items))[k]? = some n.items := by
    intro k n hk
    rw [List.getElem?_map, hk]
    rfl
  have hitem' : ∀ (k : Nat) (x : Lr0Items), (nodes.map (·.items))[k]? = some x → ∃ n, nodes[k]? = some n ∧ n.items = x := by
    intro k x hk
    rw [List.getElem?_map] at hk
    cases h : nodes[k]? with
    | none => rw [h] at hk; cases hk
    | some n => rw [h] at hk; exact ⟨n, rfl, Option.some.inj hk⟩
  have hin' : ∀ n ∈ nodes, LrItemsIn g'.rules n.items := fun n hn =>
    e2.items _ (List.mem_map.2 ⟨n, hn, rfl⟩)
  refine ⟨g', nodes, ?_, h3, ?_, ?_, ?_, ?_, ?_⟩
  · unfold Cfg.makeLr0Fsm
    simp only [h1, Res.bind_ok, h2, h5, e1]
  · obtain ⟨n, hn, rfl⟩ := hitem' 0 m (by rw [e3]; rfl)
    exact ⟨n, hn, h7'⟩
  · intro j k x y hj hk hxy
    have hx := hin' x (List.mem_of_getElem? hj)
    have hy := hin' y (List.mem_of_getElem? hk)
    have hxy' : x.items = y.items := by
      refine hx.1.1.ext hy.1.1 fun i it => ?_
      constructor
      · intro h
        obtain ⟨r, hr, e⟩ := hx.1.2 i it h
        obtain ⟨rhs, dot⟩ := it
        simp only at e
        subst e
        exact (itemSet_mem hy.1 hr).1 ((hxy i dot).1 ⟨_, h, rfl⟩)
      · intro h
        obtain ⟨r, hr, e⟩ := hy.1.2 i it h
        obtain ⟨rhs, dot⟩ := it
        simp only at e
        subst e
        exact (itemSet_mem hx.1 hr).1 ((hxy i dot).2 ⟨_, h, rfl⟩)
    have hj' := hitem j x hj
    have hk' := hitem k y hk
    rw [← hxy'] at hk'
    have hjl := (List.getElem?_eq_some_iff.1 hj').1
    exact (List.getElem?_inj hjl e2.nodup).1 (hj'.trans hk'.symm)
  · intro n hn a
    constructor
    · rintro ⟨k, hk⟩
      obtain ⟨ha, x, hx, -⟩ := (e4 n hn).sound a k hk
      refine ⟨(hterm a).1 ha, ?_⟩
      rcases lr0Advance_spec hc' (hin' n hn) a with ⟨e, -⟩ | ⟨y, -, -, h, -⟩
      · rw [e] at hx; cases hx
      · exact h
    · rintro ⟨ha, i, d, hm⟩
      rcases lr0Advance_spec hc' (hin' n hn) a with ⟨-, e⟩ | ⟨y, e, -⟩
      · exact absurd hm (e i d)
      · exact (e4 n hn).complete a ((hterm a).2 ha) y e
  · intro n hn a k hk
    refine ⟨fun k' hk' => (e4 n hn).sorted.unique hk' hk, ?_⟩
    obtain ⟨ha, x, hx, hxk⟩ := (e4 n hn).sound a k hk
    obtain ⟨n', hn', rfl⟩ := hitem' k x hxk
    refine ⟨n', hn', ?_⟩
    rcases lr0Advance_spec hc' (hin' n hn) a with ⟨e, -⟩ | ⟨y, e, -, -, h⟩
    · rw [e] at hx; cases hx
    · rw [e] at hx
      cases hx
      exact h
  · intro k hk0 hk
    obtain ⟨j, x, hj, hx, a, ha, hadv⟩ := e5 k nodes[k].items
      (hitem k _ (List.getElem?_eq_getElem hk)) hk0
    obtain ⟨n, hn, rfl⟩ := hitem' j x hx
    obtain ⟨k', hk'⟩ := (e4 n (List.mem_of_getElem? hn)).complete a ha _ hadv
    obtain ⟨-, y, hy, hyk⟩ := (e4 n (List.mem_of_getElem? hn)).sound a k' hk'
    rw [hadv] at hy
    cases hy
    have hkl : k < (nodes.map (·.items)).length := by simpa using hk
    have : k = k' := (List.getElem?_inj hkl e2.nodup).1
      ((hitem k _ (List.getElem?_eq_getElem hk)).trans hyk.symm)
    subst this
    exact ⟨j, n, a, hj, hn, hk'⟩

example : lrGrammar.WF ∧ lrGrammar.LimitOk ∧ 0 < lrGrammar.numSyms := by decide +kernel

/-- The machine for `S ::= a S b |` has two nodes. -/
example : (fun p : Cfg × List Lr0Node => p.2.map (·.link)) <$>
    ({ src := ⟨3, [none, none, none]⟩, rules := [⟨0, [1, 0, 2], {}⟩, ⟨0, [], {}⟩] } : Cfg).makeLr0Fsm 0
      = .ok [[(1, 1)], [(1, 1)]] := by decide +kernel

end Verif
