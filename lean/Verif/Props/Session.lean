import Verif.Proofs.Session
import Verif.Proofs.Precedence
import Verif.Props.Sets
import Verif.Props.Recursion
import Verif.Props.Predict
import Verif.Props.Useful

/-! # Property C125: sessions of calls -/

namespace Verif

open Cycles

theorem linked_ok {node : LinkedHistoryNode} (h : node.Ok) (prev : History) :
    ∃ hist, processLinked node prev = .ok hist := by
  cases node with
  | binarize height fullLen isTop =>
    change ∃ hist, prev.binarize height fullLen isTop = _
    unfold History.binarize
    split
    · split
      · exact ⟨_, rfl⟩
      · split <;> exact ⟨_, rfl⟩
    · rename_i hf
      rcases h with h | h
      · exact absurd h hf
      · rw [if_neg (by omega)]; exact ⟨_, rfl⟩
  | eliminateNulling rhs0 rhs1 which =>
    cases which with
    | all _ => exact ⟨_, rfl⟩
    | left =>
      cases rhs0 with
      | none => exact absurd rfl h
      | some _ => exact ⟨_, rfl⟩
    | right =>
      cases rhs1 with
      | none => exact absurd rfl h
      | some _ => exact ⟨_, rfl⟩
  | assignPrecedence _ => exact ⟨_, rfl⟩
  | rewriteSequence _ _ _ => exact ⟨_, rfl⟩
  | weight _ => exact ⟨_, rfl⟩
  | sequenceRhs rhs =>
    unfold processLinked
    dsimp only
    split <;> exact ⟨_, rfl⟩

theorem build_sound {n : Nat} (cs : List RuleCall) : ∀ {lhs : Bool} {b : RuleBuilder} {g : Cfg},
    g.Sound → n ≤ g.numSyms → (lhs = true → ∃ a, b.lhs = some a ∧ a < n) → BuildOk n lhs cs →
    ∃ x, RuleBuilder.run b g cs = .ok x ∧ x.2.Sound := by
  induction cs with
  | nil => intro lhs b g hs _ _ _; exact ⟨_, rfl, hs⟩
  | cons c cs ih =>
    intro lhs b g hs hn hb hok
    have key : ∀ (b' : RuleBuilder) (syms : List Sym) (h : History), lhs = true →
        b'.lhs = b.lhs → (∀ s ∈ syms, s < n) → BuildOk n lhs cs →
        ∃ x, (b'.rhsWithHistory g syms h >>= fun x => RuleBuilder.run x.1 x.2 cs) = .ok x ∧
          x.2.Sound := by
      intro b' syms h hl hb' hsy hok
      obtain ⟨a, ha, han⟩ := hb hl
      obtain ⟨x, e, hx, hle⟩ := hs.addRule (r := ⟨a, syms, h⟩) (Nat.lt_of_lt_of_le han hn)
        (fun s hs' => Nat.lt_of_lt_of_le (hsy s hs') hn)
      obtain ⟨y, e', hy⟩ := ih (b := b') hx (Nat.le_trans hn hle)
        (fun _ => ⟨a, hb'.trans ha, han⟩) hok
      refine ⟨y, ?_, hy⟩
      simp only [RuleBuilder.rhsWithHistory, hb', ha, Res.ofOption, Res.bind_ok, e]
      exact e'
    cases c with
    | rule a => exact ih hs hn (fun _ => ⟨a, rfl, hok.1⟩) hok.2
    | history h => exact ih (b := { b with history := some h }) hs hn hb hok
    | rhs syms =>
      obtain ⟨hl, hsy, hok⟩ := hok
      obtain ⟨a, ha, -⟩ := hb hl
      simp only [RuleBuilder.run, RuleBuilder.call]
      cases hh : b.history with
      | some h => exact key { b with history := none } syms h hl rfl hsy hok
      | none =>
        simp only [ha, Res.ofOption, Res.bind_ok]
        have := key { b with history := none } syms (History.ofRoot (.rule a)) hl rfl hsy hok
        simpa only [ha] using this
    | rhsWithHistory syms h => exact key b syms h hok.1 rfl hok.2.1 hok.2.2
    | rhsWithLinkedHistory syms node =>
      obtain ⟨hl, hsy, hnode, hok⟩ := hok
      obtain ⟨a, ha, -⟩ := hb hl
      obtain ⟨h, e⟩ := linked_ok hnode (History.ofRoot (.rule a))
      have := key b syms h hl rfl hsy hok
      simpa only [RuleBuilder.run, RuleBuilder.call, ha, Res.ofOption, Res.bind_ok, e] using this

/-- **C125.** A call whose arguments are as they must be returns, and what can be relied on
before it can be relied on after it. -/
theorem C125_call {g : Cfg} (hs : g.Sound) (c : Call) (hc : c.Ok g) :
    ∃ g', c.run g = .ok g' ∧ g'.Sound := by
  cases c with
  | sym name =>
    refine ⟨_, rfl, hs.grows (.fresh g name) fun r hr => ?_⟩
    obtain ⟨h1, h2⟩ := hs.rules r hr
    exact ⟨Nat.lt_succ_of_lt h1, fun s hs' => Nat.lt_succ_of_lt (h2 s hs')⟩
  | setRoots roots => exact ⟨_, rfl, hs.rules, ⟨hc, hs.roots.2⟩, hs.limit, hs.names⟩
  | addRule rule =>
    obtain ⟨x, e, h, -⟩ := hs.addRule hc.1 hc.2
    exact ⟨x.1, by simp only [Call.run, e, Res.bind_ok], h⟩
  | build calls =>
    obtain ⟨x, e, h⟩ := build_sound calls (b := {}) hs (Nat.le_refl _) (by simp) hc
    exact ⟨x.2, by simp only [Call.run, e, Res.bind_ok], h⟩
  | sequence p seq =>
    obtain ⟨st, P, Q, e, h, -⟩ := rewriteSequence_ok p hs.rules hs.limit.ok hc.1
      (u32_iff.1 hc.2.1) (fits_iff.1 hc.2.2)
    exact ⟨_, e, hs.grows (.sequence e) h.inv.split.wf⟩
  | precedenced lhs calls =>
    obtain ⟨g', e, h, -⟩ := precedencedRule_spec hs.rules hs.limit.ok hc.1 calls hc.2
    exact ⟨_, e, hs.grows (.precedenced e) h⟩
  | limitLen limit =>
    obtain ⟨g', e, hi, hl, hr, hw⟩ := Cfg.limitRhsLen_inv g hs.rules limit hc
    have hsrc := Cfg.SrcExt.limitRhsLen e
    refine ⟨g', e, hi.wf, hs.roots_le hsrc.le hr hw, ?_, hs.src_names hsrc⟩
    have h0 : Cfg.Limited { g with rhsLenInvariant := limit, rules := [] } :=
      fun n hn => ⟨hc n hn, by simp⟩
    exact (Cfg.Grows.addRules e h0).limited
  | sort =>
    refine ⟨_, rfl, hs.of_sub fun r hr => ?_⟩
    exact ((List.perm_insertionSort _ _).mem_iff).1 hr
  | dedup => exact ⟨_, rfl, hs.of_sub (fun r hr => (Cfg.dedupRules_spec g.rules).1.subset hr)⟩
  | retain f => exact ⟨_, rfl, hs.of_sub fun r hr => List.mem_of_mem_filter hr⟩
  | clear => exact ⟨_, rfl, hs.of_sub (by simp)⟩
  | reverse =>
    refine ⟨_, rfl, hs.of_rules fun r hr => ?_⟩
    obtain ⟨r', hr', rfl⟩ := List.mem_map.1 hr
    simpa using hs.rule hr'
  | extend other =>
    refine ⟨_, rfl, hs.of_rules fun r hr => ?_⟩
    rcases List.mem_append.1 hr with h | h
    · exact hs.rule h
    · exact hc r h
  | wrap =>
    obtain ⟨g', e, h⟩ := Cfg.wrapInput_inv g hs.rules hs.limit.ok hs.roots.1
    have hfr : ∀ w ∈ g'.wrappedRoots, ∀ s ∈ [w.root, w.startOfInput, w.endOfInput],
        s < g'.numSyms :=
      fun w hw s hs' => (h.fresh s (List.mem_flatMap.2 ⟨w, hw, hs'⟩)).2
    refine ⟨g', e, h.wf, ⟨fun a ha => ?_, fun w hw => ?_⟩, Cfg.Grows.wrapInput hs.limit e,
      hs.src_names (.wrapInput e)⟩
    · rw [h.roots] at ha
      obtain ⟨w, hw, rfl⟩ := List.mem_map.1 ha
      exact hfr w hw _ (by simp)
    · exact ⟨hfr w hw _ (by simp), (h.wraps w hw).1, hfr w hw _ (by simp), hfr w hw _ (by simp)⟩
  | eliminateNulling =>
    obtain ⟨g₁, g', res, e, h⟩ := elim_spec hs.rules
    refine ⟨g', by simp only [Call.run, e, Res.bind_ok], h.wf, ?_, ?_, ?_⟩
    · exact hs.roots_le (Cfg.SrcExt.eliminate e).le h.roots.1 h.roots.2
    · intro n hn
      rw [h.limit] at hn
      cases hn
      exact ⟨Nat.le_refl _, h.two⟩
    · exact hs.src_names (.eliminate e)
  | removeUseless roots =>
    obtain ⟨u, e, h⟩ := usefulness_spec hs.rules roots hc
    have hrem := h.remove hs.rules
    have he : Call.run g (.removeUseless roots) = u.removeUselessRules g := by
      simp only [Call.run, e, Res.bind_ok]
    exact ⟨_, he.trans hrem, hs.of_sub fun r hr => List.mem_of_mem_filter hr⟩
  | makeProper =>
    obtain ⟨g', b, e, h, -⟩ := makeProper_spec hs.rules hs.roots.1
    obtain ⟨rules, rfl⟩ := makeProper_eq e
    exact ⟨_, by simp only [Call.run, e, Res.bind_ok], hs.of_sub fun r hr => h.sub.subset hr⟩
  | removeCycles =>
    obtain ⟨c, e, hf⟩ := new_spec hs.rules
    obtain ⟨b, e', -⟩ := hf.removeCycles hs.rules
    refine ⟨_, by simp only [Call.run, e, e', Res.bind_ok]; rfl, hs.of_sub fun r hr => ?_⟩
    exact List.mem_of_mem_filter hr
  | rewriteCycles =>
    obtain ⟨c, c', e, e', h⟩ := hs.rewriteCycles
    exact ⟨_, by simp only [Call.run, e, e', Res.bind_ok], h⟩
  | reorder f =>
    obtain ⟨h1, h2, h3, -⟩ := C84_new_mapping g
    obtain ⟨r', σ, e, -, hren, -, -, hwf, hr, hn, -⟩ := C84_reorder_symbols (Remap.new g) hc
      hs.rules hs.roots hs.limit hs.names h2 (Nat.le_of_eq h3.symm)
    exact ⟨r'.g, by simp only [Call.run, e, Res.bind_ok], hs.renamed hren hwf hr hn⟩
  | removeUnused =>
    obtain ⟨r', σ, e, -, hren, -, -, hwf, -, hn, hr, -⟩ := C85_remove_unused_symbols g hs.rules
      hs.roots hs.limit hs.names hc.1
    exact ⟨r'.g, by simp only [Call.run, e, Res.bind_ok], hs.renamed hren hwf (hr hc.2) hn⟩
  | lr0 start =>
    obtain ⟨g', nodes, e, hr, -⟩ := C83_lr0_fsm hs.rules hs.limit.ok hc
    refine ⟨g', by simp only [Call.run, e, Res.bind_ok], hs.grows (.lr0 e) fun r h => ?_⟩
    have hlt : g.numSyms < g'.numSyms := Cfg.Grows.lr0_lt hs.limit e
    rw [hr] at h
    rcases List.mem_append.1 h with h | h
    · obtain ⟨h1, h2⟩ := hs.rules r h
      exact ⟨Nat.lt_trans h1 hlt, fun s hs' => Nat.lt_trans (h2 s hs') hlt⟩
    · obtain rfl := List.mem_singleton.1 h
      refine ⟨hlt, fun s hs' => ?_⟩
      obtain rfl := List.mem_singleton.1 hs'
      exact Nat.lt_trans hc hlt

/-- **C125.** Every session of such calls, from a sound grammar, returns a sound grammar. -/
theorem C125_session {g : Cfg} (hs : g.Sound) (cs : List Call) (hc : AllOk g cs) :
    ∃ g', runAll g cs = .ok g' ∧ g'.Sound := by
  induction cs generalizing g with
  | nil => exact ⟨g, rfl, hs⟩
  | cons c cs ih =>
    obtain ⟨g₁, e, hs₁⟩ := C125_call hs c hc.1
    obtain ⟨g', e', hs'⟩ := ih hs₁ (hc.2 g₁ e)
    exact ⟨g', by simp only [runAll, e, Res.bind_ok, e'], hs'⟩

/-- **C125.** A new grammar is sound. -/
theorem C125_new : Cfg.new.Sound :=
  ⟨by decide, by decide, fun n hn => (nomatch hn), by decide⟩

/-- **C125.** On every grammar made by such a session, every analysis returns: symbol sets and their
closures, matrices, usefulness for roots of the grammar, cycles, recursion, FIRST, FOLLOW and LAST
sets, the LL(1) table with the classes, and the LR(0) automaton. -/
theorem C125_analyses (cs : List Call) (hc : AllOk Cfg.new cs) {g : Cfg}
    (hg : runAll Cfg.new cs = .ok g) :
    (∃ b, g.terminalSymbols = .ok b) ∧ (∃ b, g.nullingSymbols = .ok b) ∧
    (∃ b, g.unusedSymbols = .ok b) ∧
    (∀ b : BitSet, b.length = g.numSyms →
      (∃ b', g.rhsClosureForAll b = .ok b') ∧ ∃ b', g.rhsClosureForAny b = .ok b') ∧
    (∃ m, g.directDerivationMatrix = .ok m) ∧ (∃ m, g.reachabilityMatrix = .ok m) ∧
    (∃ m, g.unitDerivationMatrix = .ok m) ∧
    (∀ roots : List Sym, (∀ s ∈ roots, s < g.numSyms) → ∃ u, g.usefulnessWithRoots roots = .ok u) ∧
    (∃ u, g.usefulness = .ok u) ∧
    (∃ c b c', Cycles.new g = .ok c ∧ c.isCycleFree = .ok (b, c')) ∧
    (∃ l, g.recursiveRules = .ok l) ∧
    (∃ fs, g.firstSets = .ok fs) ∧ (∃ m, g.followSets = .ok m) ∧ (∃ m, g.lastSets = .ok m) ∧
    (∃ t c, g.llParseTable = .ok t ∧ g.llClassify t = .ok c) ∧
    ∀ start, start < g.numSyms → ∃ x, g.makeLr0Fsm start = .ok x := by
  obtain ⟨g₁, e, hs⟩ := C125_session C125_new cs hc
  obtain rfl := Res.ok.inj (e.symm.trans hg)
  have hwf := hs.rules
  refine ⟨?_, ?_, ?_, fun b hb => ⟨?_, ?_⟩, ?_, ?_, ?_, fun roots hr => ?_, ?_, ?_, ?_, ?_, ?_, ?_, ?_,
    fun start h => ?_⟩
  · obtain ⟨b, h, -⟩ := C07_terminal _ hwf; exact ⟨b, h⟩
  · obtain ⟨b, h, -⟩ := C07_nulling _ hwf; exact ⟨b, h⟩
  · obtain ⟨b, h, -⟩ := C07_unused _ hwf; exact ⟨b, h⟩
  · obtain ⟨b, h, -⟩ := C09_all _ hwf b hb; exact ⟨b, h⟩
  · obtain ⟨b, h, -⟩ := C09_any _ hwf b hb; exact ⟨b, h⟩
  · obtain ⟨b, h, -⟩ := C33_direct hwf; exact ⟨b, h⟩
  · obtain ⟨b, h, -⟩ := C33_reachability hwf; exact ⟨b, h⟩
  · obtain ⟨b, h, -⟩ := C33_unit hwf; exact ⟨b, h⟩
  · obtain ⟨b, h, -⟩ := usefulness_spec hwf roots hr; exact ⟨b, h⟩
  · obtain ⟨b, h, -⟩ := usefulness_spec hwf _ hs.roots.1; exact ⟨b, h⟩
  · obtain ⟨c, b, c', h1, h2, -⟩ := C34_cycle_free hwf; exact ⟨c, b, c', h1, h2⟩
  · obtain ⟨b, h, -⟩ := C39_recursive hwf; exact ⟨b, h⟩
  · obtain ⟨b, h, -⟩ := C41_first hwf; exact ⟨b, h⟩
  · obtain ⟨b, h, -⟩ := C43_follow hwf; exact ⟨b, h⟩
  · obtain ⟨b, h, -⟩ := C45_last hwf; exact ⟨b, h⟩
  · obtain ⟨t, c, h1, h2, -⟩ := C76_classes hwf; exact ⟨t, c, h1, h2⟩
  · obtain ⟨g', nodes, h, -⟩ := C83_lr0_fsm hwf hs.limit.ok h; exact ⟨_, h⟩

/-- Symbols and rules for `S ::= a S b | `, a sequence, a limit, wrapping, elimination of nulling
rules, and removal of unused symbols. -/
def exSession : List Call :=
  [.sym (some "a"), .sym (some "S"), .sym none, .setRoots [1],
   .build [.rule 1, .rhs [0, 1, 2], .rhs []],
   .sequence .debug ⟨2, 0, 2, some 5, .proper 1, none⟩, .limitLen (some 2), .wrap, .eliminateNulling,
   .removeUnused]

theorem AllOk.cons {g g' : Cfg} {c : Call} {cs : List Call} (h : c.Ok g) (e : c.run g = .ok g')
    (h' : AllOk g' cs) : AllOk g (c :: cs) :=
  ⟨h, fun g'' e' => by obtain rfl := Res.ok.inj (e.symm.trans e'); exact h'⟩

/-- The grammar after `k` calls. -/
def exAt (k : Nat) : Cfg := match runAll Cfg.new (exSession.take k) with
  | .ok g => g
  | _ => {}

example : AllOk Cfg.new exSession ∧ (exAt 9).rules.length = 19 := by
  have e : ∀ k < 9, (exSession.getD k .sort).run (exAt k) = .ok (exAt (k + 1)) := by
    decide +kernel
  refine ⟨?_, by decide +kernel⟩
  refine .cons trivial (e 0 (by decide)) <| .cons trivial (e 1 (by decide)) <|
    .cons trivial (e 2 (by decide)) <| .cons ?_ (e 3 (by decide)) <| .cons ?_ (e 4 (by decide)) <|
    .cons ?_ (e 5 (by decide)) <| .cons ?_ (e 6 (by decide)) <| .cons trivial (e 7 (by decide)) <|
    .cons trivial (e 8 (by decide)) ⟨?_, fun _ _ => trivial⟩
  · show ∀ s ∈ [1], s < (exAt 3).numSyms
    decide +kernel
  · show 1 < (exAt 4).numSyms ∧ true = true ∧ (∀ s ∈ [0, 1, 2], s < (exAt 4).numSyms) ∧
      true = true ∧ (∀ s ∈ [], s < (exAt 4).numSyms) ∧ True
    decide +kernel
  · refine ⟨⟨?_, ?_, fun s hs => ?_⟩, ⟨by decide, fun e h => ?_⟩, ?_⟩
    · show 2 < (exAt 5).numSyms; decide +kernel
    · show 0 < (exAt 5).numSyms; decide +kernel
    · cases hs; show 1 < (exAt 5).numSyms; decide +kernel
    · cases h; decide
    · show 2 ≤ 5 ∧ (2 ≤ 1 ∨ 2 = 5 → 5 ≤ 2 ^ 31) ∧ (2 ≤ 2 ∧ 2 < 5 → 2 ≤ 2 ^ 31 + 1 ∧ 5 - 2 + 1 ≤ 2 ^ 31)
      omega
  · intro n hn; cases hn; decide
  · show (exAt 9).rules ≠ [] ∧ (exAt 9).RootsIn (exAt 9).Used
    decide +kernel

end Verif
