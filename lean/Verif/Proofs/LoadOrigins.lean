import Verif.Proofs.LoadBnf
import Verif.Proofs.LoadAdvLoop

/-! # Proofs about the origins of the rules that a BNF text is loaded as -/

namespace Verif.Basic

open Advanced (originRules origins_steps origins_push)

theorem loadRule_origin (p : Profile) {st : LoadState} {reps : List RepSym} {extra : List Sym}
    {done : List (Sym × List Piece)} (h : LoadInv st reps extra done) {idx : Nat}
    (hlt : idx + 1 < u32Max) (rule : Rule) :
    ∃ st' new d r, loadRule p st idx rule = .ok st' ∧
      LoadInv st' (reps ++ new) extra (done ++ [d]) ∧ rule.Is st' d ∧
      (∀ n s, st.Named n s → st'.Named n s) ∧
      (∀ n, n ∈ st'.intern ↔ n ∈ st.intern ∨ n ∈ rule.names) ∧
      originRules st'.cfg = originRules st.cfg ++ [r] ∧ r.history.origin = idx + 1 ∧ r.lhs = d.1 ∧
      List.Forall₂ (Piece.Is (reps ++ new)) d.2 r.rhs := by
  obtain ⟨A, st₁, e1, h₁, hn₁, hg₁⟩ := h.symFor rule.lhs
  have h₂ : LoadInv (st₁.first A) reps extra done := by
    unfold LoadState.first
    split
    · exact h₁.change (h₁.g.congr rfl rfl rfl) rfl
    · exact h₁
  have hnm : ∀ n s, st₁.Named n s ↔ (st₁.first A).Named n s := by
    intro n s
    unfold LoadState.first
    split <;> exact Iff.rfl
  have hin : (st₁.first A).intern = st₁.intern := by unfold LoadState.first; split <;> rfl
  have hor : originRules (st₁.first A).cfg = originRules st.cfg := by
    rw [← origins_steps hg₁.steps]
    unfold LoadState.first
    split <;> rfl
  obtain ⟨syms, st₃, new, ps, e3, h₃, h4, h5, hg₃⟩ := fragments_spec p rule.rhs h₂
  have hA := hg₃.named _ _ ((hnm _ _).1 hn₁)
  have hAl := h₃.named_lt hA
  have e4 : st₃.add A idx syms = .ok { st₃ with
      cfg := st₃.cfg.pushRule ⟨A, syms, History.ofRoot (.origin (idx + 1))⟩ } := by
    unfold LoadState.add
    rw [addRule_push h₃.g.limit, Res.bind_ok]
  obtain ⟨k1, k2⟩ := origins_push st₃.cfg A syms (Nat.succ_ne_zero idx) hlt
  refine ⟨_, new, (A, ps), ⟨A, syms, History.ofRoot (.origin (idx + 1))⟩, ?_,
    h₃.change (b := st₃.internEmpty) (h₃.g.rule
    (hist := History.ofRoot (.origin (idx + 1))) hAl.1 hAl.2.1 ?_ h4) rfl,
    ⟨hA, h5⟩, fun n s hn => hg₃.named _ _ ((hnm n s).1 (hg₁.named _ _ hn)), ?_, ?_, k2, rfl, h4⟩
  · unfold loadRule
    rw [e1]
    dsimp only
    rw [e3, Res.bind_ok]
    dsimp only
    rw [e4]
  · intro q hq
    obtain ⟨f, -, hf⟩ := forall₂_right h5 hq
    have := h₃.named_lt hf.1
    exact ⟨this.1, this.2.1⟩
  · intro n
    show n ∈ st₃.intern ↔ _
    rw [hg₃.intern, hin, hg₁.intern, Rule.names, or_assoc, List.mem_singleton, List.mem_cons]
  · exact k1.trans (by rw [origins_steps hg₃.steps, hor])

theorem loadRules_origins (p : Profile) {extra : List Sym} (rules : List Rule) :
    ∀ {st : LoadState} {reps : List RepSym} {done : List (Sym × List Piece)} (idx : Nat),
    idx + rules.length < u32Max → LoadInv st reps extra done →
    ∃ st' new dn rs, loadRules p st idx rules = .ok st' ∧
      LoadInv st' (reps ++ new) extra (done ++ dn) ∧ List.Forall₂ (Rule.Is st') rules dn ∧
      (∀ n s, st.Named n s → st'.Named n s) ∧
      (∀ n, n ∈ st'.intern ↔ n ∈ st.intern ∨ ∃ r ∈ rules, n ∈ r.names) ∧
      originRules st'.cfg = originRules st.cfg ++ rs ∧
      rs.map (fun r => r.history.origin) = (List.range rules.length).map (idx + · + 1) ∧
      List.Forall₂ (fun (d : Sym × List Piece) (r : CfgRule) => r.lhs = d.1 ∧
        List.Forall₂ (Piece.Is (reps ++ new)) d.2 r.rhs) dn rs := by
  induction rules with
  | nil =>
    intro st reps done idx _ h
    exact ⟨st, [], [], [], rfl, by simpa using h, .nil, fun _ _ h => h, by simp, by simp, rfl, .nil⟩
  | cons r rules ih =>
    intro st reps done idx hlt h
    rw [List.length_cons] at hlt
    obtain ⟨st₁, new₁, d, r₁, e1, h₁, hr, hn₁, hi₁, ho₁, hk₁, hl₁, hp₁⟩ :=
      loadRule_origin p h (idx := idx) (by omega) r
    obtain ⟨st₂, new₂, dn, rs, e2, h₂, hrs, hn₂, hi₂, ho₂, hk₂, hp₂⟩ := ih (idx + 1) (by omega) h₁
    refine ⟨st₂, new₁ ++ new₂, d :: dn, r₁ :: rs, ?_, by simpa using h₂, .cons ?_ hrs,
      fun n s hn => hn₂ _ _ (hn₁ _ _ hn), ?_, ?_, ?_, .cons ⟨hl₁, ?_⟩ ?_⟩
    · unfold loadRules
      rw [e1, Res.bind_ok, e2]
    · exact ⟨hn₂ _ _ hr.1, hr.2.imp fun _ _ hf => ⟨hn₂ _ _ hf.1, hf.2⟩⟩
    · intro n
      rw [hi₂, hi₁]
      simp only [List.mem_cons, exists_eq_or_imp, or_assoc]
    · rw [ho₂, ho₁, List.append_assoc, List.singleton_append]
    · rw [List.map_cons, hk₁, hk₂, List.length_cons, List.range_succ_eq_map, List.map_cons,
        List.map_map]
      congr 1
      refine List.map_congr_left fun k _ => ?_
      show idx + 1 + k + 1 = idx + (k + 1) + 1
      omega
    · rw [← List.append_assoc]
      exact hp₁.imp fun _ _ h => LoadInv.piece_mono h
    · rw [← List.append_assoc]
      exact hp₂

end Verif.Basic
