import Verif.Proofs.LoadBnf

/-! # Proofs about loading a printed grammar -/

namespace Verif

theorem white_of_word {c : Char} (h : WordChar c) : charWhite c = false := by
  have h := identChar_iff.2 h
  unfold identChar identStart at h
  unfold charWhite
  simp only [Bool.or_eq_true, Bool.and_eq_true, decide_eq_true_eq, beq_iff_eq, Char.le_def,
    UInt32.le_iff_toNat_le] at h
  have hc : c.toNat = c.val.toNat := rfl
  have e1 : ('a' : Char).val.toNat = 97 := rfl
  have e2 : ('z' : Char).val.toNat = 122 := rfl
  have e3 : ('A' : Char).val.toNat = 65 := rfl
  have e4 : ('Z' : Char).val.toNat = 90 := rfl
  have e5 : ('0' : Char).val.toNat = 48 := rfl
  have e6 : ('9' : Char).val.toNat = 57 := rfl
  rw [e1, e2, e3, e4, e5, e6, ← hc] at h
  have h' : (97 ≤ c.toNat ∧ c.toNat ≤ 122) ∨ (65 ≤ c.toNat ∧ c.toNat ≤ 90) ∨ c.toNat = 95 ∨
      (48 ≤ c.toNat ∧ c.toNat ≤ 57) := by
    rcases h with ((h | h) | rfl) | h
    · exact .inl h
    · exact .inr (.inl h)
    · exact .inr (.inr (.inl rfl))
    · exact .inr (.inr (.inr h))
  simp only [Bool.or_eq_false_iff, Bool.and_eq_false_iff, decide_eq_false_iff_not, beq_eq_false_iff_ne]
  omega

theorem trim_words {ws : List Text} {w : Text} (hws : ∀ v ∈ ws, IsWord v) (hw : IsWord w) :
    trim ((ws ++ [w]).flatMap fun v => v ++ [' ']) = (ws.flatMap fun v => v ++ [' ']) ++ w := by
  have hstart : ∀ (l : List Text) (t : Text), (∀ v ∈ l, IsWord v) → l ≠ [] →
      ((l.flatMap fun v => v ++ [' ']) ++ t).dropWhile charWhite =
        (l.flatMap fun v => v ++ [' ']) ++ t := by
    intro l t hl hne
    cases l with
    | nil => exact absurd rfl hne
    | cons v l =>
      obtain ⟨⟨c, u, rfl, hc⟩, -⟩ := hl v (by simp)
      rw [List.flatMap_cons]
      simp only [List.cons_append]
      rw [List.dropWhile_cons_of_neg]
      rw [white_of_word hc.char]
      decide
  unfold trim
  have h1 := hstart (ws ++ [w]) [] (by
    intro v hv
    rcases List.mem_append.1 hv with hv | hv
    · exact hws v hv
    · rw [List.mem_singleton.1 hv]; exact hw) (by simp)
  rw [List.append_nil] at h1
  rw [h1, List.flatMap_append]
  simp only [List.flatMap_cons, List.flatMap_nil, List.append_nil]
  rw [← List.append_assoc, List.reverse_append]
  have e : (([' '] : Text).reverse) = [' '] := rfl
  rw [e, List.singleton_append, List.dropWhile_cons_of_pos (by decide)]
  rw [List.reverse_append]
  obtain ⟨v, c, rfl⟩ : ∃ v c, w = v ++ [c] := by
    obtain ⟨⟨c, u, rfl, -⟩, -⟩ := hw
    exact ⟨_, _, (List.dropLast_append_getLast (l := c :: u) (by simp)).symm⟩
  rw [List.reverse_append, List.reverse_singleton, List.singleton_append, List.cons_append,
    List.dropWhile_cons_of_neg (by rw [white_of_word (hw.2 c (by simp))]; decide)]
  simp

theorem trim_nil : trim [] = [] := rfl

namespace Basic

theorem wordEnd_blank {c : Char} {t : Text} (h : ¬ WordChar c) : WordEnd (c :: t) := by
  rintro d u e
  cases e
  exact h

theorem lexed_words {ws : List Text} (hws : ∀ v ∈ ws, IsWord v) {text rest : Text}
    {ts : List Token} (h : Lexed text ts rest) :
    Lexed ((ws.flatMap fun v => v ++ [' ']) ++ text) (ws.map Token.ident ++ ts) rest := by
  induction ws with
  | nil => exact h
  | cons w ws ih =>
    rw [List.flatMap_cons, List.append_assoc, List.append_assoc]
    exact .word (hws w (by simp)) (wordEnd_blank (by decide))
      (.blank (.inl rfl) (ih fun v hv => hws v (by simp [hv])))

theorem lexed_rhs {ws : List Text} (hws : ∀ v ∈ ws, IsWord v) {text : Text} {ts : List Token}
    (h : Lexed text ts []) :
    Lexed (trim (ws.flatMap fun v => v ++ [' ']) ++ ([';', '\n'] ++ text))
      (ws.map Token.ident ++ .semicolon :: ts) [] := by
  have hend : Lexed (([';', '\n'] : Text) ++ text) (.semicolon :: ts) [] :=
    Lexed.punct (s := [';']) .semicolon (.blank (.inr (.inl rfl)) h)
  rcases List.eq_nil_or_concat ws with rfl | ⟨ws, w, rfl⟩
  · exact hend
  · rw [List.concat_eq_append] at *
    rw [trim_words (fun v hv => hws v (by simp [hv])) (hws w (by simp)), List.append_assoc,
      List.map_append, List.append_assoc]
    refine lexed_words (fun v hv => hws v (by simp [hv])) ?_
    exact .word (hws w (by simp)) (wordEnd_blank (by decide)) hend

/-- The rule as a BNF rule. -/
def printedStmt (g : Cfg) (r : CfgRule) : Stmt :=
  ⟨g.symText r.lhs, if r.rhs = [] then [] else [r.rhs.map fun s => .name (g.symText s) .none]⟩

theorem lexed_toBnf {g : Cfg} (hw : ∀ s ∈ g.printed, IsWord (g.symText s)) :
    Lexed g.toBnf ((g.rules.map (printedStmt g)).flatMap Stmt.tokens) [] := by
  unfold Cfg.toBnf
  unfold Cfg.printed at hw
  generalize g.rules = rules at hw
  induction rules with
  | nil => exact .done _
  | cons r rules ih =>
    have ih := ih fun s hs => hw s (by rw [List.flatMap_cons]; exact List.mem_append.2 (.inr hs))
    have hw : ∀ s ∈ r.lhs :: r.rhs, IsWord (g.symText s) := fun s hs =>
      hw s (by rw [List.flatMap_cons]; exact List.mem_append.2 (.inl hs))
    rw [List.flatMap_cons, List.map_cons, List.flatMap_cons]
    have hrhs : (printedStmt g r).tokens ++
        (rules.map (printedStmt g)).flatMap Stmt.tokens = .ident (g.symText r.lhs) :: .bnfOp ::
        ((r.rhs.map g.symText).map Token.ident ++ .semicolon ::
          (rules.map (printedStmt g)).flatMap Stmt.tokens) := by
      unfold Stmt.tokens printedStmt
      split
      · rename_i e
        simp [e]
      · simp only [List.map_cons, List.map_nil, List.intersperse_singleton, List.flatten_cons,
          List.flatten_nil, List.append_nil, List.cons_append, List.append_assoc]
        rw [List.flatMap_map]
        simp only [Elem.tokens, List.map_map]
        congr 3
        generalize r.rhs = l
        induction l with
        | nil => rfl
        | cons a l ih => simp [ih]
    rw [hrhs]
    have e : (" ::= ".toList : Text) = [' '] ++ ([':', ':', '='] ++ [' ']) := by decide
    have er : g.ruleText r = g.symText r.lhs ++ ([' '] ++ ([':', ':', '='] ++ ([' '] ++
        (trim (r.rhs.flatMap fun s => g.symText s ++ [' ']) ++ [';', '\n'])))) := by
      unfold Cfg.ruleText
      rw [e]
      simp only [List.append_assoc]
    rw [er]
    simp only [List.append_assoc]
    refine .word (hw _ (by simp)) (wordEnd_blank (by decide)) (.blank (.inl rfl) ?_)
    refine Lexed.punct (s := [':', ':', '=']) .bnfOp (.blank (.inl rfl) ?_)
    have := lexed_rhs (ws := r.rhs.map g.symText) (by simpa using fun s hs => hw s (by simp [hs])) ih
    rw [List.flatMap_map] at this
    exact this

theorem isBnf_toBnf {g : Cfg} (hne : g.rules ≠ []) :
    IsBnf (g.rules.map (printedStmt g)) ((g.rules.map (printedStmt g)).flatMap Stmt.tokens) := by
  refine ⟨by simpa using hne, ?_, rfl⟩
  intro s hs
  obtain ⟨r, -, rfl⟩ := List.mem_map.1 hs
  unfold Stmt.Ok printedStmt
  dsimp only
  split
  · simp
  · simpa

/-- The rule as the loader sees it. -/
def printedRule (g : Cfg) (r : CfgRule) : Rule :=
  ⟨g.symText r.lhs, r.rhs.map fun s => ⟨g.symText s, .none⟩⟩

theorem printed_rules (g : Cfg) (rules : List CfgRule) :
    (rules.map (printedStmt g)).flatMap Stmt.rules = rules.map (printedRule g) := by
  induction rules with
  | nil => rfl
  | cons r rules ih =>
    rw [List.map_cons, List.flatMap_cons, ih, List.map_cons]
    have : (printedStmt g r).rules = [printedRule g r] := by
      unfold Stmt.rules Stmt.choices printedStmt printedRule
      dsimp only
      by_cases e : r.rhs = []
      · rw [if_pos e, if_pos rfl, e]; rfl
      · rw [if_neg e, if_neg (by simp), List.map_singleton, List.filterMap_map]
        congr 2
        generalize r.rhs = l
        induction l with
        | nil => rfl
        | cons a l ih =>
          rw [List.filterMap_cons_some
            (f := Elem.fragment ∘ fun s => Elem.name (g.symText s) Rep.none)
            (b := (⟨g.symText a, .none⟩ : Fragment)) rfl, ih, List.map_cons]
    rw [this, List.singleton_append]

/-! ## The loop over printed rules -/

/-- Recording a use. -/
abbrev use (seen : List Sym) (s : Sym) : List Sym := if s ∈ seen then seen else seen ++ [s]

/-- The state after the symbols were seen. -/
def seenState (g : Cfg) (seen : List Sym) (rules : List CfgRule) (roots : List Sym) (b : Bool) :
    LoadState where
  cfg := { src := ⟨seen.length, seen.map fun s => some (g.src.nameOf s)⟩, rules := rules,
           roots := roots }
  intern := seen.map g.symText
  symMap := (List.range seen.length).reverse.map fun i => (i, i)
  internEmpty := b

theorem lookup_range (n i : Nat) : ((List.range n).reverse.map fun i => (i, i)).lookup i =
    if i < n then some i else none := by
  induction n with
  | zero => rfl
  | succ n ih =>
    rw [List.range_succ, List.reverse_append, List.reverse_singleton, List.singleton_append,
      List.map_cons, List.lookup_cons, ih]
    by_cases e : i = n
    · rw [e, beq_self_eq_true, if_pos (Nat.lt_succ_self n)]
    · rw [beq_eq_false_iff_ne.2 e]
      dsimp only
      by_cases h : i < n
      · rw [if_pos h, if_pos (by omega)]
      · rw [if_neg h, if_neg (by omega)]

theorem idxOf_map_of_inj {f : Sym → Text} {l : List Sym} {s : Sym}
    (hinj : ∀ t ∈ l, f t = f s → t = s) : (l.map f).idxOf (f s) = l.idxOf s := by
  induction l with
  | nil => rfl
  | cons a l ih =>
    rw [List.map_cons, List.idxOf_cons, List.idxOf_cons, ih fun t ht => hinj t (by simp [ht])]
    by_cases e : a = s
    · rw [e, beq_self_eq_true, beq_self_eq_true]
    · rw [beq_eq_false_iff_ne.2 e, beq_eq_false_iff_ne.2 fun h => e (hinj a (by simp) h)]

theorem symFor_seen {g : Cfg} {seen : List Sym} {s : Sym}
    (hinj : ∀ t ∈ seen, g.symText t = g.symText s → t = s) (rules : List CfgRule)
    (roots : List Sym) (b : Bool) :
    (seenState g seen rules roots b).symFor (g.symText s) =
      ((use seen s).idxOf s, seenState g (use seen s) rules roots b) := by
  unfold LoadState.symFor StringInterner.getOrIntern
  have hmem : g.symText s ∈ (seenState g seen rules roots b).intern ↔ s ∈ seen := by
    show g.symText s ∈ seen.map g.symText ↔ _
    rw [List.mem_map]
    exact ⟨fun ⟨t, ht, e⟩ => hinj t ht e ▸ ht, fun h => ⟨s, h, rfl⟩⟩
  by_cases h : s ∈ seen
  · rw [if_pos (hmem.2 h)]
    dsimp only
    have e1 : (seenState g seen rules roots b).intern.idxOf (g.symText s) = seen.idxOf s :=
      idxOf_map_of_inj hinj
    have e2 : (seenState g seen rules roots b).symMap.lookup (seen.idxOf s) =
        some (seen.idxOf s) := by
      show List.lookup _ ((List.range seen.length).reverse.map fun i => (i, i)) = _
      rw [lookup_range, if_pos (List.idxOf_lt_length_iff.2 h)]
    rw [e1, e2, use, if_pos h]
  · rw [if_neg fun h' => h (hmem.1 h')]
    dsimp only
    have e1 : (seenState g seen rules roots b).intern.length = seen.length := List.length_map _
    have e2 : (seenState g seen rules roots b).symMap.lookup seen.length = none := by
      show List.lookup _ ((List.range seen.length).reverse.map fun i => (i, i)) = _
      rw [lookup_range, if_neg (Nat.lt_irrefl _)]
    rw [e1, e2, use, if_neg h]
    dsimp only
    have e3 : (seen ++ [s]).idxOf s = seen.length := by
      rw [List.idxOf_append, if_neg h]; simp
    rw [e3]
    unfold seenState
    simp [Cfg.nextSym, SymbolSource.nextSym, Cfg.symText, List.range_succ]

theorem use_append (seen : List Sym) (s : Sym) : ∃ more, use seen s = seen ++ more := by
  unfold use
  split
  · exact ⟨[], by simp⟩
  · exact ⟨[s], rfl⟩

theorem uses_append (l : List Sym) : ∀ seen, ∃ more, l.foldl use seen = seen ++ more := by
  induction l with
  | nil => exact fun seen => ⟨[], by simp⟩
  | cons a l ih =>
    intro seen
    obtain ⟨m1, e1⟩ := use_append seen a
    obtain ⟨m2, e2⟩ := ih (use seen a)
    exact ⟨m1 ++ m2, by rw [List.foldl_cons, e2, e1, List.append_assoc]⟩

theorem mem_use (seen : List Sym) (s t : Sym) : t ∈ use seen s ↔ t ∈ seen ∨ t = s := by
  unfold use
  split
  · rename_i h
    exact ⟨.inl, fun h' => h'.elim id fun e => e ▸ h⟩
  · simp

theorem mem_uses (l : List Sym) : ∀ seen t, t ∈ l.foldl use seen ↔ t ∈ seen ∨ t ∈ l := by
  induction l with
  | nil => simp
  | cons a l ih =>
    intro seen t
    rw [List.foldl_cons, ih, mem_use, List.mem_cons, or_assoc]

theorem idxOf_uses {l : List Sym} {seen : List Sym} {s : Sym} (h : s ∈ seen) :
    (l.foldl use seen).idxOf s = seen.idxOf s := by
  obtain ⟨m, e⟩ := uses_append l seen
  rw [e, List.idxOf_append, if_pos h]

theorem fragments_seen (p : Profile) {g : Cfg} {l : List Sym}  (rules : List CfgRule)
    (roots : List Sym) (b : Bool) : ∀ {seen : List Sym},
    (∀ s t, (s ∈ seen ∨ s ∈ l) → (t ∈ seen ∨ t ∈ l) → g.symText s = g.symText t → s = t) →
    fragments p (seenState g seen rules roots b) (l.map fun s => ⟨g.symText s, .none⟩) =
      .ok (l.map fun s => (l.foldl use seen).idxOf s,
        seenState g (l.foldl use seen) rules roots b) := by
  induction l with
  | nil => intros; rfl
  | cons a l ih =>
    intro seen hinj
    rw [List.map_cons, fragments]
    unfold LoadState.named
    dsimp only
    rw [symFor_seen (fun t ht e => hinj t a (.inl ht) (.inr (by simp)) e)]
    dsimp only
    rw [Res.bind_ok]
    dsimp only
    rw [ih, Res.bind_ok]
    · dsimp only
      rw [List.foldl_cons, List.map_cons, idxOf_uses ((mem_use _ _ _).2 (.inr rfl))]
    · intro s t hs ht
      refine hinj s t ?_ ?_
      · rw [mem_use] at hs; rw [List.mem_cons, ← or_assoc]; exact hs
      · rw [mem_use] at ht; rw [List.mem_cons, ← or_assoc]; exact ht

/-- The loaded rule. -/
def loadedRule (order : List Sym) (i : Nat) (r : CfgRule) : CfgRule :=
  ⟨order.idxOf r.lhs, r.rhs.map fun s => order.idxOf s, History.ofRoot (.origin (i + 1))⟩

theorem loadRule_seen (p : Profile) {g : Cfg} {seen : List Sym} {rules : List CfgRule}
    {roots : List Sym} {b : Bool} (idx : Nat) {r : CfgRule}
    (hinj : ∀ s t, (s ∈ seen ∨ s ∈ r.lhs :: r.rhs) → (t ∈ seen ∨ t ∈ r.lhs :: r.rhs) →
      g.symText s = g.symText t → s = t) :
    loadRule p (seenState g seen rules roots b) idx (printedRule g r) =
      .ok (seenState g ((r.lhs :: r.rhs).foldl use seen)
        (rules ++ [loadedRule ((r.lhs :: r.rhs).foldl use seen) idx r])
        (if b then [(use seen r.lhs).idxOf r.lhs] else roots) false) := by
  unfold loadRule printedRule
  dsimp only
  rw [symFor_seen (fun t ht e => hinj t r.lhs (.inl ht) (.inr (by simp)) e)]
  dsimp only
  have hfirst : LoadState.first (seenState g (use seen r.lhs) rules roots b)
      ((use seen r.lhs).idxOf r.lhs) = seenState g (use seen r.lhs) rules
        (if b then [(use seen r.lhs).idxOf r.lhs] else roots) false := by
    cases b <;> rfl
  rw [hfirst, fragments_seen, Res.bind_ok]
  · dsimp only
    unfold LoadState.add
    rw [addRule_push (by exact rfl), Res.bind_ok]
    rw [List.foldl_cons]
    unfold loadedRule
    rw [idxOf_uses ((mem_use _ _ _).2 (.inr rfl))]
    rfl
  · intro s t hs ht
    refine hinj s t ?_ ?_
    · rw [mem_use] at hs; rw [List.mem_cons, ← or_assoc]; exact hs
    · rw [mem_use] at ht; rw [List.mem_cons, ← or_assoc]; exact ht

theorem loadRules_seen (p : Profile) {g : Cfg} (rs : List CfgRule) :
    ∀ {seen : List Sym} {rules : List CfgRule} {roots : List Sym} (b : Bool) (idx : Nat),
    (∀ s t, (s ∈ seen ∨ s ∈ rs.flatMap fun r => r.lhs :: r.rhs) →
      (t ∈ seen ∨ t ∈ rs.flatMap fun r => r.lhs :: r.rhs) → g.symText s = g.symText t → s = t) →
    loadRules p (seenState g seen rules roots b) idx (rs.map (printedRule g)) =
      .ok (seenState g ((rs.flatMap fun r => r.lhs :: r.rhs).foldl use seen)
        (rules ++ rs.mapIdx fun i r =>
          loadedRule ((rs.flatMap fun r => r.lhs :: r.rhs).foldl use seen) (idx + i) r)
        (if b then (match rs with
          | [] => roots
          | r :: _ => [(use seen r.lhs).idxOf r.lhs]) else roots) (b && rs.isEmpty)) := by
  induction rs with
  | nil => intro seen rules roots b idx _; cases b <;> simp [loadRules]
  | cons r rs ih =>
    intro seen rules roots b idx hinj
    rw [List.map_cons, loadRules]
    have hsub : ∀ s, s ∈ r.lhs :: r.rhs → s ∈ (r :: rs).flatMap fun r => r.lhs :: r.rhs :=
      fun s hs => by rw [List.flatMap_cons]; exact List.mem_append.2 (.inl hs)
    rw [loadRule_seen p idx fun s t hs ht => hinj s t (hs.imp_right (hsub s)) (ht.imp_right (hsub t)),
      Res.bind_ok, ih]
    · have e : (rs.flatMap fun r => r.lhs :: r.rhs).foldl use ((r.lhs :: r.rhs).foldl use seen) =
          ((r :: rs).flatMap fun r => r.lhs :: r.rhs).foldl use seen := by
        rw [List.flatMap_cons, List.foldl_append]
      rw [e, List.mapIdx_cons, List.append_assoc, List.singleton_append]
      have hr : loadedRule ((r.lhs :: r.rhs).foldl use seen) idx r =
          loadedRule (((r :: rs).flatMap fun r => r.lhs :: r.rhs).foldl use seen) (idx + 0) r := by
        unfold loadedRule
        rw [← e]
        congr 1
        · rw [idxOf_uses ((mem_uses _ _ _).2 (.inr (by simp)))]
        · refine List.map_congr_left fun s hs => ?_
          rw [idxOf_uses ((mem_uses _ _ _).2 (.inr (by simp [hs])))]
      rw [hr]
      simp only [Nat.add_zero, Nat.add_assoc, Nat.add_comm 1, Bool.false_eq_true, if_false,
        Bool.false_and, List.isEmpty_cons, Bool.and_false]
    · intro s t hs ht
      refine hinj s t ?_ ?_
      · rw [mem_uses] at hs; rw [List.flatMap_cons, List.mem_append, ← or_assoc]; exact hs
      · rw [mem_uses] at ht; rw [List.flatMap_cons, List.mem_append, ← or_assoc]; exact ht

end Basic

end Verif
