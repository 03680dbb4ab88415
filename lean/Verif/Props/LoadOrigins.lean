import Verif.Props.Load
import Verif.Proofs.LoadOrigins

/-! # Rules loaded from a text can be traced (C141) -/

namespace Verif

open Basic
open Advanced (originRules)

/-! ## Specification -/

/-- The rules of `s` are those of one or more `x`. -/
def Cfg.PlusOf (g : Cfg) (x s : Sym) : Prop := ∀ α, g.prod s α ↔ α = [x] ∨ α = [s, x]

/-- The rules of `s` are the empty one and those to a symbol for one or more `x`. -/
def Cfg.StarOf (g : Cfg) (x s : Sym) : Prop :=
  g.prod s [] ∧ (∃ y, g.prod s [y]) ∧ ∀ α, g.prod s α → α = [] ∨ ∃ y, α = [y] ∧ g.PlusOf x y

/-- The symbol that stands for an element in a rule. -/
def Basic.Elem.Stands (g : Cfg) (sym : Text → Sym) (names : List Text) : Elem → Sym → Prop
  | .name n .none, s => s = sym n
  | .name n .zeroOrMore, s => (∀ n' ∈ names, s ≠ sym n') ∧ g.StarOf (sym n) s
  | .name n .oneOrMore, s => (∀ n' ∈ names, s ≠ sym n') ∧ g.PlusOf (sym n) s
  | .unit, _ => False

/-- The alternatives of a text in order, each with the name on its left. -/
def Basic.alternatives (stmts : List Stmt) : List (Text × List Elem) :=
  stmts.flatMap fun s => s.choices.map fun alt => (s.lhs, alt)

/-! ## Proof -/

section

variable {g : Cfg} {reps : List RepSym} {done : List (Sym × List Piece)}

theorem PieceInv.plusOf (h : PieceInv g reps done) {s x : Sym} (hm : (s, x, 1) ∈ reps) :
    g.PlusOf x s := by
  intro α
  constructor
  · intro hp
    rcases h.fwd s α hp with ⟨ps, hd, -⟩ | ⟨x', hx, h'⟩ | ⟨x', y, hx, -⟩
    · exact absurd ⟨x, 1, hm⟩ (h.lhs s ps hd).2.1
    · rw [(h.uniq _ _ _ _ _ hm hx).1]
      exact h'
    · exact absurd (h.uniq _ _ _ _ _ hm hx).2 (by decide)
  · rintro (rfl | rfl)
    · exact (h.plus s x hm).1
    · exact (h.plus s x hm).2

theorem PieceInv.starOf (h : PieceInv g reps done) {s x : Sym} (hm : (s, x, 0) ∈ reps) :
    g.StarOf x s := by
  obtain ⟨h1, y, -, h2⟩ := h.star s x hm
  refine ⟨h1, ⟨y, h2⟩, ?_⟩
  intro α hp
  rcases h.fwd s α hp with ⟨ps, hd, -⟩ | ⟨x', hx, -⟩ | ⟨x', y, hx, hy, h'⟩
  · exact absurd ⟨x, 0, hm⟩ (h.lhs s ps hd).2.1
  · exact absurd (h.uniq _ _ _ _ _ hm hx).2 (by decide)
  · obtain ⟨rfl, -⟩ := h.uniq _ _ _ _ _ hm hx
    rcases h' with rfl | rfl
    · exact .inl rfl
    · exact .inr ⟨y, rfl, h.plusOf hy⟩

end

theorem Basic.stands_alt {st : LoadState} {reps : List RepSym} {extra : List Sym}
    {done : List (Sym × List Piece)} (h : LoadInv st reps extra done) {sym : Text → Sym}
    (hsym : ∀ n x, st.Named n x → sym n = x) {names : List Text}
    (hnamed : ∀ n ∈ names, st.Named n (sym n)) (alt : List Elem) : ∀ {ps : List Piece} {β : List Sym},
    List.Forall₂ (Fragment.Is st) (alt.filterMap Elem.fragment) ps →
    List.Forall₂ (Piece.Is reps) ps β →
    List.Forall₂ (Elem.Stands st.cfg sym names) (alt.filter (· ≠ .unit)) β := by
  induction alt with
  | nil =>
    intro ps β h1 h2
    cases h1
    cases h2
    exact .nil
  | cons e alt ih =>
    intro ps β h1 h2
    cases e with
    | unit =>
      rw [List.filterMap_cons_none rfl] at h1
      rw [List.filter_cons_of_neg (by decide)]
      exact ih h1 h2
    | name n rep =>
      rw [List.filterMap_cons_some (f := Elem.fragment) (b := (⟨n, rep⟩ : Fragment)) rfl] at h1
      rw [List.filter_cons_of_pos (by simp)]
      cases h1 with
      | @cons _ q _ ps hf h1 =>
        cases h2 with
        | @cons _ s _ β hq h2 =>
          refine .cons ?_ (ih h1 h2)
          obtain ⟨hn, hr⟩ := hf
          have hx := hsym _ _ hn
          dsimp only at hx hr
          unfold Piece.Is at hq
          rw [hr, ← hx] at hq
          have hne : IsRep reps s → ∀ n' ∈ names, s ≠ sym n' := by
            rintro hs n' hn' rfl
            exact (h.named_lt (hnamed n' hn')).2.1 hs
          cases rep with
          | none => exact hq
          | zeroOrMore => exact ⟨hne ⟨_, _, hq⟩, h.g.starOf hq⟩
          | oneOrMore => exact ⟨hne ⟨_, _, hq⟩, h.g.plusOf hq⟩

theorem Basic.rules_eq_alternatives (stmts : List Stmt) : stmts.flatMap Stmt.rules =
    (alternatives stmts).map fun c => ⟨c.1, c.2.filterMap Elem.fragment⟩ := by
  unfold alternatives Stmt.rules
  rw [List.map_flatMap]
  congr 1
  funext s
  rw [List.map_map]
  rfl

/-- C141: the alternatives of a loaded text are numbered from one. The rules that have an origin are
one per alternative in order, with the number of the alternative as the origin. The left side is the
symbol of the name. On the right a name is its symbol. A repeated name is a symbol without a name of
the text, the rules of which are those of the repetition. -/
theorem C141_origins {R : Recognizer Terminal} (hR : R.Correct bnfSyntax Nonterminal.start)
    (p : Profile) {text : Text} {ts : List Token} (hl : Lexed text ts []) {stmts : List Stmt}
    (hb : IsBnf stmts ts) (hlt : (alternatives stmts).length < u32Max) :
    ∃ (g : Cfg) (sym : Text → Sym), load R p text = .ok (.ok g) ∧
      (∀ n ∈ stmts.flatMap Stmt.names, ∀ n' ∈ stmts.flatMap Stmt.names, sym n = sym n' → n = n') ∧
      (∀ n ∈ stmts.flatMap Stmt.names,
        sym n < g.numSyms ∧ g.src.originalNameOf (sym n) = some (String.ofList n)) ∧
      (originRules g).map (fun r => r.history.origin) =
        (List.range (alternatives stmts).length).map (· + 1) ∧
      List.Forall₂ (fun c r => r.lhs = sym c.1 ∧
        List.Forall₂ (Elem.Stands g sym (stmts.flatMap Stmt.names)) (c.2.filter (· ≠ .unit)) r.rhs)
        (alternatives stmts) (originRules g) := by
  have hlen : (stmts.flatMap Stmt.rules).length = (alternatives stmts).length := by
    rw [rules_eq_alternatives, List.length_map]
  obtain ⟨st, reps, dn, rs, e, h, hrs, -, hin, ho, hk, hd⟩ :=
    loadRules_origins p (stmts.flatMap Stmt.rules) 0 (by omega) LoadInv.new
  rw [List.nil_append] at h hd
  rw [List.nil_append] at h
  replace ho : originRules st.cfg = rs := ho
  classical
  have hmem : ∀ n, n ∈ st.intern ↔ n ∈ stmts.flatMap Stmt.names := by
    intro n
    rw [hin, mem_rule_names]
    simp
  let sym : Text → Sym := fun n => if hn : ∃ x, st.Named n x then hn.choose else 0
  have hsym : ∀ n x, st.Named n x → sym n = x := by
    intro n x hx
    have hex : ∃ x, st.Named n x := ⟨x, hx⟩
    show (if hn : ∃ x, st.Named n x then hn.choose else 0) = x
    rw [dif_pos hex]
    exact h.named_fun hex.choose_spec hx
  have hnamed : ∀ n ∈ stmts.flatMap Stmt.names, st.Named n (sym n) := by
    intro n hn
    obtain ⟨x, hx⟩ := h.named_of_mem ((hmem n).2 hn)
    rw [hsym n x hx]
    exact hx
  refine ⟨st.cfg, sym, ?_, ?_, ?_, ?_, ?_⟩
  · rw [load_of_bnf hR p hl ((C66_tokens text ts).2 hl) hb]
    unfold build
    dsimp only
    rw [e, Res.bind_ok]
  · intro n hn n' hn' e
    exact h.named_inj (hnamed n hn) (e ▸ hnamed n' hn')
  · intro n hn
    have := h.named_lt (hnamed n hn)
    refine ⟨this.1, ?_⟩
    unfold SymbolSource.originalNameOf
    rw [this.2.2.2]
  · rw [ho, hk, hlen]
    exact List.map_congr_left fun k _ => by omega
  · rw [ho]
    rw [rules_eq_alternatives] at hrs
    have hst := fun alt ps β => stands_alt h hsym hnamed alt (ps := ps) (β := β)
    clear hb hlt hlen e hk ho hin hmem h
    generalize alternatives stmts = cs at hrs
    induction cs generalizing dn rs with
    | nil =>
      cases hrs
      cases hd
      exact .nil
    | cons c cs ih =>
      rw [List.map_cons] at hrs
      cases hrs with
      | @cons _ d _ dn h1 hrs =>
        cases hd with
        | @cons _ r _ rs h2 hd =>
          exact .cons ⟨h2.1.trans (hsym _ _ h1.1).symm, hst c.2 _ _ h1.2 h2.2⟩ (ih dn rs hd hrs)

/-- A text that meets the hypotheses of `C141_origins`. -/
example : ∃ ts, Lexed sampleText ts [] ∧
    ∃ stmts, IsBnf stmts ts ∧ (alternatives stmts).length < u32Max := by
  refine ⟨_, (C66_tokens _ _).1 ?_, [⟨"S".toList, [[.name "a".toList .none, .name "S".toList .none,
      .name "b".toList .zeroOrMore], [.unit]]⟩, ⟨"T".toList, []⟩], ⟨by decide, ?_, rfl⟩, by decide⟩
  · decide +kernel
  · intro s hs
    simp only [List.mem_cons, List.not_mem_nil, or_false] at hs
    rcases hs with rfl | rfl <;> simp [Stmt.Ok]

/-- The alternatives of that text: the third is blank. -/
example : alternatives [⟨"S".toList, [[.name "a".toList .none, .name "S".toList .none,
      .name "b".toList .zeroOrMore], [.unit]]⟩, ⟨"T".toList, []⟩] =
    [("S".toList, [.name "a".toList .none, .name "S".toList .none, .name "b".toList .zeroOrMore]),
      ("S".toList, [.unit]), ("T".toList, [])] := rfl

end Verif
