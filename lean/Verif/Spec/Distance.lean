import Verif.Spec.Grammar

/-! # Specification: distances between dots -/

namespace Verif

/-- `m` is the length of a shortest terminal string of `s`. -/
def Cfg.MinLen (g : Cfg) (s : Sym) (m : Nat) : Prop :=
  (∃ w, g.Lang s w ∧ w.length = m) ∧ ∀ w, g.Lang s w → m ≤ w.length

/-- `g.Dist dots i p c`: one can go forward from dot position `p` of rule number `i` to one of the
dots (pairs of a rule number and a position), passing over symbols that cost `c` in total, where
the cost of a symbol is the length of its shortest string. A walk may enter a rule of the symbol
after the dot, and leave a rule at its end to a position behind an occurrence of its left side. -/
inductive Cfg.Dist (g : Cfg) (dots : List (Nat × Nat)) : Nat → Nat → Nat → Prop where
  | target {i p : Nat} : (i, p) ∈ dots → Dist g dots i p 0
  | scan {i p c m : Nat} {r : CfgRule} {s : Sym} : g.rules[i]? = some r → r.rhs[p]? = some s →
      g.MinLen s m → Dist g dots i (p + 1) c → Dist g dots i p (c + m)
  | predict {i p j c : Nat} {r q : CfgRule} : g.rules[i]? = some r → g.rules[j]? = some q →
      r.rhs[p]? = some q.lhs → Dist g dots j 0 c → Dist g dots i p c
  | complete {i p j c : Nat} {r q : CfgRule} : g.rules[i]? = some r → g.rules[j]? = some q →
      r.rhs[p]? = some q.lhs → Dist g dots i (p + 1) c → Dist g dots j q.rhs.length c

/-- Sum of the shortest lengths of a string's symbols. -/
inductive Cfg.MinLens (g : Cfg) : List Sym → Nat → Prop where
  | nil : MinLens g [] 0
  | cons {s : Sym} {w : List Sym} {m c : Nat} : g.MinLen s m → MinLens g w c →
      MinLens g (s :: w) (m + c)

end Verif
