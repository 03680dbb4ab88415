import Verif.Model.BMap

/-! # Specification: ordered maps -/

namespace Verif

/-- The keys ascend. -/
def BMap.Sorted {α : Type} (m : BMap α) : Prop := m.Pairwise fun a b => a.1 < b.1

instance {α : Type} (m : BMap α) : Decidable (BMap.Sorted m) :=
  inferInstanceAs (Decidable (m.Pairwise fun a b => a.1 < b.1))

end Verif
