import Verif.Lemmas.PTree
import Mathlib.Data.Finset.Basic

/-!
# Specification: exact index sets, for index names of any type
-/

namespace TNCO

/-- As `IndsExact`, for index names of an arbitrary type: a tensor of the tree carries an index
iff it occurs in a leaf below it and is an output or occurs in a leaf outside. -/
def NamesExact {ι : Type} (N : ℕ → Finset ι) (out : Finset ι) (t : PTree) : Prop :=
  ∀ (K : Ctx) (s : PTree), t = K.plug s → ∀ x,
    (x ∈ N s.root ↔ (∃ p ∈ s.leaves, x ∈ N p) ∧ (x ∈ out ∨ ∃ p ∈ K.lvs, x ∈ N p))

end TNCO
