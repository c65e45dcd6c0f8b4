import Verif.Lemmas.PTree
import Verif.Model.CTree

/-!
# Specification: index sets and cost of a contraction tree
-/

namespace TNCO

/-- All indices carried by the listed leaves. -/
def leafInds (inds : ℕ → ISet) (ps : List ℕ) : ISet := ps.foldr (fun p s => inds p ∪ s) ∅

theorem mem_leafInds {inds : ℕ → ISet} {ps : List ℕ} {x : ℕ} :
    x ∈ leafInds inds ps ↔ ∃ p ∈ ps, x ∈ inds p := by
  induction ps with
  | nil => simp [leafInds]
  | cons p ps ih =>
    have : leafInds inds (p :: ps) = inds p ∪ leafInds inds ps := rfl
    rw [this, Finset.mem_union, ih]; simp

/-- Every tensor of the tree carries exactly the indices it must: for every subtree `s`
(inside a context `K`), an index is carried by the tensor of `s` iff it occurs in a leaf of
`s` and, in addition, is an output or occurs in a leaf outside `s`. -/
def IndsExact (inds : ℕ → ISet) (out : ISet) (t : PTree) : Prop :=
  ∀ (K : Ctx) (s : PTree), t = K.plug s → ∀ x,
    (x ∈ inds s.root ↔ (∃ p ∈ s.leaves, x ∈ inds p) ∧ (x ∈ out ∨ ∃ p ∈ K.lvs, x ∈ inds p))

/-- Total cost of a tree: the sum over its contractions of the cost of all indices of the
two operands. -/
def treeCost {R : Type*} [AddCommMonoid R] (f : ISet → R) (inds : ℕ → ISet) : PTree → R
  | .leaf _ => 0
  | .node _ l r => f (inds l.root ∪ inds r.root) + treeCost f inds l + treeCost f inds r

end TNCO
