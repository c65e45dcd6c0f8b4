import Verif.Spec.AnnealResult
import Verif.Spec.Inds
import Verif.Model.FiniteWidth

/-! # Specification: a width limit that nothing exceeds -/

namespace TNCO

variable {W : Type}

/-- The indices that are left when the tensors `S` (of the tensors `0, …, n - 1`) are contracted with each other: those of
them that are outputs or occur in another tensor. -/
def keptOf (inds : ℕ → ISet) (out : ISet) (n : ℕ) (S : Finset ℕ) : ISet :=
  S.biUnion inds ∩ (out ∪ (Finset.range n \ S).biUnion inds)

/-- No contraction of some of the tensors `0, …, n - 1` is wider than `max_width`. -/
def Roomy [LE W] (wm : WidthModel W) (inds : ℕ → ISet) (out : ISet) (n : ℕ) : Prop :=
  ∀ S ⊆ Finset.range n, wm.width (keptOf inds out n S) ≤ wm.maxWidth

/-- No contraction of some of the tensors of a network is wider than `max_width`. -/
def NetworkRec.Roomy {ι W : Type} [DecidableEq ι] [AddCommMonoid W] [LinearOrder W] (N : NetworkRec ι) (cm : PyCM ι) (log2 : ℕ → W) (maxWidth : W) : Prop :=
  ∀ u : Term, u.tensors.Nodup → (∀ i ∈ u.tensors, i < N.tensors.length) → N.width cm log2 (termInds N.tsInds N.output u) ≤ maxWidth

namespace PTree

/-- The tensors that an exchange with `S` brings together, where `S` is contracted with the result of the contraction. -/
def under : PTree → Finset ℕ → List (Finset ℕ)
  | .leaf _, _ => []
  | .node _ d e, S => [d.leaves.toFinset ∪ S, e.leaves.toFinset ∪ S]

/-- The sets of tensors that are contracted with each other after one exchange, and were not before: `((D, E), C)` becomes
`((D, C), E)` or `((E, C), D)`. -/
def exchanges : PTree → List (Finset ℕ)
  | .leaf _ => []
  | .node _ l r => l.under r.leaves.toFinset ++ r.under l.leaves.toFinset ++ l.exchanges ++ r.exchanges

end PTree

/-- Every exchange gives a tensor that is wider than `max_width` without the indices `S`. -/
def Blocked [LT W] (wm : WidthModel W) (inds : ℕ → ISet) (out : ISet) (n : ℕ) (S : ISet) (t : PTree) : Prop :=
  ∀ X ∈ t.exchanges, wm.maxWidth < wm.width (keptOf inds out n X \ S)

/-- The finite-width result with the same costs and paths and nothing sliced. -/
def InfResultOf.unsliced {C : Type} (ι : Type) (r : InfResultOf C) : FwResultOf C ι :=
  ⟨r.cost, r.path, r.costs, r.paths, List.replicate r.paths.length ∅, ∅⟩

end TNCO
