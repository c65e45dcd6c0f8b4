import Verif.Model.Session
import Verif.Spec.PTree

/-!
# Specification: what a program reads off an optimizer

`PyTree.total`: the costs of all contractions of a tree, added up from what the tree and the cost model tell by name.
-/

namespace TNCO

variable {ι : Type} [DecidableEq ι]

/-- `sum(cost(inds[x], inds[y], inds[z]) for each node z with children x, y)` for the listed nodes. -/
def PyTree.sumCosts (cost : Finset ι → Finset ι → Finset ι → Except PyErr ℕ) (t : PyTree ι) : List ℕ → Except PyErr ℕ
  | [] => .ok 0
  | p :: ps =>
    if (t.core.tree.nodes p).isLeaf then t.sumCosts cost ps
    else do
      let a ← t.indsChild (t.core.tree.nodes p).c0
      let b ← t.indsChild (t.core.tree.nodes p).c1
      let c ← t.getInds p
      let k ← cost a b c
      let r ← t.sumCosts cost ps
      return k + r

/-- The same for all nodes of the tree. -/
def PyTree.total (cost : Finset ι → Finset ι → Finset ι → Except PyErr ℕ) (t : PyTree ι) : Except PyErr ℕ :=
  t.sumCosts cost (List.range t.core.tree.size)

/-- The sum of `cmodel.contraction_cost(inds[x], inds[y], inds[z], dims)`. -/
def PyTree.totalInf (enum : Finset ι → List ι) (m : PyCost ι) (t : PyTree ι) : Except PyErr ℕ :=
  t.total fun a b c => m.contractionCost enum (enum a) (enum b) (enum c) t.dims

/-- The sum of `cmodel.contraction_cost(inds[x], inds[y], inds[z], dims, slices)`. -/
def PyTree.totalFw {W : Type} [AddCommGroup W] [LinearOrder W] (enum : Finset ι → List ι) (m : PyFwCost ι W) (slices : Finset ι) (t : PyTree ι) :
    Except PyErr ℕ :=
  t.total fun a b c => m.contractionCost enum (enum a) (enum b) (enum c) t.dims (enum slices)

/-- Two trees contract the same tensors to the same output, in some order. -/
structure SameLeaves (t u : PyTree ι) : Prop where
  order : u.indsOrder = t.indsOrder
  nTensors : u.nTensors = t.nTensors
  tensorsPos : u.tensorsPos = t.tensorsPos
  dims : u.dims = t.dims
  size : u.core.tree.size = t.core.tree.size
  tree : IsTree u.core.tree
  leaves : ∀ p < (t.core.tree.size + 1) / 2, u.inds p = t.inds p
  output : u.outputInds = t.outputInds

/-- The probabilities of the right cost type, in order. -/
def probsFor {β : Type} (costType : String) (ps : List (Option (ProbObj β))) : List (ProbKind β) :=
  ps.filterMap fun p => p.bind fun q => if q.costType = costType then some q.kind else none

/-- The private keyword arguments are not used. -/
def FwKw.Plain {σ : Type} (k : FwKw ι σ) : Prop := k.minTree = none ∧ k.slices = none ∧ k.minSlices = none

/-- `skip_slices` as a set. -/
def FwKw.skipSet {σ : Type} (k : FwKw ι σ) : Finset ι := (k.skip.getD []).toFinset

end TNCO
