import Verif.Model.Anneal
import Verif.Spec.PathCost

/-!
# Specification: the results of the annealing apps

The cost of a result is compared with `pathCost`, which knows nothing of trees, slots of indices or optimizers.
-/

namespace TNCO
variable {ι : Type} [DecidableEq ι]

/-- A network whose tensors do not repeat indices; all indices have positive dimensions. -/
structure NetworkRec.Plain (N : NetworkRec ι) : Prop where
  nodup : ∀ l ∈ N.tsInds, l.Nodup
  dims : ∀ l ∈ N.tsInds, ∀ x ∈ l, ∃ d, d ≠ 0 ∧ dget N.dims x = some d

/-- The dimension of an index. -/
def NetworkRec.dim (N : NetworkRec ι) (x : ι) : ℕ := (dget N.dims x).getD 0

/-- The cost of a set of indices in the app. -/
def NetworkRec.cost (N : NetworkRec ι) (cm : PyCM ι) : Finset ι → ℤ := nameCost N.dim (cm.sparse.getD ∅) (cm.nProjs.getD 0).toNat

/-- A path for the same tensors as `p`, which leaves at most one contracted tensor. -/
def SameTouch (n : ℕ) (p q : List (ℕ × ℕ)) : Prop :=
  (∃ F, replay (initTerms n) q = some F ∧ (F.filter Term.isPair).length ≤ 1) ∧ ∀ k, Touches n q k ↔ Touches n p k

/-- The result for a path: a path for the same tensors, its cost, not worse than the first one. -/
structure Piece (cost : Finset ι → ℤ) (tsInds : List (List ι)) (out : Finset ι) (p : List (ℕ × ℕ)) (k : InfPart) : Prop where
  same : SameTouch tsInds.length p k.path
  exact : k.cost = pathCost cost tsInds out ∅ k.path
  best : k.cost ≤ pathCost cost tsInds out ∅ p

/-- What `infTotalWith` makes of the pieces. -/
structure InfTotalOk (cost : Finset ι → ℤ) (tsInds : List (List ι)) (out : Finset ι) (ps : List (List (ℕ × ℕ))) (r : InfResult) : Prop where
  pieces : ps ≠ [] → List.Forall₂ (Piece cost tsInds out) ps ((r.costs.zip r.paths).map fun x => ⟨x.1, x.2⟩) ∧ r.costs.length = r.paths.length
  none : ps = [] → r.costs = [] ∧ r.paths = List.replicate tsInds.length []
  sum : r.cost = r.costs.sum
  path : ∃ pre rest, r.path = pre ++ rest ∧ ValidPath tsInds.length pre ∧ r.path.length = tsInds.length - 1 ∧
    (0 < tsInds.length → ∃ u, replay (initTerms tsInds.length) r.path = some [u]) ∧
    List.Forall₂ Term.Same (trace (initTerms tsInds.length) pre) ((r.paths.map (trace (initTerms tsInds.length))).flatten) ∧
    pathCost cost tsInds out ∅ pre = r.cost

/-- The width of a set of indices in the finite-width app. -/
def NetworkRec.width {W : Type} [AddCommMonoid W] [LinearOrder W] (N : NetworkRec ι) (cm : PyCM ι) (log2 : ℕ → W) : Finset ι → W :=
  nameWidth log2 N.dim (cm.sparse.getD ∅) (cm.nProjs.getD 0).toNat

/-- The finite-width result for a path: a path for the same tensors and indices to slice, so that all its tensors fit; its cost with
these slices; not worse than the first path with some slices that make it fit. -/
structure FwPiece {W : Type} [LinearOrder W] (cost : Finset ι → ℤ) (width : Finset ι → W) (maxWidth : W) (tsInds : List (List ι)) (out : Finset ι)
    (p : List (ℕ × ℕ)) (k : FwPart ι) : Prop where
  same : SameTouch tsInds.length p k.path
  exact : k.cost = pathCost cost tsInds out k.slices k.path
  fits : PathFits width maxWidth tsInds out k.slices k.path
  sub : ∀ x ∈ k.slices, ∃ i, Touches tsInds.length k.path i ∧ x ∈ tsInds.getD i []
  none : p = [] → k = ⟨0, [], ∅⟩
  best : ∃ S, PathFits width maxWidth tsInds out S p ∧ k.cost ≤ pathCost cost tsInds out S p

/-- The pieces of a finite-width result. -/
def FwResult.pieces (r : FwResult ι) : List (FwPart ι) :=
  (r.costs.zip (r.paths.zip r.slicesList)).map fun x => ⟨x.1, x.2.1, x.2.2⟩

/-- What `fwTotalWith` makes of the pieces. -/
structure FwTotalOk {W : Type} [LinearOrder W] (cost : Finset ι → ℤ) (width : Finset ι → W) (maxWidth : W) (tsInds : List (List ι)) (out : Finset ι)
    (ps : List (List (ℕ × ℕ))) (r : FwResult ι) : Prop where
  pieces : ps ≠ [] → List.Forall₂ (FwPiece cost width maxWidth tsInds out) ps r.pieces ∧
    r.costs.length = r.paths.length ∧ r.costs.length = r.slicesList.length
  none : ps = [] → r.costs = [] ∧ r.paths = List.replicate tsInds.length [] ∧ r.slicesList = List.replicate tsInds.length ∅
  sum : r.cost = r.costs.sum
  slices : ∀ x, x ∈ r.slices ↔ ∃ s ∈ r.slicesList, x ∈ s
  path : ∃ pre rest, r.path = pre ++ rest ∧ ValidPath tsInds.length pre ∧ r.path.length = tsInds.length - 1 ∧
    (0 < tsInds.length → ∃ u, replay (initTerms tsInds.length) r.path = some [u]) ∧
    List.Forall₂ Term.Same (trace (initTerms tsInds.length) pre) ((r.paths.map (trace (initTerms tsInds.length))).flatten) ∧
    PathFits width maxWidth tsInds out r.slices pre

end TNCO
