import Verif.Model.InfValid
import Verif.Model.Width
import Mathlib.Analysis.SpecialFunctions.Log.Base

/-!
# Cache validators and the validity check of the finite-width optimizer

`include/tnco/utils.hpp:73-112`, `infinite_memory/utils.hpp:59-66,94-99`,
`finite_width/utils.hpp:67-122`, `finite_width/greedy/optimizer.hpp:387-450`; over the reals.
-/

namespace TNCO

open Classical in
/-- include/tnco/utils.hpp:73-76 `is_close`. -/
noncomputable def isClose (x y atol : ℝ) : Bool := decide (|x - y| ≤ atol)

/-- include/tnco/utils.hpp:89-97 `compare` (a `transform_reduce` with `&` over a boolean). -/
def compareArrays (cmp : ℝ → ℝ → Bool) (x y : List ℝ) : Bool :=
  if x.length ≠ y.length then false else (List.zipWith cmp x y).foldl (· && ·) true

/-- include/tnco/utils.hpp:99-104 -/
noncomputable def allClose (x y : List ℝ) (atol : ℝ) : Bool := compareArrays (isClose · · atol) x y

/-- include/tnco/utils.hpp:106-112 -/
noncomputable def allLogCloseL (x y : List ℝ) (atol : ℝ) : Bool := compareArrays (isLogClose · · atol) x y

/-- infinite_memory/utils.hpp:59-66 `CostCache::is_close_to` on the two stored vectors. -/
noncomputable def costCacheIsCloseTo (partialX contrX partialY contrY : List ℝ) (atol : ℝ) : Bool :=
  allLogCloseL partialX partialY atol && allLogCloseL contrX contrY atol

/-- infinite_memory/utils.hpp:94-99 `HyperCache::is_close_to` (the tolerance is not used). -/
def hyperCacheIsCloseTo (x y : List ISet) (_atol : ℝ) : Bool := decide (x = y)

/-- finite_width/utils.hpp:67-71 `WidthCache::is_close_to`. -/
noncomputable def widthCacheIsCloseTo (x y : List ℝ) (atol : ℝ) : Bool := allClose x y atol

/-- finite_width/utils.hpp:79: `std::variant<float_type, std::vector<float_type>>`. -/
inductive Log2Dims where
  | one (x : ℝ)
  | many (l : List ℝ)

/-- finite_width/utils.hpp:83-99: the `DimsCache` constructor. -/
noncomputable def Log2Dims.ofDims : Dims → Log2Dims
  | .int d => .one (Real.logb 2 d)
  | .vec l => .many (l.map fun d => Real.logb 2 (d : ℝ))

/-- finite_width/utils.hpp:101-121 `DimsCache::is_close_to`. In the scalar case (114-117) both
arguments of `is_close` are `this->log2_dims`. -/
noncomputable def dimsCacheIsCloseTo : Log2Dims → Log2Dims → ℝ → Bool
  | .many x, .many y, atol => allClose x y atol
  | .one x, .one _, atol => isClose x x atol
  | _, _, _ => false

/-- A vector of length `n`. -/
def tab {α : Type} (n : ℕ) (f : ℕ → α) : List α := (List.range n).map f

open Classical in
/-- greedy/optimizer.hpp:387-450 `is_valid(atol)`; `dims` is the stored `DimsCache`. `none`: a
traversal does not stop. -/
noncomputable def FwOpt.isValid {σ : Type} (m : CostModel ℝ) (wm : WidthModel ℝ) (dims : Log2Dims)
    (o : FwOpt σ ℝ ℝ) (atol : ℝ) : Option Bool := do
  let n := o.inf.ctree.tree.size
  if !(o.inf.ctree.isValid !o.inf.disableShared) then return false
  if !(o.inf.minCtree.isValid !o.inf.disableShared) then return false
  let mc ← getCost o.inf.minCtree.fuel (m.sliced o.minSlices) o.inf.minCtree
  if !(isLogClose mc o.inf.minTotal atol) then return false
  if !(allFit wm o.inf.ctree o.slices) then return false
  if !(allFit wm o.inf.minCtree o.minSlices) then return false
  let k ← CostCache.make o.inf.ctree.fuel (m.sliced o.slices) o.inf.ctree
  if !(costCacheIsCloseTo (tab n o.inf.cost.partialCost) (tab n o.inf.cost.contractionCost)
      (tab n k.partialCost) (tab n k.contractionCost) atol) then return false
  if !(hyperCacheIsCloseTo (tab n o.inf.hyper) (tab n (hyperCache o.inf.ctree)) atol) then return false
  if !(widthCacheIsCloseTo (tab n o.width) (tab n (widthCache wm o.inf.ctree)) atol) then return false
  if !(dimsCacheIsCloseTo dims (Log2Dims.ofDims o.inf.ctree.dims) atol) then return false
  return true

end TNCO
