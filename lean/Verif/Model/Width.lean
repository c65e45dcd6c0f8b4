import Verif.Model.FiniteWidth
import Verif.Model.Cost

/-!
# Width part of the finite-width cost models

`include/tnco/optimize/finite_width/cost_model/{simple,simple_sparse_inds}.hpp`.
`log2 : ℕ → W` is the base-2 logarithm (the theorems use only `0 ≤ log2 n`; `Real.logb 2` and
the integer logarithm are instances).
-/

namespace TNCO

variable {W : Type} [AddCommGroup W] [LinearOrder W]

/-- simple.hpp:38-57 `get_width`. -/
def simpleWidth (log2 : ℕ → W) (dims : Dims) (xs : ISet) : W :=
  match dims with
  | .int d => xs.card • log2 d
  | .vec l => ∑ i ∈ xs, log2 (l.getD i 0)

/-- simple.hpp:59-76 `get_delta_width`. -/
def simpleDelta (log2 : ℕ → W) (dims : Dims) (xs : ISet) (pos : ℕ) : W :=
  (1 - 2 * (if pos ∈ xs then 1 else 0) : ℤ) • log2 (dims.get pos)

/-- `new_inds[pos] = !new_inds.test(pos)` (simple_sparse_inds.hpp:67-68). -/
def ISet.toggle (xs : ISet) (pos : ℕ) : ISet := if pos ∈ xs then xs.erase pos else insert pos xs

/-- The local `min` of simple_sparse_inds.hpp:45-47. -/
def minW (x y : W) : W := if x < y then x else y

/-- simple_sparse_inds.hpp:38-51 `get_width`. -/
def sparseWidth (log2 : ℕ → W) (dims : Dims) (sparse : ISet) (nProjs : ℕ) (xs : ISet) : W :=
  simpleWidth log2 dims (xs \ sparse) + minW (simpleWidth log2 dims (xs ∩ sparse)) (log2 nProjs)

/-- simple_sparse_inds.hpp:53-79 `get_delta_width`. -/
def sparseDelta (log2 : ℕ → W) (dims : Dims) (sparse : ISet) (nProjs : ℕ) (xs : ISet) (pos : ℕ) : W :=
  if pos ∈ sparse then
    minW (simpleWidth log2 dims (xs.toggle pos ∩ sparse)) (log2 nProjs) -
      minW (simpleWidth log2 dims (xs ∩ sparse)) (log2 nProjs)
  else simpleDelta log2 dims xs pos

/-- Is the cached `log2_dims` a single number? -/
def Dims.isInt : Dims → Bool
  | .int _ => true
  | .vec _ => false

/-- simple.hpp:78-122: constructor (`none` = `runtime_error`), `width`, `delta_width`; the
cached `log2_dims` are those of finite_width/utils.hpp:83-99. -/
def simpleWidthModel (log2 : ℕ → W) (dims : Dims) (maxWidth : W) : Option (WidthModel W) :=
  if maxWidth < 0 then none
  else some ⟨simpleWidth log2 dims, simpleDelta log2 dims, fun i => log2 (dims.get i), dims.isInt, maxWidth⟩

/-- simple_sparse_inds.hpp:81-134 -/
def sparseWidthModel (log2 : ℕ → W) (dims : Dims) (maxWidth : W) (sparse : ISet) (nProjs : ℕ) :
    Option (WidthModel W) :=
  if maxWidth < 0 then none
  else if nProjs = 0 then none
  else some ⟨sparseWidth log2 dims sparse nProjs, sparseDelta log2 dims sparse nProjs,
    fun i => log2 (dims.get i), dims.isInt, maxWidth⟩

end TNCO
