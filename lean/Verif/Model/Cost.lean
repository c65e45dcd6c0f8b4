import Verif.Model.InfMem
import Mathlib.Algebra.BigOperators.Group.Finset.Defs
import Mathlib.Algebra.Order.Ring.Int

/-!
# Cost models of the infinite-memory optimizer

`include/tnco/optimize/infinite_memory/cost_model/{simple,simple_sparse_inds}.hpp`
-/

namespace TNCO

/-- simple.hpp:37-55 `get_cost(inds, dims)`: a power for a single dimension, a product over
the set bits otherwise. -/
def simpleGet (dims : Dims) (inds : ISet) : ℕ :=
  match dims with
  | .int d => d ^ inds.card
  | .vec l => ∏ i ∈ inds, l.getD i 0

/-- simple.hpp:57-88 -/
def simpleModel (dims : Dims) : CostModel ℤ := ⟨fun s => (simpleGet dims s : ℤ)⟩

/-- simple_sparse_inds.hpp:37-49 -/
def sparseGet (sparse : ISet) (nProjs : ℕ) (dims : Dims) (inds : ISet) : ℕ :=
  simpleGet dims (inds \ sparse) *
    (if simpleGet dims (inds ∩ sparse) < nProjs then simpleGet dims (inds ∩ sparse) else nProjs)

/-- simple_sparse_inds.hpp:62-88: constructor (`none` = `runtime_error`). -/
def sparseModel (sparse : ISet) (nProjs : ℕ) (dims : Dims) : Option (CostModel ℤ) :=
  if nProjs = 0 then none else some ⟨fun s => (sparseGet sparse nProjs dims s : ℤ)⟩

end TNCO
