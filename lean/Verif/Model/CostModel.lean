import Verif.Model.Width
import Verif.Model.PathBuild
import Verif.Model.OrderedFrozenSet
import Mathlib.Data.Rat.Defs
import Mathlib.Algebra.Order.Ring.Rat

/-!
# The Python cost models

`tnco/optimize/infinite_memory/cost_model.py` and `tnco/optimize/finite_width/cost_model.py`:
constructors, `contraction_cost`, `width`, `delta_width`, `__get_core__`, `__eq__`.

Index names: a type `ι`. The order in which Python iterates over a `frozenset` is an arbitrary
function `enum`. `cost_type` and `width_type` are the strings after `str(..).lower()`; `dims` is the
argument after `int(dims)` has been tried. Costs are exact natural numbers, widths lie in an ordered
group `W` with a function `log2` (as in `Model/Width.lean`). The C++ assertions are compiled out
(`assert.hpp`, `NDEBUG`).
-/

namespace TNCO

variable {ι : Type} [DecidableEq ι]

/-- A finite Python number: an `int` or a `float`. -/
inductive PyNum where
  | int (z : ℤ)
  | float (q : ℚ)
deriving DecidableEq

/-- The value of a number. -/
def PyNum.val : PyNum → ℚ
  | .int z => z
  | .float q => q

/-- `n_projs != int(n_projs) or n_projs < 1` -/
def PyNum.badProjs (n : PyNum) : Bool := n.val.den != 1 || decide (n.val < 1)

/-- `bool(n_projs)` for `n_projs` a number or `None`. -/
def projsTrue : Option PyNum → Bool
  | none => false
  | some n => n.val != 0

/-- `bool(sparse_inds)` for `sparse_inds` a frozenset or `None`. -/
def sparseTrue : Option (Finset ι) → Bool
  | none => false
  | some s => decide (s ≠ ∅)

/-- The cost types (infinite_memory/cost_model.py:74, finite_width/cost_model.py:94). -/
def costTypes : List String := ["float32", "float64", "float128", "float1024"]

/-- The width types (finite_width/cost_model.py:90). -/
def widthTypes : List String := ["float32", "float64", "float128"]

/-- infinite_memory/cost_model.py:90-94: the saved arguments. -/
structure PyCost (ι : Type) where
  costType : String
  sparse : Option (Finset ι)
  nProjs : Option PyNum

/-- infinite_memory/cost_model.py:78-89 and finite_width/cost_model.py:98-107: the checks of
`sparse_inds` and `n_projs`; the result is the frozenset. -/
def checkSparse (sparse : Option (List ι)) (nProjs : Option PyNum) : Except PyErr (Option (Finset ι)) :=
  if nProjs.any PyNum.badProjs then .error .valueError
  else if sparse.isNone && projsTrue nProjs then .error .valueError
  else if sparseTrue (sparse.map List.toFinset) && !projsTrue nProjs then .error .valueError
  else .ok (sparse.map List.toFinset)

/-- infinite_memory/cost_model.py:64-94 `__init__`. The message of the error for an unknown type
reads `self.cost_type`, whose attribute is not yet set. -/
def PyCost.make (costType : String) (sparse : Option (List ι)) (nProjs : Option PyNum) :
    Except PyErr (PyCost ι) :=
  if costType ∉ costTypes then .error .attributeError                                   -- 74-76
  else match checkSparse sparse nProjs with
    | .error e => .error e
    | .ok s => .ok ⟨costType, s, nProjs⟩

/-- The C++ object: `SimpleCostModel`, or `SimpleCostModelSparseInds` with its two arguments. -/
inductive CostCore where
  | simple
  | sparse (bits : ISet) (nProjs : ℕ)
deriving DecidableEq

/-- `Bitset(map(order.index, xs), len(order))` (bitset.py:70-88): repeated positions are refused. -/
def bitsIn (order xs : List ι) : Except PyErr ISet :=
  if ¬ xs.Nodup then .error .valueError
  else if xs.any (fun x => decide (x ∉ order)) then .error .valueError
  else .ok (xs.map order.idxOf).toFinset

/-- The conversion of `n_projs` to `size_t` (pybind11 refuses floats and negative numbers), and the
check of the C++ constructor. -/
def projsArg : Option PyNum → Except PyErr ℕ
  | some (.int (.ofNat 0)) => .error .invalidArgument
  | some (.int (.ofNat n)) => .ok n
  | _ => .error .typeError

/-- infinite_memory/cost_model.py:185-207 and finite_width/cost_model.py:339-361 `__get_core__`. -/
def PyCost.core (enum : Finset ι → List ι) (m : PyCost ι) (order : List ι) : Except PyErr CostCore :=
  match m.sparse with
  | none => .ok .simple
  | some s =>
    if s = ∅ then .ok .simple
    else if ¬ s ⊆ order.toFinset then .error .valueError
    else match bitsIn order (enum s) with
      | .error e => .error e
      | .ok b => match projsArg m.nProjs with
        | .error e => .error e
        | .ok n => .ok (.sparse b n)

/-- The indices of the call followed by the sparse ones: `tuple(unique_everseen(xs + sparse))` if
`sparse_inds` is not `None`. -/
def PyCost.allInds (enum : Finset ι → List ι) (m : PyCost ι) (xs : List ι) : List ι :=
  match m.sparse with
  | none => xs
  | some s => uniqueEverseen (xs ++ enum s)

/-- infinite_memory/cost_model.py:167-171: the dimensions in the order of the indices. -/
def PyDims.inOrder (order : List ι) : PyDims ι → Except PyErr Dims
  | .int d => .ok (.int d)
  | .dict f => match order.mapM f with
    | none => .error .valueError
    | some l => .ok (.vec l)

/-- The cost of the indices `xs` (`get_cost` of the two C++ models). -/
def CostCore.cost (c : CostCore) (dims : Dims) (xs : ISet) : ℕ :=
  match c with
  | .simple => simpleGet dims xs
  | .sparse b n => sparseGet b n dims xs

/-- infinite_memory/cost_model.py:129-183 `contraction_cost`. -/
def PyCost.contractionCost (enum : Finset ι → List ι) (m : PyCost ι) (A B C : List ι) (dims : PyDims ι) :
    Except PyErr ℕ := do
  let order := m.allInds enum (uniqueEverseen (A ++ B ++ C))
  let d ← dims.inOrder order
  let core ← m.core enum order
  let a ← bitsIn order A
  let b ← bitsIn order B
  let _ ← bitsIn order C
  return core.cost d (a ∪ b)

/-- infinite_memory/cost_model.py:218-221 `__eq__`. -/
def PyCost.eq (m o : PyCost ι) : Bool :=
  decide (m.costType = o.costType) && decide (m.sparse = o.sparse) &&
    decide (m.nProjs.map PyNum.val = o.nProjs.map PyNum.val)

section
variable {W : Type} [AddCommGroup W] [LinearOrder W]

/-- finite_width/cost_model.py:109-115: the saved arguments. -/
structure PyFwCost (ι W : Type) extends PyCost ι where
  maxWidth : W
  widthType : String

/-- finite_width/cost_model.py:73-115 `__init__`. -/
def PyFwCost.make (maxWidth : W) (widthType costType : String) (sparse : Option (List ι))
    (nProjs : Option PyNum) : Except PyErr (PyFwCost ι W) :=
  if maxWidth < 0 then .error .valueError                                               -- 85
  else if widthType ∉ widthTypes then .error .attributeError                            -- 90-92
  else match PyCost.make costType sparse nProjs with
    | .error e => .error e
    | .ok m => .ok ⟨m, maxWidth, widthType⟩

/-- `width` of the two C++ models. -/
def CostCore.width (log2 : ℕ → W) (c : CostCore) (dims : Dims) (xs : ISet) : W :=
  match c with
  | .simple => simpleWidth log2 dims xs
  | .sparse b n => sparseWidth log2 dims b n xs

/-- `delta_width` of the two C++ models. -/
def CostCore.deltaWidth (log2 : ℕ → W) (c : CostCore) (dims : Dims) (xs : ISet) (pos : ℕ) : W :=
  match c with
  | .simple => simpleDelta log2 dims xs pos
  | .sparse b n => sparseDelta log2 dims b n xs pos

/-- finite_width/cost_model.py:175-219 `width`. -/
def PyFwCost.width (log2 : ℕ → W) (enum : Finset ι → List ι) (m : PyFwCost ι W) (inds : List ι)
    (dims : PyDims ι) : Except PyErr W := do
  let order := m.allInds enum inds
  let d ← dims.inOrder order
  let core ← m.core enum order
  let b ← bitsIn order inds
  return core.width log2 d b

/-- finite_width/cost_model.py:221-273 `delta_width`. -/
def PyFwCost.deltaWidth (log2 : ℕ → W) (enum : Finset ι → List ι) (m : PyFwCost ι W) (inds : List ι)
    (dims : PyDims ι) (index : ι) : Except PyErr W := do
  if index ∉ inds then throw .valueError                                                -- 242
  let pos := inds.idxOf index
  let order := m.allInds enum inds
  let d ← dims.inOrder order
  let core ← m.core enum order
  let b ← bitsIn order inds
  return core.deltaWidth log2 d b pos

/-- finite_width/cost_model.py:275-337 `contraction_cost`. -/
def PyFwCost.contractionCost (enum : Finset ι → List ι) (m : PyFwCost ι W) (A B C : List ι)
    (dims : PyDims ι) (slices : List ι) : Except PyErr ℕ := do
  if C.any (fun x => decide (x ∉ A ++ B)) then throw .valueError                        -- 306
  let order := m.allInds enum (uniqueEverseen (A ++ B ++ C ++ slices))
  let d ← dims.inOrder order
  let core ← m.core enum order
  let a ← bitsIn order A
  let b ← bitsIn order B
  let _ ← bitsIn order C
  let s ← bitsIn order slices
  return core.cost d (a ∪ b ∪ s)

/-- finite_width/cost_model.py:374-378 `__eq__`. -/
def PyFwCost.eq (m o : PyFwCost ι W) : Bool :=
  decide (m.maxWidth = o.maxWidth) && decide (m.widthType = o.widthType) && m.toPyCost.eq o.toPyCost

end

end TNCO
