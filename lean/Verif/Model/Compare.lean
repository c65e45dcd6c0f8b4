import Verif.Model.TreeCheck
import Verif.Model.CostModel

/-!
# Comparing trees and optimizers

`include/tnco/ctree.hpp:96-99`, `tnco/ctree.py:263-264`, `tnco/optimize/infinite_memory/optimizer.py:234-251`,
`tnco/optimize/finite_width/optimizer.py:332-354`. An optimizer is compared by the arguments of its `__reduce__`; the state of the generator is compared as
a text, which is taken to determine the state. Python compares two tuples element by element up to the first difference, and their lengths only then.
-/

namespace TNCO

variable {ι : Type} [DecidableEq ι]

/-- The C++ cost model for the dimensions of a tree. -/
def CostCore.model (c : CostCore) (dims : Dims) : CostModel ℤ := ⟨fun s => (c.cost dims s : ℤ)⟩

/-- The width model of a C++ object; `none` is the exception of its constructor. -/
def CostCore.widthModel {W : Type} [AddCommGroup W] [LinearOrder W] (log2 : ℕ → W) (c : CostCore) (dims : Dims) (maxWidth : W) : Option (WidthModel W) :=
  match c with
  | .simple => simpleWidthModel log2 dims maxWidth
  | .sparse b n => sparseWidthModel log2 dims maxWidth b n

section
variable {σ R W : Type}

/-- infinite_memory/optimizer.py:243-245 `__reduce__`: the arguments. -/
structure InfArgs (ι σ : Type) where
  ctree : PyTree ι
  cmodel : PyCost ι
  prng : σ
  disable : Bool
  minCtree : PyTree ι

/-- finite_width/optimizer.py:345-348 `__reduce__`: the arguments. -/
structure FwArgs (ι σ W : Type) where
  ctree : PyTree ι
  cmodel : PyFwCost ι W
  prng : σ
  disable : Bool
  minCtree : PyTree ι
  slices : Finset ι
  minSlices : Finset ι
  skip : Finset ι

/-- infinite_memory/optimizer.py:243-245 `__reduce__`. -/
def PyInf.reduce (m : PyCost ι) (o : PyInf ι σ R) : Except PyErr (InfArgs ι σ) :=
  match getCtree o.cache o.core.ctree with
  | .error e => .error e
  | .ok t => match getCtree o.cache o.core.minCtree with
    | .error e => .error e
    | .ok mt => .ok ⟨t, m, o.core.prng, o.core.disableShared, mt⟩

/-- finite_width/optimizer.py:345-348 `__reduce__`, with the properties `slices` and `min_slices` (264-290). -/
def PyFw.reduce (m : PyFwCost ι W) (o : PyFw ι σ R W) : Except PyErr (FwArgs ι σ W) :=
  match getCtree o.cache o.core.inf.ctree with
  | .error e => .error e
  | .ok t => match getCtree o.cache o.core.inf.minCtree with
    | .error e => .error e
    | .ok mt =>
      match ofBits o.cache.indsOrder o.core.inf.ctree.nInds o.core.slices, ofBits o.cache.indsOrder o.core.inf.ctree.nInds o.core.minSlices with
      | some sl, some msl => .ok ⟨t, m, o.core.inf.prng, o.core.inf.disableShared, mt, sl, msl, o.skip⟩
      | _, _ => .error .indexError

variable [DecidableEq σ] [AddCommGroup W] [LinearOrder W]

/-- The other side of a comparison: an optimizer, by what its `__reduce__` returns, an object whose `__reduce__` raises an exception, as for `None`, numbers,
texts and lists (`TypeError`), or an object with other arguments. -/
inductive Comparand (ι σ W : Type) where
  | inf (a : InfArgs ι σ)
  | fw (a : FwArgs ι σ W)
  | raises (e : PyErr)
  | foreign

/-- `None.__reduce__()`, `(5).__reduce__()`, `'text'.__reduce__()`, `[].__reduce__()`: "cannot pickle 'NoneType' object" and so on. -/
def Comparand.builtin : Comparand ι σ W := .raises .typeError

/-- infinite_memory/optimizer.py:250-251 `__eq__` for the arguments `a` of the left side. The tuple of a finite-width optimizer is longer. -/
def InfArgs.eq (a : InfArgs ι σ) : Comparand ι σ W → Except PyErr Bool
  | .inf b => .ok (a.ctree.same b.ctree && a.cmodel.eq b.cmodel && decide (a.prng = b.prng) && decide (a.disable = b.disable) && a.minCtree.same b.minCtree)
  | .fw _ => .ok false
  | .raises e => .error e
  | .foreign => .ok false

/-- finite_width/optimizer.py:353-354 `__eq__`. If the trees are equal, the cost models are compared next; finite_width/cost_model.py:374-378 reads
`other.max_width`, which the model of an infinite-memory optimizer does not have. -/
def FwArgs.eq (a : FwArgs ι σ W) : Comparand ι σ W → Except PyErr Bool
  | .fw b => .ok (a.ctree.same b.ctree && a.cmodel.eq b.cmodel && decide (a.prng = b.prng) && decide (a.disable = b.disable) && a.minCtree.same b.minCtree &&
      decide (a.slices = b.slices) && decide (a.minSlices = b.minSlices) && decide (a.skip = b.skip))
  | .inf b => if a.ctree.same b.ctree then .error .attributeError else .ok false
  | .raises e => .error e
  | .foreign => .ok false

/-- `o == x` for an infinite-memory optimizer. -/
def PyInf.eq (m : PyCost ι) (o : PyInf ι σ R) (x : Comparand ι σ W) : Except PyErr Bool :=
  match o.reduce m with
  | .error e => .error e
  | .ok a => a.eq x

/-- `o == x` for a finite-width optimizer. -/
def PyFw.eq (m : PyFwCost ι W) (o : PyFw ι σ R W) (x : Comparand ι σ W) : Except PyErr Bool :=
  match o.reduce m with
  | .error e => .error e
  | .ok a => a.eq x

end
end TNCO
