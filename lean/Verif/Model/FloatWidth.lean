import Verif.Model.Float
import Verif.Model.Width

/-!
# Floating-point widths

The width types of the finite-width optimizer (`tnco/optimize/finite_width/cost_model.py:76-92`: `float32`, the default, `float64` and `float128`), with the
conversions of the C++ code made explicit. `lg d` is `log2(d)`, which is a `double` for an integer argument.
-/

namespace TNCO

/-- `<=`; false if one side is NaN. -/
def Flt.leb : Flt → Flt → Bool
  | .fin a, .fin b => decide (a ≤ b)
  | .fin _, .inf t => !t
  | .inf s, .fin _ => s
  | .inf s, .inf t => s || !t
  | _, _ => false

instance (F : FloatFormat) : LE (Fl F) := ⟨fun x y => Flt.leb x y = true⟩
instance (F : FloatFormat) : DecidableLE (Fl F) := fun x y => inferInstanceAs (Decidable (Flt.leb x y = true))

/-- `w + x` for a width `w` and a `double` `x`, stored as a width: computed in the wider of the two types. -/
def addDouble (F : FloatFormat) (w : Fl F) (x : Fl float64) : Fl F :=
  if F.prec ≤ float64.prec then F.convert (Flt.add float64.round w x) else w + F.convert x

/-- finite_width/cost_model/simple.hpp:38-57 `get_width`: `log2(dims) * inds.count()` is a product of `double`s; otherwise `width_ += log2(dims[pos])` in
the order of the positions. -/
def floatWidth (F : FloatFormat) (lg : ℕ → Fl float64) (dims : Dims) (inds : ISet) : Fl F :=
  match dims with
  | .int d => F.convert (Flt.mul float64.round (lg d) (float64.ofNat inds.card))
  | .vec l => (ISet.positions inds).foldl (fun w p => addDouble F w (lg (l.getD p 0))) 0

/-- simple.hpp:59-76 `get_delta_width`: `(1 - 2 * inds.test(pos)) * log2(dims[pos])`. -/
def floatDelta (F : FloatFormat) (lg : ℕ → Fl float64) (dims : Dims) (inds : ISet) (pos : ℕ) : Fl F :=
  F.convert (if pos ∈ inds then Flt.neg (lg (dims.get pos)) else lg (dims.get pos))

/-- finite_width/utils.hpp:83-99: the cached `log2_dims`. -/
def floatLog (F : FloatFormat) (lg : ℕ → Fl float64) (dims : Dims) (pos : ℕ) : Fl F := F.convert (lg (dims.get pos))

/-- simple.hpp:78-122: constructor (`none` = `runtime_error`), `width` and `delta_width`. -/
def floatWidthModel (F : FloatFormat) (lg : ℕ → Fl float64) (dims : Dims) (maxWidth : Fl F) : Option (WidthModel (Fl F)) :=
  if maxWidth < 0 then none
  else some ⟨floatWidth F lg dims, floatDelta F lg dims, floatLog F lg dims, dims.isInt, maxWidth⟩

/-- The local `min` of simple_sparse_inds.hpp:45-47: a width and a `double` are compared by value, the smaller one is converted. -/
def minDouble (F : FloatFormat) (x : Fl F) (y : Fl float64) : Fl F := if Flt.ltb x y then x else F.convert y

/-- simple_sparse_inds.hpp:38-51 `get_width`. -/
def floatSparseWidth (F : FloatFormat) (lg : ℕ → Fl float64) (dims : Dims) (sparse : ISet) (nProjs : ℕ) (inds : ISet) : Fl F :=
  floatWidth F lg dims (inds \ sparse) + minDouble F (floatWidth F lg dims (inds ∩ sparse)) (lg nProjs)

/-- simple_sparse_inds.hpp:53-79 `get_delta_width`. -/
def floatSparseDelta (F : FloatFormat) (lg : ℕ → Fl float64) (dims : Dims) (sparse : ISet) (nProjs : ℕ) (inds : ISet) (pos : ℕ) : Fl F :=
  if pos ∈ sparse then
    minDouble F (floatWidth F lg dims (inds.toggle pos ∩ sparse)) (lg nProjs) - minDouble F (floatWidth F lg dims (inds ∩ sparse)) (lg nProjs)
  else floatDelta F lg dims inds pos

/-- simple_sparse_inds.hpp:81-134 -/
def floatSparseWidthModel (F : FloatFormat) (lg : ℕ → Fl float64) (dims : Dims) (maxWidth : Fl F) (sparse : ISet) (nProjs : ℕ) :
    Option (WidthModel (Fl F)) :=
  if maxWidth < 0 then none
  else if nProjs = 0 then none
  else some ⟨floatSparseWidth F lg dims sparse nProjs, floatSparseDelta F lg dims sparse nProjs, floatLog F lg dims, dims.isInt, maxWidth⟩

/-- The test of the Python constructor (finite_width/optimizer.py:102-109): `cmodel.max_width` is the `double` given by the user, the width is returned to
Python as a `double`. -/
def Fl.over {F : FloatFormat} (max : Fl float64) (w : Fl F) : Prop := max < float64.convert w

instance {F : FloatFormat} (max : Fl float64) : DecidablePred (Fl.over (F := F) max) := fun w =>
  inferInstanceAs (Decidable (max < float64.convert w))

end TNCO
