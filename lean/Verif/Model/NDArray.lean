import Verif.Model.PathBuild
import Mathlib.Algebra.BigOperators.Group.Finset.Basic
import Mathlib.Algebra.Ring.Defs
import Mathlib.Algebra.BigOperators.Group.List.Basic

/-!
# The array operations that `tnco/utils/tensor.py` uses

`transpose`, `reshape` and `@` follow the NumPy documentation (row-major order); they belong to
the trusted base. Entries are in any commutative semiring (no rounding).
-/

namespace TNCO

/-- An array: its shape and its entries in row-major order. -/
structure NDArray (R : Type) where
  shape : List ℕ
  data : ℕ → R

/-- The row-major position of a multi-index. -/
def ravel : List ℕ → List ℕ → ℕ
  | _ :: ds, i :: is => i * ds.prod + ravel ds is
  | _, _ => 0

/-- The multi-index of a row-major position. -/
def unravel : List ℕ → ℕ → List ℕ
  | [], _ => []
  | _ :: ds, k => k / ds.prod :: unravel ds (k % ds.prod)

namespace NDArray
variable {R : Type}

def ndim (a : NDArray R) : ℕ := a.shape.length

/-- `a[idx]` -/
def get (a : NDArray R) (idx : List ℕ) : R := a.data (ravel a.shape idx)

/-- `a.transpose(axes)`: axis `k` of the result is axis `axes[k]` of `a`; `ValueError` unless `axes` is
a permutation of the axes. -/
def transpose (a : NDArray R) (axes : List ℕ) : Except PyErr (NDArray R) :=
  if axes.length ≠ a.ndim ∨ ¬ axes.Nodup ∨ ∃ p ∈ axes, a.ndim ≤ p then .error .valueError
  else
    let shape := axes.map fun p => a.shape.getD p 0
    .ok ⟨shape, fun k => a.get ((List.range a.ndim).map fun p => (unravel shape k).getD (axes.idxOf p) 0)⟩

/-- `a.reshape(shape)`: same entries in the same order; `ValueError` if the sizes differ. -/
def reshape (a : NDArray R) (shape : List ℕ) : Except PyErr (NDArray R) :=
  if a.shape.prod ≠ shape.prod then .error .valueError else .ok ⟨shape, a.data⟩

/-- `a @ b` for two arrays with three axes: a matrix product for each value of the first axis;
`ValueError` if the shapes do not match. (Broadcasting of a first axis of length 1 is not
modelled: `tensordot` gives both the same first axis.) -/
def matmul [CommSemiring R] (a b : NDArray R) : Except PyErr (NDArray R) :=
  match a.shape, b.shape with
  | [p, m, k], [p', k', n] =>
    if p ≠ p' ∨ k ≠ k' then .error .valueError
    else .ok ⟨[p, m, n], fun t =>
      let idx := unravel [p, m, n] t
      ∑ l ∈ Finset.range k, a.get [idx.getD 0 0, idx.getD 1 0, l] * b.get [idx.getD 0 0, l, idx.getD 2 0]⟩
  | _, _ => .error .valueError

end NDArray
end TNCO
