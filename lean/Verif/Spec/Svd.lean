import Verif.Model.NDArray
import Verif.Spec.Einsum
import Mathlib.Analysis.RCLike.Basic

/-!
# Specification: a singular value decomposition

What `numpy.linalg.svd(a, full_matrices=False)` promises for a matrix, in exact arithmetic.
-/

namespace TNCO
open scoped ComplexConjugate

/-- `M = U · diag(s) · V` with orthonormal columns of `U`, orthonormal rows of `V` and non-negative, non-increasing `s`. -/
structure IsSvd {K : Type} [RCLike K] (m n : ℕ) (M U : NDArray K) (s : NDArray ℝ) (V : NDArray K) : Prop where
  shapeU : U.shape = [m, min m n]
  shapeS : s.shape = [min m n]
  shapeV : V.shape = [min m n, n]
  columns : ∀ k < min m n, ∀ l < min m n,
    ∑ i ∈ Finset.range m, conj (U.get [i, k]) * U.get [i, l] = if k = l then 1 else 0
  rows : ∀ k < min m n, ∀ l < min m n,
    ∑ j ∈ Finset.range n, V.get [k, j] * conj (V.get [l, j]) = if k = l then 1 else 0
  nonneg : ∀ k < min m n, 0 ≤ s.get [k]
  sorted : ∀ l < min m n, ∀ k ≤ l, s.get [l] ≤ s.get [k]
  product : ∀ i < m, ∀ j < n,
    M.get [i, j] = ∑ k ∈ Finset.range (min m n), U.get [i, k] * (s.get [k] : K) * V.get [k, j]

variable {ι : Type} [DecidableEq ι]

/-- `M` is the matrix of the tensor `a` with indices `inds`: rows are the values of the indices in `left`, columns those of `right`, in
row-major order. -/
structure IsMatrixOf {R : Type} (d : ι → ℕ) (a : NDArray R) (inds left right : List ι) (M : NDArray R) : Prop where
  shape : M.shape = [(left.map d).prod, (right.map d).prod]
  entries : ∀ f : ι → ℕ, (∀ x ∈ inds, f x < d x) →
    M.get [ravel (left.map d) (left.map f), ravel (right.map d) (right.map f)] = a.get (inds.map f)

/-- The value of the network of the three tensors with indices `left ++ [x]`, `[x]` and `x :: right`, at the values `f` of the other
indices. -/
noncomputable def splitValue {K : Type} [RCLike K] (d : ι → ℕ) (left right : List ι) (x : ι) (U : NDArray K) (s : NDArray ℝ)
    (V : NDArray K) (f : ι → ℕ) : K :=
  einsum d [x] [fun g => U.get ((left ++ [x]).map g), fun g => (s.get ([x].map g) : K), fun g => V.get ((x :: right).map g)] f

/-- Three tensors that replace the tensor `a` with indices `inds` of dimensions `d`; the new index `x` has dimension `r`. -/
structure IsSplit {K : Type} [RCLike K] (d : ι → ℕ) (a : NDArray K) (inds left right : List ι) (x : ι) (atol : ℝ) (r : ℕ)
    (U : NDArray K) (s : NDArray ℝ) (V : NDArray K) : Prop where
  shapeU : U.shape = left.map d ++ [r]
  shapeS : s.shape = [r]
  shapeV : V.shape = r :: right.map d
  /-- The new index is not larger than needed. -/
  rank : r ≤ min (left.map d).prod (right.map d).prod
  /-- Nothing is dropped without a threshold. -/
  all : atol ≤ 0 → r = min (left.map d).prod (right.map d).prod
  large : ∀ t < r, 0 ≤ s.get [t] ∧ atol ≤ s.get [t]
  sorted : ∀ t < r, ∀ t' ≤ t, s.get [t] ≤ s.get [t']
  columns : ∀ t < r, ∀ t' < r, ∀ f,
    sumOver d left (fun g => conj (U.get (left.map g ++ [t])) * U.get (left.map g ++ [t'])) f = if t = t' then 1 else 0
  rows : ∀ t < r, ∀ t' < r, ∀ f,
    sumOver d right (fun g => V.get (t :: right.map g) * conj (V.get (t' :: right.map g))) f = if t = t' then 1 else 0
  /-- Each entry of the tensor is reproduced up to `atol`. -/
  near : 0 ≤ atol → ∀ f, (∀ y ∈ inds, f y < d y) →
    ‖a.get (inds.map f) - splitValue (Function.update d x r) left right x U s V f‖ ≤ atol
  /-- The error in the Frobenius norm is what the singular values do not account for … -/
  norm : ∀ f, sumOver d inds (fun g => ‖a.get (inds.map g) - splitValue (Function.update d x r) left right x U s V g‖ ^ 2) f =
    sumOver d inds (fun g => ‖a.get (inds.map g)‖ ^ 2) f - ∑ t ∈ Finset.range r, s.get [t] ^ 2
  /-- … and each value that is dropped accounts for less than `atol²`. -/
  dropped : 0 ≤ atol → ∀ f,
    sumOver d inds (fun g => ‖a.get (inds.map g) - splitValue (Function.update d x r) left right x U s V g‖ ^ 2) f ≤
      ((min (left.map d).prod (right.map d).prod - r : ℕ) : ℝ) * atol ^ 2
  /-- No value is dropped: the tensor is reproduced exactly. -/
  exact : r = min (left.map d).prod (right.map d).prod → ∀ f, (∀ y ∈ inds, f y < d y) →
    splitValue (Function.update d x r) left right x U s V f = a.get (inds.map f)

end TNCO
