import Mathlib.Algebra.BigOperators.Group.Finset.Basic
import Mathlib.Algebra.BigOperators.Group.List.Basic
import Mathlib.Algebra.Ring.Defs

/-!
# Specification: the value of a tensor network

A tensor with named indices is a function of an assignment of values to all index names. The
value of a network over its output indices is the sum, over the values of all other indices, of the
product of the tensors (`einsum`).
-/

namespace TNCO
variable {ι R : Type} [DecidableEq ι]

/-- The sum of `F` over all values of the indices in a list; `d x` is the dimension of `x`. -/
def sumOver [AddCommMonoid R] (d : ι → ℕ) : List ι → ((ι → ℕ) → R) → (ι → ℕ) → R
  | [], F, f => F f
  | x :: l, F, f => ∑ i ∈ Finset.range (d x), sumOver d l F (Function.update f x i)

/-- The value of a network whose tensors are `Ts`: sum over the indices in `l` (all those which are
not output indices). -/
def einsum [CommSemiring R] (d : ι → ℕ) (l : List ι) (Ts : List ((ι → ℕ) → R)) (f : ι → ℕ) : R :=
  sumOver d l (fun g => (Ts.map fun T => T g).prod) f

end TNCO
