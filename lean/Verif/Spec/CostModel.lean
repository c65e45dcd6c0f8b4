import Verif.Model.CostModel
import Mathlib.Algebra.BigOperators.Group.Finset.Basic

/-!
# What a cost model must return, in terms of index names

The formulas of the docstrings (infinite_memory/cost_model.py:38-56, finite_width/cost_model.py:43-59).
-/

namespace TNCO

variable {ι : Type} [DecidableEq ι]

/-- `prod_j d_j * min(prod_k d_k, n_projs)`, `j` over the ordinary and `k` over the sparse indices
among `X`; `prod_j d_j` if there are no sparse indices. -/
def costByName (sparse : Option (Finset ι)) (n : ℕ) (d : ι → ℕ) (X : Finset ι) : ℕ :=
  match sparse with
  | none => ∏ x ∈ X, d x
  | some s => (∏ x ∈ X \ s, d x) * min (∏ x ∈ X ∩ s, d x) n

/-- The width: the sum of the logarithms of the dimensions, that of the sparse indices at most
`log2 n_projs`. -/
def widthByName {W : Type} [AddCommGroup W] [LinearOrder W] (log2 : ℕ → W) (sparse : Option (Finset ι)) (n : ℕ)
    (d : ι → ℕ) (X : Finset ι) : W :=
  match sparse with
  | none => ∑ x ∈ X, log2 (d x)
  | some s => ∑ x ∈ X \ s, log2 (d x) + min (∑ x ∈ X ∩ s, log2 (d x)) (log2 n)

/-- The sparse indices of a model, as a set. -/
def PyCost.sparseSet (m : PyCost ι) : Finset ι := m.sparse.getD ∅

/-- The arguments that the documentation allows: a known type, `n_projs` a positive whole number, given
if there are sparse indices and not given without `sparse_inds`. -/
structure CostArgsOk (costType : String) (sparse : Option (List ι)) (nProjs : Option PyNum) : Prop where
  type : costType ∈ ["float32", "float64", "float128", "float1024"]
  projs : ∀ z, nProjs = some z → ∃ n : ℕ, 0 < n ∧ z.val = n
  given : ∀ l, sparse = some l → l ≠ [] → nProjs ≠ none
  alone : sparse = none → nProjs = none

end TNCO
