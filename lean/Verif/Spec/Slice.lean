import Verif.Model.NDArray

/-!
# Specification: slicing a tensor network

Fixing the values of some indices: `a[...]` with an integer for every fixed axis and `:` for the others.
-/

namespace TNCO
variable {ι R : Type} [DecidableEq ι]

/-- The indices that are left. -/
def sliceInds (S : Finset ι) (xs : List ι) : List ι := xs.filter (· ∉ S)

/-- The array with the indices in `S` fixed to the values `v`; `xs` are the indices of the axes of `a`. -/
def sliceArray (S : Finset ι) (v : ι → ℕ) (a : NDArray R) (xs : List ι) : NDArray R :=
  let shape := ((xs.zip a.shape).filter fun p => decide (p.1 ∉ S)).map Prod.snd
  ⟨shape, fun k => a.get (xs.map fun x => if x ∈ S then v x else (unravel shape k).getD ((sliceInds S xs).idxOf x) 0)⟩

/-- All tensors of a network. -/
def sliceNetInds (S : Finset ι) (tsInds : List (List ι)) : List (List ι) := tsInds.map (sliceInds S)

/-- All arrays of a network. -/
def sliceArrays (S : Finset ι) (v : ι → ℕ) (arrays : List (NDArray R)) (tsInds : List (List ι)) : List (NDArray R) :=
  List.zipWith (sliceArray S v) arrays tsInds

end TNCO
