import Verif.Spec.Replay
import Mathlib.Algebra.BigOperators.Group.Finset.Basic
import Mathlib.Algebra.BigOperators.Group.List.Basic
import Mathlib.Data.Int.Basic
import Mathlib.Data.Finset.Lattice.Basic
import Mathlib.Algebra.Order.Ring.Int
import Mathlib.Order.Defs.LinearOrder

/-!
# Specification: what it costs to follow a contraction path

By the names of the indices and the positions of the tensors only: no contraction tree, no bit sets.
-/

namespace TNCO
variable {ι : Type} [DecidableEq ι]

/-- Index `x` survives the contraction of the tensors `S`: it is an output, or a tensor not in `S` has it too, or only one
tensor of the network has it. -/
def Survives (tsInds : List (List ι)) (out : Finset ι) (S : List ℕ) (x : ι) : Prop :=
  x ∈ out ∨ (∃ q < tsInds.length, q ∉ S ∧ x ∈ tsInds.getD q []) ∨
    ∀ p < tsInds.length, ∀ q < tsInds.length, x ∈ tsInds.getD p [] ∧ x ∈ tsInds.getD q [] → p = q

instance (tsInds : List (List ι)) (out : Finset ι) (S : List ℕ) (x : ι) : Decidable (Survives tsInds out S x) := by
  unfold Survives; infer_instance

/-- The indices of the tensor that results from the contraction `t`. -/
def termInds (tsInds : List (List ι)) (out : Finset ι) (t : Term) : Finset ι :=
  (t.tensors.flatMap fun p => tsInds.getD p []).toFinset.filter (Survives tsInds out t.tensors)

/-- The cost of the last contraction of a term: all indices of the two operands, and `extra` ones. -/
def pairCost {R : Type} [Zero R] (cost : Finset ι → R) (tsInds : List (List ι)) (out extra : Finset ι) : Term → R
  | .tensor _ => 0
  | .pair a b => cost (termInds tsInds out a ∪ termInds tsInds out b ∪ extra)

/-- The cost of a path: the sum over its contractions. -/
def pathCost {R : Type} [AddCommMonoid R] (cost : Finset ι → R) (tsInds : List (List ι)) (out extra : Finset ι) (path : List (ℕ × ℕ)) : R :=
  ((trace (initTerms tsInds.length) path).map (pairCost cost tsInds out extra)).sum

/-- The cost of a set of indices: the product of the dimensions; the sparse ones count for at most `nProjs`. -/
def nameCost (d : ι → ℕ) (sparse : Finset ι) (nProjs : ℕ) (s : Finset ι) : ℤ :=
  if sparse = ∅ then ((∏ x ∈ s, d x : ℕ) : ℤ)
  else (((∏ x ∈ s \ sparse, d x) * min (∏ x ∈ s ∩ sparse, d x) nProjs : ℕ) : ℤ)

/-- The width of a set of indices: the sum of the logarithms of the dimensions; the sparse ones count for at most `log2 nProjs`. -/
def nameWidth {W : Type} [AddCommMonoid W] [LinearOrder W] (log2 : ℕ → W) (d : ι → ℕ) (sparse : Finset ι) (nProjs : ℕ) (s : Finset ι) : W :=
  if sparse = ∅ then ∑ x ∈ s, log2 (d x)
  else ∑ x ∈ s \ sparse, log2 (d x) + min (∑ x ∈ s ∩ sparse, log2 (d x)) (log2 nProjs)

/-- With the indices `sl` fixed, all the operands and results of the contractions of a path have at most the given width. -/
def PathFits {W : Type} [LinearOrder W] (width : Finset ι → W) (maxWidth : W) (tsInds : List (List ι)) (out sl : Finset ι)
    (path : List (ℕ × ℕ)) : Prop :=
  ∀ a b, Term.pair a b ∈ trace (initTerms tsInds.length) path →
    width (termInds tsInds out a \ sl) ≤ maxWidth ∧ width (termInds tsInds out b \ sl) ≤ maxWidth ∧
      width (termInds tsInds out (.pair a b) \ sl) ≤ maxWidth

end TNCO
