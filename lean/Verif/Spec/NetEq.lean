import Verif.Model.NetEq
import Verif.Spec.Einsum

/-! # Specification: equal tensors and networks -/

namespace TNCO
variable {ι K T R : Type} [LT R]

/-- What the constructor of `Tensor` guarantees (C45). -/
structure FullTensor.Valid (t : FullTensor ι K T) : Prop where
  length : t.dims.length = t.inds.length
  pos : ∀ d ∈ t.dims, 0 < d
  shape : ∀ a, t.array = some a → a.shape = t.dims

/-- All entries of two arrays of the same shape differ by less than `atol`. -/
def EntriesClose (dist : K → K → R) (atol : R) (a b : NDArray K) : Prop :=
  ∀ idx, List.Forall₂ (· < ·) idx a.shape → dist (a.get idx) (b.get idx) < atol

/-- Two tensors with the same indices and dimensions; both without an array, or both with an array and close entries. -/
def CloseTensors (dist : K → K → R) (atol : R) (t u : FullTensor ι K T) : Prop :=
  t.inds = u.inds ∧ t.dims = u.dims ∧
    ((t.array = none ∧ u.array = none) ∨ ∃ a b, t.array = some a ∧ u.array = some b ∧ EntriesClose dist atol a b)

/-- Two shapes that NumPy combines: counted from the last axis, lengths are equal or one of them is 1. -/
def ShapesFit (s t : List ℕ) : Prop := ∀ k m n : ℕ, s.reverse[k]? = some m → t.reverse[k]? = some n → m = n ∨ m = 1 ∨ n = 1

/-- Two tensors with arrays whose shapes NumPy does not combine. -/
def Clash (t u : FullTensor ι K T) : Prop := ∃ a b, t.array = some a ∧ u.array = some b ∧ ¬ ShapesFit a.shape b.shape

/-- The tensors of a network, as functions of the values of the indices; a tensor without an array counts as 0. -/
def FullNetwork.terms [Zero K] (N : FullNetwork ι K T) : List ((ι → ℕ) → K) :=
  N.tensors.map fun t f => match t.array with
    | some a => a.get (t.inds.map f)
    | none => 0

end TNCO
