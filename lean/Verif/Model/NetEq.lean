import Verif.Model.NDArray
import Mathlib.Data.Finset.Basic

/-!
# Comparing tensors and networks: `tnco/app/tn.py:72-73`, `139-145`, `176-177`

`dist a b` is `abs(a - b)`. Tuples compare identical members without `==`; as entries are numbers and `atol` is positive, a tensor is equal to itself
anyway (`C70_refl`), and this is left out. Tags are compared as values.
-/

namespace TNCO

/-- tn.py:93-96: a tensor with its array and tags. -/
structure FullTensor (ι K T : Type) where
  inds : List ι
  dims : List ℕ
  array : Option (NDArray K)
  tags : T

/-- tn.py:198-201: a network with the arrays and tags. -/
structure FullNetwork (ι K T : Type) where
  tensors : List (FullTensor ι K T)
  output : Finset ι
  sparse : Finset ι
  tags : T

/-- The shape that NumPy gives to `a - b`, last axis first; `none` if the shapes do not fit. -/
def broadcastRev : List ℕ → List ℕ → Option (List ℕ)
  | [], t => some t
  | a :: s, [] => some (a :: s)
  | a :: s, b :: t =>
    if a = b ∨ b = 1 then (broadcastRev s t).map (a :: ·)
    else if a = 1 then (broadcastRev s t).map (b :: ·)
    else none

def broadcast (s t : List ℕ) : Option (List ℕ) := (broadcastRev s.reverse t.reverse).map List.reverse

/-- The entry of an array that is used at a position of the common shape: axes of length 1 are repeated, missing axes come first. -/
def NDArray.castGet {K : Type} (a : NDArray K) (idx : List ℕ) : K :=
  a.get (List.zipWith (fun d i => if d = 1 then 0 else i) a.shape (idx.drop (idx.length - a.shape.length)))

section
variable {ι K T R : Type} [DecidableEq ι] [DecidableEq T] [LT R] [DecidableLT R]

/-- `all(abs(a - b).ravel() < atol)` (tn.py:142-143) -/
def entriesClose (dist : K → K → R) (atol : R) (a b : NDArray K) : Except PyErr Bool :=
  match broadcast a.shape b.shape with
  | none => .error .valueError
  | some s => .ok ((List.range s.prod).all fun k => decide (dist (a.castGet (unravel s k)) (b.castGet (unravel s k)) < atol))

/-- What a tensor is compared with. -/
inductive TensorArg (ι K T : Type) where
  | tensor (u : FullTensor ι K T)
  | other

/-- tn.py:139-145 `Tensor.__eq__`; an object without `array` raises `AttributeError` (140). -/
def FullTensor.eq (dist : K → K → R) (atol : R) (t : FullTensor ι K T) : TensorArg ι K T → Except PyErr Bool
  | .other => .error .attributeError
  | .tensor u =>
    match t.array, u.array with
    | some a, some b =>
      match entriesClose dist atol a b with
      | .error e => .error e
      | .ok false => .ok false                                                          -- 142-144
      | .ok true => .ok (decide (t.inds = u.inds) && decide (t.dims = u.dims))          -- 145
    | none, none => .ok (decide (t.inds = u.inds) && decide (t.dims = u.dims))
    | _, _ => .ok false                                                                 -- 140-141

/-- `==` of two tuples of tensors: members in order until two differ, then the lengths. -/
def tensorsEq (dist : K → K → R) (atol : R) : List (FullTensor ι K T) → List (FullTensor ι K T) → Except PyErr Bool
  | t :: ts, u :: us =>
    match t.eq dist atol (.tensor u) with
    | .error e => .error e
    | .ok false => .ok false
    | .ok true => tensorsEq dist atol ts us
  | [], [] => .ok true
  | _, _ => .ok false

/-- What a network is compared with. -/
inductive NetworkArg (ι K T : Type) where
  | network (M : FullNetwork ι K T)
  | other

/-- tn.py:176-177: `==` of a data class compares the tuples of fields (198-201), and is `False` for an object of another class. -/
def FullNetwork.eq (dist : K → K → R) (atol : R) (N : FullNetwork ι K T) : NetworkArg ι K T → Except PyErr Bool
  | .other => .ok false
  | .network M =>
    match tensorsEq dist atol N.tensors M.tensors with
    | .error e => .error e
    | .ok false => .ok false
    | .ok true => .ok (decide (N.output = M.output) && decide (N.sparse = M.sparse) && decide (N.tags = M.tags))

end

end TNCO
