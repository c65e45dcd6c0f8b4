import Verif.Model.CircuitLoad
import Verif.Model.TensorNetwork

/-!
# `load_tn` of a circuit (`tnco/app/app.py:489-508`, `511-535`, `538-561`)

The three branches (a list of gates, `cirq`, `qiskit`) do the same once `load` has the gates. The options `decompose_hyper_inds` and `fuse` of
`load_tn` are not used there.
-/

namespace TNCO
variable {Q K S σ W : Type} [DecidableEq Q] [Field K] [StarRing K] [DecidableEq K]

/-- `map(lambda xs, a: Tensor(xs, array=a), ts_inds, arrays)` (app.py:506-507, 533-534, 559-560); `map` ends with the shorter list. -/
def gateTensors {ι K : Type} : List (List ι) → List (NDArray K) → Except PyErr (List (TensorRec ι))
  | xs :: inds, a :: arrs =>
    match mkTensor xs .absent (some a.shape) with
    | .error e => .error e
    | .ok t =>
      match gateTensors inds arrs with
      | .error e => .error e
      | .ok ts => .ok (t :: ts)
  | _, _ => .ok []

/-- app.py:489-508: the tensor network of a list of gates, and its arrays. -/
def loadGates [Zero W] [Add W] [LT W] [DecidableLT W] (A : LoadArgs Q K S σ W) (seed : S) (circuit : List (Gate Q K)) (init fin : PyState Q K) :
    Option (Except PyErr (NetworkRec (Q × Stage) × List (NDArray K))) :=
  match load { A with decompose := false, fuse := none } seed circuit init fin with
  | none => none
  | some (.error e) => some (.error e)
  | some (.ok (arrs, inds, out)) =>
    match gateTensors inds arrs with
    | .error e => some (.error e)
    | .ok ts =>
      match mkNetwork (ts.map some) (some (A.enum out)) none with
      | .error e => some (.error e)
      | .ok N => some (.ok (N, arrs))

end TNCO
