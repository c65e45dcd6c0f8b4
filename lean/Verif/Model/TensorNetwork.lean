import Verif.Model.PathBuild
import Verif.Model.Dict
import Mathlib.Data.Rat.Defs
import Mathlib.Data.Finset.Basic
import Mathlib.Data.Finset.Dedup

/-!
# The constructors of `Tensor` and `TensorNetwork` (`tnco/app/tn.py:72-268`)

An array is represented by its shape, tags are left out.  A dimension given
by the user is a rational number (finite `int` or `float`) or an object that
`int` refuses.
-/

namespace TNCO

/-- A dimension as given by the user. -/
inductive DimVal where
  | num (q : ℚ)
  | other
deriving DecidableEq

/-- The argument `dims` of `Tensor`. -/
inductive DimsArg where
  | absent
  | scalar (q : ℚ)
  | list (l : List DimVal)
deriving DecidableEq

/-- A tensor, without the values of its entries. -/
structure TensorRec (I : Type) where
  inds : List I
  dims : List Nat
  shape : Option (List Nat)
deriving DecidableEq

/-- `is_int(d) and not d < 1` (`tnco/app/tn.py:100-104`, `130`), as a natural
number. -/
def posInt : DimVal → Option Nat
  | .other => none
  | .num q => if q.isInt && decide (1 ≤ q.num) then some q.num.toNat else none

/-- The conversion of `dims` (`tnco/app/tn.py:107-125`). -/
def convertDims (n : Nat) (dims : DimsArg) (shape : Option (List Nat)) :
    Except PyErr (List DimVal) :=
  match dims with
  | .absent =>
    match shape with
    | none => .error .valueError
    | some s => .ok (s.map fun (d : Nat) => .num d)
  | .scalar q =>
    if q.isInt && decide (1 ≤ q.num) then .ok (List.replicate n (.num q))
    else .error .valueError
  | .list l => .ok l

/-- The checks of the converted arguments (`tnco/app/tn.py:129-137`). -/
def checkTensor {I : Type} (inds : List I) (shape : Option (List Nat))
    (l : List DimVal) : Except PyErr (TensorRec I) :=
  match l.mapM posInt with
  | none => .error .valueError
  | some ds =>
    if ds.length ≠ inds.length then .error .valueError
    else
      match shape with
      | none => .ok ⟨inds, ds, none⟩
      | some s =>
        if s ≠ ds then .error .valueError else .ok ⟨inds, ds, some s⟩

/-- `Tensor.__post_init__` (`tnco/app/tn.py:98-137`). -/
def mkTensor {I : Type} (inds : List I) (dims : DimsArg)
    (shape : Option (List Nat)) : Except PyErr (TensorRec I) :=
  match convertDims inds.length dims shape with
  | .error e => .error e
  | .ok l => checkTensor inds shape l

/-- A tensor network. -/
structure NetworkRec (I : Type) [DecidableEq I] where
  tensors : List (TensorRec I)
  output : Finset I
  sparse : Finset I
  dims : List (I × Nat)

variable {I : Type} [DecidableEq I]

/-- `output_inds` if they are not given (`tnco/app/tn.py:235-251`); `none` if
there are hyper-indices. -/
def defaultOutput (all : List I) : Option (Finset I) :=
  if ∃ x ∈ all, 1 < (all.count x : Int) - 1 then none
  else some (all.filter fun x => (all.count x : Int) - 1 = 0).toFinset

/-- `TensorNetwork.__post_init__` (`tnco/app/tn.py:203-268`).  A member of
`tensors` that is no `Tensor` is `none`. -/
def mkNetwork (tensors : List (Option (TensorRec I)))
    (output sparse : Option (List I)) : Except PyErr (NetworkRec I) :=
  match tensors.mapM id with
  | none => .error .valueError
  | some ts =>
    let all := ts.flatMap TensorRec.inds
    let dims := dupdate [] (ts.flatMap fun t => t.inds.zip t.dims)
    if ∃ t ∈ ts, t.dims.map some ≠ t.inds.map (dget dims) then
      .error .valueError
    else
      match (match output with
        | none => defaultOutput all
        | some o => some o.toFinset) with
      | none => .error .valueError
      | some out =>
        let sp := (sparse.getD []).toFinset
        if ¬ out ⊆ all.toFinset then .error .valueError
        else if ¬ sp ⊆ all.toFinset then .error .valueError
        else .ok ⟨ts, out, sp, dims⟩

end TNCO
