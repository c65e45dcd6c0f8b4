import Verif.Model.Contract
import Verif.Model.Names

/-!
# Splitting a tensor: `tnco/utils/tensor.py` 259-359

Simplifications: the backend is NumPy; `asarray` does nothing; entries are exact. `linalg.svd` is a parameter. Entries have the type `R`,
singular values the type `S`. The name `None` is not an index.
-/

namespace TNCO
variable {ι R S : Type} [DecidableEq ι]

namespace NDArray

/-- `a.reshape(pre + (-1,) + post)`: the missing length is the quotient of the sizes; `ValueError` if there is none or if it is not
determined (NumPy, `_fix_unknown_dimension`). -/
def reshapeFree (a : NDArray R) (pre post : List ℕ) : Except PyErr (NDArray R) :=
  let known := (pre ++ post).prod
  if known = 0 ∨ a.shape.prod % known ≠ 0 then .error .valueError
  else .ok ⟨pre ++ a.shape.prod / known :: post, a.data⟩

/-- The positions of `True` in a Boolean array with one axis. -/
def maskPositions (mask : List Bool) : List ℕ := (List.range mask.length).filter fun k => mask.getD k false

/-- `a[mask]`: `IndexError` if the first axis has another length. -/
def maskRows (a : NDArray R) (mask : List Bool) : Except PyErr (NDArray R) :=
  match a.shape with
  | n :: rest =>
    if mask.length ≠ n then .error .indexError
    else
      let pos := maskPositions mask
      .ok ⟨pos.length :: rest, fun t =>
        let idx := unravel (pos.length :: rest) t
        a.get (pos.getD (idx.getD 0 0) 0 :: idx.drop 1)⟩
  | [] => .error .indexError

/-- `a[:, mask]`: `IndexError` if the second axis has another length. -/
def maskCols (a : NDArray R) (mask : List Bool) : Except PyErr (NDArray R) :=
  match a.shape with
  | m :: n :: rest =>
    if mask.length ≠ n then .error .indexError
    else
      let pos := maskPositions mask
      .ok ⟨m :: pos.length :: rest, fun t =>
        let idx := unravel (m :: pos.length :: rest) t
        a.get (idx.getD 0 0 :: pos.getD (idx.getD 1 0) 0 :: idx.drop 2)⟩
  | _ => .error .indexError

end NDArray

/-- What `linalg.svd(a, full_matrices=False)` returns: `U`, `s`, `Vh`. -/
abbrev SvdOracle (R S : Type) := NDArray R → Except PyErr (NDArray R × NDArray S × NDArray R)

/-- What `svd` returns: one tensor (tensor.py:325) or three (tensor.py:357-359). -/
inductive SvdResult (ι R S : Type) where
  | whole (a : NDArray R) (inds : List ι)
  | split (U : NDArray R) (uInds : List ι) (s : NDArray S) (sInds : List ι) (V : NDArray R) (vInds : List ι)

/-- tensor.py:322-325: no index on the left, or all of them. -/
def svdWhole (a : NDArray R) (inds left : List ι) : Except PyErr (SvdResult ι R S) :=
  let left := if left.length = 0 then inds else left
  match a.transpose (left.map fun x => inds.idxOf x) with
  | .error e => .error e
  | .ok b => .ok (.whole b left)

/-- tensor.py:330-331 -/
def svdRight (inds left : List ι) : List ι := inds.filter fun x => x ∉ left

/-- tensor.py:328-340: the matrix that is decomposed. -/
def svdMatrix (a : NDArray R) (inds left : List ι) (dims : ι → Option ℕ) : Except PyErr (NDArray R) :=
  match dimList dims left with
  | .error e => .error e
  | .ok dl =>
    match a.transpose ((left ++ svdRight inds left).map fun x => inds.idxOf x) with
    | .error e => .error e
    | .ok b => b.reshapeFree [dl.prod] []

/-- tensor.py:345-359: the large singular values, and the three tensors. -/
def svdTensors (big : S → Bool) (U : NDArray R) (s : NDArray S) (V : NDArray R) (left right : List ι) (dims : ι → Option ℕ) (name : ι) :
    Except PyErr (SvdResult ι R S) :=
  let mask := (List.range (s.shape.getD 0 0)).map fun k => big (s.get [k])               -- 347
  match U.maskCols mask, s.maskRows mask, V.maskRows mask with                          -- 348-350
  | .ok U, .ok s, .ok V =>
    match dimList dims left, dimList dims right with
    | .ok dl, .ok dr =>
      match U.reshapeFree dl [], V.reshapeFree [] dr with                               -- 353-354
      | .ok U, .ok V => .ok (.split U (left ++ [name]) s [name] V (name :: right))
      | .error e, _ => .error e
      | _, .error e => .error e
    | .error e, _ => .error e
    | _, .error e => .error e
  | .error e, _, _ => .error e
  | _, .error e, _ => .error e
  | _, _, .error e => .error e

/-- tensor.py:322-359, after the name is chosen. -/
def svdSplit (dec : SvdOracle R S) (big : S → Bool) (a : NDArray R) (inds left : List ι) (name : ι) : Except PyErr (SvdResult ι R S) :=
  if left.length = 0 ∨ left.length = a.ndim then svdWhole a inds left                    -- 323
  else
    let dims := dictLast (inds.zip a.shape)                                             -- 328
    match svdMatrix a inds left dims with
    | .error e => .error e
    | .ok m =>
      match dec m with                                                                  -- 343
      | .error e => .error e
      | .ok (U, s, V) => svdTensors big U s V left (svdRight inds left) dims name

/-- tensor.py:259-359 `svd`; `big x` is `x >= atol`. `none`: bound on the number of drawn names exceeded. -/
def svd (dec : SvdOracle R S) (big : S → Bool) (a : NDArray R) (inds left : List ι) (name : Option ι) (seeded : Bool) (draw : ℕ → ι)
    (fuel : ℕ) : Option (Except PyErr (SvdResult ι R S)) :=
  if a.ndim ≠ inds.length then some (.error .valueError)                                -- 308-309
  else if ¬ ∀ x ∈ left, x ∈ inds then some (.error .valueError)                         -- 310-311
  else
    match svdName name seeded draw inds fuel with                                       -- 312-320
    | none => none
    | some (.error e) => some (.error e)
    | some (.ok n) => some (svdSplit dec big a inds left n)

end TNCO
