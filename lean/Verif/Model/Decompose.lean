import Verif.Model.NDArray
import Verif.Model.Dict
import Verif.Model.OrderedFrozenSet
import Mathlib.Data.Finset.Lattice.Fold
import Mathlib.Data.Finset.Image

/-!
# Hyper-indices of diagonal tensors: `tnco/utils/tensor.py` 31-142, `tnco/utils/tn.py` 780-856

Simplifications: entries are exact, `allclose` is equality (`atol = 0` and no relative tolerance); the backend is NumPy.
-/

namespace TNCO
variable {ι R : Type} [DecidableEq ι] [CommRing R] [DecidableEq R]

/-- tensor.py:32-63 `is_diagonal`. The diagonal that is subtracted is a nested list; for an axis of length 0 it is an array of shape `(0,)`,
which is only broadcast if the last axis has length 0 or 1. -/
def isDiagonal (a : NDArray R) : Except PyErr Bool :=
  match a.shape with
  | n :: m :: rest =>
    if n ≠ m then .ok false                                                             -- 51-52
    else if n = 0 ∧ rest ≠ [] ∧ rest.getLastD 0 ≠ 0 ∧ rest.getLastD 0 ≠ 1 then .error .valueError
    else .ok (decide (∀ k < a.shape.prod,                                               -- 55-63
      let idx := unravel a.shape k
      a.data k - (if idx.getD 0 0 = idx.getD 1 0 then a.get (idx.getD 0 0 :: idx.getD 0 0 :: idx.drop 2) else 0) = 0))
  | _ => .error .valueError                                                             -- 47-48

/-- tensor.py:110-112 `pad`. -/
def padAxes (n i j : ℕ) : List ℕ := [i, j] ++ (List.range n).filter fun x => x ∉ [i, j]

/-- The pairs of axes in the order of tensor.py:117-118. -/
def axisPairs (n : ℕ) : List (ℕ × ℕ) := (List.range n).flatMap fun i => ((List.range n).filter (i < ·)).map fun j => (i, j)

/-- tensor.py:115-119: the first pair of axes that is diagonal. -/
def firstDiagonal (a : NDArray R) : List (ℕ × ℕ) → Except PyErr (Option (ℕ × ℕ))
  | [] => .ok none
  | (i, j) :: l =>
    match a.transpose (padAxes a.ndim i j) with
    | .error e => .error e
    | .ok b =>
      match isDiagonal b with
      | .error e => .error e
      | .ok true => .ok (some (i, j))
      | .ok false => firstDiagonal a l

/-- tensor.py:133-134: `stack` of the diagonal; `stack([])` is a `ValueError`. -/
def stackDiagonal (a : NDArray R) : Except PyErr (NDArray R) :=
  match a.shape with
  | 0 :: _ => .error .valueError
  | n :: _ :: rest => .ok ⟨n :: rest, fun k => let idx := unravel (n :: rest) k; a.get (idx.getD 0 0 :: idx)⟩
  | _ => .error .indexError

/-- tensor.py:66-142 `decompose_hyper_inds`, `H` is `_hyper_inds`. `none`: bound on recursion exceeded. -/
def decomposeTensor : ℕ → NDArray R → List ι → List (ι × Finset ι) →
    Option (Except PyErr ((NDArray R × List ι) × List (ι × Finset ι)))
  | 0, _, _, _ => none
  | fuel + 1, a, inds, H =>
    if a.ndim ≠ inds.length then some (.error .valueError)                              -- 101-102
    else if ¬ inds.Nodup then some (.error .valueError)                                 -- 103-104
    else
      match firstDiagonal a (axisPairs a.ndim) with
      | .error e => some (.error e)
      | .ok none => some (.ok ((a, inds), H))                                           -- 121-122
      | .ok (some (i, j)) =>
        match (padAxes a.ndim i j).mapM (fun p => inds[p]?), a.transpose (padAxes a.ndim i j) with
        | some (x :: y :: rest), .ok b =>
          let H' := dpop (dset H y ((dget H x).getD ∅ ∪ (dget H y).getD ∅ ∪ {x})) x      -- 129-132
          match stackDiagonal b with
          | .error e => some (.error e)
          | .ok c =>
            if c.shape.prod ≠ 0 ∧ ∀ k < c.shape.prod, c.data k = c.data 0 then          -- 137-139
              some (.ok ((⟨[], fun _ => c.data 0⟩, []), H'))
            else decomposeTensor fuel c (y :: rest) H'                                  -- 142
        | _, .error e => some (.error e)
        | _, _ => some (.error .indexError)

/-- `sorted(s)` for a set of natural numbers. -/
def sortedNats (s : Finset ℕ) : List ℕ := (List.range (s.sup id + 1)).filter (· ∈ s)

/-- tn.py:826-843: merging the colours of the indices of each group. In the code a missing colour is `None`; every index has a colour. -/
def colourLoop : List (ι × Finset ι) → List (ι × ℕ) → List (ℕ × List ι) → Except PyErr (List (ι × ℕ) × List (ℕ × List ι))
  | [], col, cls => .ok (col, cls)
  | (x, xs) :: rest, col, cls =>
    if xs = ∅ then colourLoop rest col cls                                              -- 831
    else
      let g := insert x xs
      if ∃ y ∈ g, dget col y = none then .error .typeError
      else
        let cs := sortedNats (g.image fun y => (dget col y).getD 0)                      -- 836
        match cs, cs.mapM (dget cls) with
        | c :: _, some ls =>
          let l := (ls.foldl (fun (s : OFS ι) t => s.union t) (OFS.make [])).iter
          let cls := dset (cs.foldl dpop cls) c l                                       -- 839
          colourLoop rest (dupdate col (l.map fun y => (y, c))) cls                     -- 842
        | _, _ => .error .keyError

/-- tn.py:780-856 `decompose_hyper_inds`; `fuel` bounds the recursion for each tensor. In the code an index without entry in the map becomes
`None`; there is none. -/
def decomposeNetwork (fuel : ℕ) (arrays : List (NDArray R)) (tsInds : List (List ι)) :
    Option (Except PyErr (List (NDArray R) × List (List ι) × List (ι × ι))) :=
  match (arrays.zip tsInds).mapM fun t => decomposeTensor fuel t.1 t.2 [] with
  | none => none
  | some rs =>
    match rs.mapM id with
    | .error e => some (.error e)
    | .ok rs =>
      let all := (OFS.make tsInds.flatten).iter                                         -- 801
      let col := dupdate [] (all.zip (List.range all.length))                           -- 824
      let cls := dupdate [] ((List.range all.length).zip (all.map fun x => [x]))        -- 825-827
      match colourLoop (rs.flatMap fun r => r.2) col cls with
      | .error e => some (.error e)
      | .ok (_, cls) =>
        let hmap := dupdate [] (cls.flatMap fun e => e.2.flatMap fun x => (e.2.head?.map fun r => (x, r)).toList)   -- 845-849
        match rs.mapM fun r => r.1.2.mapM (dget hmap) with
        | none => some (.error .keyError)
        | some new => some (.ok (rs.map fun r => r.1.1, new, hmap))

end TNCO
