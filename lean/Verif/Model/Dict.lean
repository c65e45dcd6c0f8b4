import Mathlib.Data.List.Basic

/-!
# Python dictionaries

A dictionary is the list of its entries in order of insertion. Changing the value of a key keeps its place. (Documented behaviour of
`dict`, part of the trusted base.)
-/

namespace TNCO
variable {κ ν : Type} [DecidableEq κ]

/-- `D.get(k)` -/
def dget (D : List (κ × ν)) (k : κ) : Option ν := (D.find? fun e => e.1 = k).map Prod.snd

/-- `D[k] = v` -/
def dset (D : List (κ × ν)) (k : κ) (v : ν) : List (κ × ν) :=
  if k ∈ D.map Prod.fst then D.map fun e => if e.1 = k then (e.1, v) else e else D ++ [(k, v)]

/-- `D.pop(k, None)`, without the value. -/
def dpop (D : List (κ × ν)) (k : κ) : List (κ × ν) := D.filter fun e => e.1 ≠ k

/-- `D.update(dict(l))`, and `dict(l)` for `D = {}`. -/
def dupdate (D : List (κ × ν)) (l : List (κ × ν)) : List (κ × ν) := l.foldl (fun D e => dset D e.1 e.2) D

end TNCO
