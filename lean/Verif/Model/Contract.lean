import Verif.Model.NDArray

/-!
# Contracting arrays: `tnco/utils/tensor.py` 175-256, `tnco/utils/tn.py` 859-1025

Simplifications: the backend is NumPy; a path is a list of pairs of natural numbers (integers: `Model/PathInts`); `asarray`
does nothing; entries are exact.
-/

namespace TNCO
variable {ι R : Type} [DecidableEq ι] [CommSemiring R]

/-- The local variables of `tensordot` that only depend on the indices. -/
structure DotPlan (ι : Type) where
  hyper : List ι
  xsOnly : List ι
  ysOnly : List ι
  shared : List ι
  newXs : List ι
  newYs : List ι
  zs : List ι

/-- tensor.py:214-238 -/
def dotPlan (xs ys hyper : List ι) : Except PyErr (DotPlan ι) :=
  let X := OFS.make xs
  let Y := OFS.make ys
  let H := OFS.make hyper
  if !(X.intersection Y.iter).issuperset H.iter then .error .valueError               -- 224-225
  else
    let sh := X.intersection Y.iter
    let snh := sh.difference H.iter
    let xn := X.difference sh.iter
    let yn := Y.difference sh.iter
    .ok { hyper := H.iter, xsOnly := xn.iter, ysOnly := yn.iter, shared := snh.iter,
          newXs := ((H.union xn.iter).union snh.iter).iter,
          newYs := ((H.union snh.iter).union yn.iter).iter,
          zs := ((H.union xn.iter).union yn.iter).iter }

/-- A lookup in `dict(pairs)`: the last entry counts. -/
def dictLast (l : List (ι × ℕ)) (x : ι) : Option ℕ := (l.reverse.find? (·.1 == x)).map Prod.snd

/-- `tuple(map(dims.get, xs))` used as numbers; a missing entry is `None`, a `TypeError`. -/
def dimList (dims : ι → Option ℕ) (xs : List ι) : Except PyErr (List ℕ) :=
  match xs.mapM dims with
  | none => .error .typeError
  | some l => .ok l

/-- tensor.py:246-253: `a.transpose(...).reshape(...)` into three axes. -/
def toMatrix (a : NDArray R) (xs newXs : List ι) (dims : ι → Option ℕ) (g1 g2 g3 : List ι) :
    Except PyErr (NDArray R) :=
  match a.transpose (newXs.map fun x => xs.idxOf x) with
  | .error e => .error e
  | .ok a' =>
    match dimList dims g1, dimList dims g2, dimList dims g3 with
    | .ok d1, .ok d2, .ok d3 => a'.reshape [d1.prod, d2.prod, d3.prod]
    | _, _, _ => .error .typeError

/-- tensor.py:175-256 `tensordot`. -/
def tensordot (ax : NDArray R) (xs : List ι) (ay : NDArray R) (ys : List ι) (hyper : List ι) :
    Except PyErr (NDArray R × List ι) :=
  let X := (OFS.make xs).iter
  let Y := (OFS.make ys).iter
  let dims := dictLast (X.zip ax.shape ++ Y.zip ay.shape)                              -- 218
  match dotPlan xs ys hyper with
  | .error e => .error e
  | .ok p =>
    match toMatrix ax X p.newXs dims p.hyper p.xsOnly p.shared with
    | .error e => .error e
    | .ok mx =>
      match toMatrix ay Y p.newYs dims p.hyper p.shared p.ysOnly with
      | .error e => .error e
      | .ok my =>
        match mx.matmul my with
        | .error e => .error e
        | .ok mz =>
          match dimList dims p.zs with
          | .error e => .error e
          | .ok dz =>
            match mz.reshape dz with
            | .error e => .error e
            | .ok az => .ok (az, p.zs)

/-- tensor.py:240-242: `return_inds_only=True`. -/
def tensordotInds (xs ys hyper : List ι) : Except PyErr (List ι) :=
  match dotPlan xs ys hyper with
  | .error e => .error e
  | .ok p => .ok p.zs

/-- tn.py:925-943: consistency of `dims`, `arrays` and `ts_inds`. -/
def checkDims (tsInds : List (List ι)) (arrays : Option (List (NDArray R))) (dims : Option (PyDims ι)) :
    Except PyErr Unit :=
  match arrays, dims with
  | none, none => .error .valueError                                                  -- 909-910
  | none, some d =>
    match d with
    | .int _ => .ok ()
    | .dict f => if tsInds.flatten.all fun x => (f x).isSome then .ok () else .error .valueError
  | some as, dims =>
    let pairs := (as.zip tsInds).flatMap fun p => p.2.zip p.1.shape
    let dims_ := dictLast pairs
    if as.length ≠ tsInds.length ∨ (as.zip tsInds).any fun p => decide (p.1.shape.map some ≠ p.2.map dims_) then
      .error .valueError
    else match dims with
      | none => .ok ()
      | some d =>
        -- 942: `dims[x] == d` for the items of `dims_`, in order
        let rec go : List ι → Except PyErr Unit
          | [] => .ok ()
          | x :: r =>
            match (if x ∈ tsInds.flatten then d.get? x else none) with
            | none => .error .keyError
            | some n => if some n = dims_ x then go r else .error .valueError
        go (uniqueEverseen (pairs.map Prod.fst))

/-- tn.py:945-967: the output indices. -/
def contractOutput (all : List ι) (output : Option (List ι)) : Except PyErr (Finset ι) :=
  match output with
  | none =>
    if (uniqueEverseen all).any fun x => decide (hyperCount all x > 1) then .error .valueError
    else .ok ((uniqueEverseen all).filter fun x => decide (hyperCount all x = 0)).toFinset
  | some l => if l.toFinset ⊆ all.toFinset then .ok l.toFinset else .error .valueError

/-- tn.py:987-1000: indices to keep, as a Python set. -/
def keptInds (hc : ι → ℤ) (out : Finset ι) (xs ys : List ι) : Finset ι :=
  (xs.toFinset ∩ ys.toFinset).filter (fun x => 1 < hc x) ∪ (out ∩ (xs.toFinset ∩ ys.toFinset))

/-- tn.py:1002-1004 -/
def lowerCount (hc : ι → ℤ) (xs ys : List ι) (x : ι) : ℤ :=
  if x ∈ xs.toFinset ∩ ys.toFinset then hc x - 1 else hc x

/-- tn.py:989-993 -/
def countsOk (hc : ι → ℤ) (xs ys : List ι) : Bool :=
  decide (∀ x ∈ xs.toFinset ∩ ys.toFinset, 0 < hc x)

/-- tn.py:970-1018: the loop with arrays. `enum` is the iteration order of sets. -/
def contractLoop (enum : Finset ι → List ι) (out : Finset ι) :
    (ι → ℤ) → List (NDArray R × List ι) → List (ℕ × ℕ) → Except PyErr (List (NDArray R × List ι))
  | _, ts, [] => .ok ts
  | hc, ts, (x, y) :: path =>
    if x = y then .error .valueError                                                 -- 975-976
    else match popPair ts x y with
      | none => .error .indexError
      | some ((ax, xs), (ay, ys), rest) =>
        if !countsOk hc xs ys then .error .assertionError
        else
          match tensordot ax xs ay ys (enum (keptInds hc out xs ys)) with
          | .error e => .error e
          | .ok z => contractLoop enum out (lowerCount hc xs ys) (rest ++ [z]) path

/-- tn.py:970-1018: the loop without arrays. -/
def contractIndsLoop (enum : Finset ι → List ι) (out : Finset ι) :
    (ι → ℤ) → List (List ι) → List (ℕ × ℕ) → Except PyErr (List (List ι))
  | _, ts, [] => .ok ts
  | hc, ts, (x, y) :: path =>
    if x = y then .error .valueError
    else match popPair ts x y with
      | none => .error .indexError
      | some (xs, ys, rest) =>
        if !countsOk hc xs ys then .error .assertionError
        else
          match tensordotInds xs ys (enum (keptInds hc out xs ys)) with
          | .error e => .error e
          | .ok zs => contractIndsLoop enum out (lowerCount hc xs ys) (rest ++ [zs]) path

/-- tn.py:859-1025 `contract` with `arrays`. -/
def contract (enum : Finset ι → List ι) (path : List (ℕ × ℕ)) (tsInds : List (List ι)) (output : Option (List ι))
    (arrays : List (NDArray R)) (dims : Option (PyDims ι)) :
    Except PyErr (List (List ι) × Finset ι × List (NDArray R)) :=
  match checkDims tsInds (some arrays) dims with
  | .error e => .error e
  | .ok _ =>
    match contractOutput tsInds.flatten output with
    | .error e => .error e
    | .ok out =>
      match contractLoop enum out (hyperCount tsInds.flatten) (arrays.zip tsInds) path with
      | .error e => .error e
      | .ok ts => .ok (ts.map Prod.snd, out ∩ (ts.map Prod.snd).flatten.toFinset, ts.map Prod.fst)

/-- tn.py:859-1025 `contract` without `arrays`. -/
def contractInds (enum : Finset ι → List ι) (path : List (ℕ × ℕ)) (tsInds : List (List ι)) (output : Option (List ι))
    (dims : Option (PyDims ι)) : Except PyErr (List (List ι) × Finset ι) :=
  match checkDims (R := ℕ) tsInds none dims with
  | .error e => .error e
  | .ok _ =>
    match contractOutput tsInds.flatten output with
    | .error e => .error e
    | .ok out =>
      match contractIndsLoop enum out (hyperCount tsInds.flatten) tsInds path with
      | .error e => .error e
      | .ok ts => .ok (ts, out ∩ ts.flatten.toFinset)

end TNCO
