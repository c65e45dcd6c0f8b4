import Verif.Model.Decompose
import Verif.Model.Fuse
import Verif.Model.Contract
import Verif.Model.TensorNetwork

/-!
# `load_tn` of a `TensorNetwork` (`tnco/app/app.py:308-416`)

Entries of arrays are exact; conversions to another type and the number of threads are left out. The tags of the network are reduced to the
two that `load_tn` adds.
-/

namespace TNCO

/-- The tags of a tensor: given by the user, or `dict(x=..., y=...)` of two tags (app.py:400). -/
inductive TagTree (T : Type) where
  | leaf (t : T)
  | pair (x y : TagTree T)
deriving DecidableEq

/-- A tensor network with arrays (`tnco/app/tn.py:72-268`): for each tensor the indices, the array, if any, and the tags; the dimension of each index;
the output and sparse indices; the tags `hyper_inds_map` and `fuse_path`. -/
structure ArrNet (ι K T : Type) [DecidableEq ι] where
  tsInds : List (List ι)
  arrays : List (Option (NDArray K))
  tsTags : List (Option (TagTree T))
  dims : ι → Option ℕ
  output : Finset ι
  sparse : Finset ι
  hyperMap : Option (List (ι × ι))
  fusePath : Option (List (ℕ × ℕ))

/-- The options of `load_tn` that matter here, and what it uses of its environment. -/
structure LoadNetArgs (ι σ W : Type) where
  decompose : Bool
  fuse : Option W
  start : σ
  g : PyRng σ
  enumN : Finset ℕ → List ℕ
  enum : Finset ι → List ι
  log2 : ℕ → W
  fuel : ℕ

variable {ι K T σ W : Type} [DecidableEq ι]

/-- app.py:321 `n_provided_arrays` -/
def ArrNet.provided (N : ArrNet ι K T) : ℕ := N.arrays.countP fun a => a.isSome

/-- app.py:321-337: whether hyper-indices are decomposed. -/
def wantDecompose (decompose : Bool) (N : ArrNet ι K T) : Bool :=
  if N.sparse ≠ ∅ then false else if N.provided < N.arrays.length then false else decompose

/-- app.py:321-326, 339-342: the width for fusing; `None` and `False` are not told apart (367). -/
def wantFuse (fuse : Option W) (N : ArrNet ι K T) : Option W :=
  if N.sparse ≠ ∅ then none else if N.provided ∉ [0, N.arrays.length] then none else fuse

/-- app.py:344-364: the decomposition. A missing entry of the map would be `None`, which is rejected as output index; there is none. -/
def decomposeStep [CommRing K] [DecidableEq K] (fuel : ℕ) (N : ArrNet ι K T) : Option (Except PyErr (ArrNet ι K T)) :=
  if N.sparse ≠ ∅ then some (.error .valueError)
  else
    match decomposeNetwork fuel (N.arrays.filterMap id) N.tsInds with
    | none => none
    | some (.error e) => some (.error e)
    | some (.ok (arrs, new, hmap)) =>
      if ∃ x ∈ N.output, dget hmap x = none then some (.error .valueError)
      else if N.hyperMap.isSome then some (.error .valueError)                                  -- 361-363
      else some (.ok { N with
        tsInds := new
        arrays := arrs.map some
        tsTags := arrs.map fun _ => none                                                         -- 358
        output := N.output.image fun x => (dget hmap x).getD x
        hyperMap := some hmap })

/-- app.py:395-403: the tags of the contraction of two tensors. -/
def joinTags : Option (TagTree T) → Option (TagTree T) → Option (TagTree T)
  | none, none => none
  | none, some y => some y
  | some x, none => some x
  | some x, some y => some (.pair x y)

/-- app.py:389-403: the tags after the contractions. -/
def tagLoop : List (ℕ × ℕ) → List (Option (TagTree T)) → Except PyErr (List (Option (TagTree T)))
  | [], l => .ok l
  | (x, y) :: path, l =>
    match popPair l x y with
    | none => .error .indexError
    | some (tx, ty, rest) => tagLoop path (rest ++ [joinTags tx ty])

/-- app.py:378-387: the contractions, with arrays if there are any in the given network. -/
def contractStep [CommRing K] (enum : Finset ι → List ι) (provided : ℕ) (path : List (ℕ × ℕ)) (N : ArrNet ι K T) :
    Except PyErr (List (List ι) × Finset ι × List (Option (NDArray K))) :=
  if provided ≠ 0 then
    match contract enum path N.tsInds (some (enum N.output)) (N.arrays.filterMap id) (some (.dict N.dims)) with
    | .error e => .error e
    | .ok (inds, out, arrs) => .ok (inds, out, arrs.map some)
  else
    match contractInds enum path N.tsInds (some (enum N.output)) (some (.dict N.dims)) with
    | .error e => .error e
    | .ok (inds, out) => .ok (inds, out, N.arrays)

/-- app.py:367-409: fusing tensors; `provided` is the number of arrays of the given network. -/
def fuseStep [Zero W] [Add W] [LT W] [DecidableLT W] [CommRing K] (A : LoadNetArgs ι σ W) (provided : ℕ) (w : W) (N : ArrNet ι K T) :
    Option (Except PyErr (ArrNet ι K T)) :=
  match fuse A.g A.enumN A.fuel A.start A.log2 N.tsInds (.dict N.dims) w (some (A.enum N.output)) [] with
  | none => none
  | some (.error e) => some (.error e)
  | some (.ok (path, _)) =>
    match contractStep A.enum provided path N with
    | .error e => some (.error e)
    | .ok (inds, out, arrs) =>
      match tagLoop path N.tsTags with
      | .error e => some (.error e)
      | .ok tags =>
        if N.fusePath.isSome then some (.error .valueError)                                      -- 406-408
        else some (.ok { N with tsInds := inds, output := out, arrays := arrs, tsTags := tags, fusePath := some path })

/-- `dims.get(x)`, as an argument of `Tensor`. -/
def netDimVal (dims : ι → Option ℕ) (x : ι) : DimVal :=
  match dims x with
  | some d => .num (d : ℚ)
  | none => .other

/-- `Tensor(xs, dims=map(dims.get, xs), array=a)` for each tensor; `map` ends with the shortest list (app.py:412-414). -/
def tensorRecs (dims : ι → Option ℕ) : List (List ι) → List (Option (NDArray K)) → List (Option (TagTree T)) → Except PyErr (List (TensorRec ι))
  | xs :: tsInds, a :: arrays, _ :: tags =>
    match mkTensor xs (.list (xs.map (netDimVal dims))) (a.map NDArray.shape) with
    | .error e => .error e
    | .ok t =>
      match tensorRecs dims tsInds arrays tags with
      | .error e => .error e
      | .ok ts => .ok (t :: ts)
  | _, _, _ => .ok []

/-- app.py:411-416: the network that is returned. Tags that are `None` become `{}`, which is not told apart. -/
def returnStep (A : LoadNetArgs ι σ W) (N : ArrNet ι K T) : Except PyErr (ArrNet ι K T) :=
  match tensorRecs N.dims N.tsInds N.arrays N.tsTags with
  | .error e => .error e
  | .ok ts =>
    match mkNetwork (ts.map some) (some (A.enum N.output)) (some (A.enum N.sparse)) with
    | .error e => .error e
    | .ok R => .ok { N with
        tsInds := ts.map TensorRec.inds
        arrays := N.arrays.take ts.length
        tsTags := N.tsTags.take ts.length
        dims := dget R.dims
        output := R.output
        sparse := R.sparse }

/-- app.py:344-364, 367-409: both steps. -/
def prepareNet [Zero W] [Add W] [LT W] [DecidableLT W] [CommRing K] [DecidableEq K] (A : LoadNetArgs ι σ W) (N : ArrNet ι K T) :
    Option (Except PyErr (ArrNet ι K T)) :=
  match if wantDecompose A.decompose N then decomposeStep A.fuel N else some (.ok N) with
  | none => none
  | some (.error e) => some (.error e)
  | some (.ok N1) =>
    match wantFuse A.fuse N with
    | none => some (.ok N1)
    | some w => if 0 < w then fuseStep A N.provided w N1 else some (.ok N1)

/-- app.py:308-416: `load_tn` of a `TensorNetwork`. -/
def loadNet [Zero W] [Add W] [LT W] [DecidableLT W] [CommRing K] [DecidableEq K] (A : LoadNetArgs ι σ W) (N : ArrNet ι K T) :
    Option (Except PyErr (ArrNet ι K T)) :=
  match prepareNet A N with
  | none => none
  | some (.error e) => some (.error e)
  | some (.ok N2) => some (returnStep A N2)

end TNCO
