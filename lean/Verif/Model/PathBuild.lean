import Verif.Model.CTree
import Verif.Model.OrderedFrozenSet
import Mathlib.Data.Int.Notation
import Mathlib.Algebra.Order.Ring.Int
import Mathlib.Data.List.Sort

/-!
# Building a contraction tree from a path: `tnco/ctree.py` 68-251, `include/tnco/ctree.hpp` 59-94

Index names: a type `ι` with decidable equality. Simplifications: positions in a path are
natural numbers and each step is a pair (`Model/PathInts` has the general case: negative
positions and steps of any length); dimensions are natural numbers; progress bars are not modelled.
-/

namespace TNCO

/-- The exceptions that the constructor can raise. -/
inductive PyErr where
  | typeError | valueError | indexError | keyError | assertionError | invalidArgument | notImplemented | zeroDivision | structError
  | attributeError
deriving DecidableEq, Repr

/-- ctree.py:113-115: `x_, y_ = sorted(xs_); py_ = pos_.pop(y_); px_ = pos_.pop(x_)`;
`none` is the `IndexError` of `pop`. Returns `px_`, `py_` and what is left of the list. -/
def popPair {α : Type} (pos : List α) (x y : ℕ) : Option (α × α × List α) :=
  match pos[max x y]? with
  | none => none
  | some py =>
    match (pos.eraseIdx (max x y))[min x y]? with
    | none => none
    | some px => some (px, py, (pos.eraseIdx (max x y)).eraseIdx (min x y))

/-- ctree.py:110-117: the loop over the path. `n = len(ts_inds)`, `i` is the running index
`i_`; returns the list `contraction`. -/
def contractionLoop (n : ℕ) : ℕ → List ℕ → List (ℕ × ℕ) → Option (List (ℕ × ℕ × ℕ))
  | _, _, [] => some []
  | i, pos, (x, y) :: path =>
    match popPair pos x y with
    | none => none
    | some (px, py, rest) =>
      (contractionLoop n (i + 1) (rest ++ [i + n]) path).map fun c => (px, py, i + n) :: c

/-- `mit.flatten(contraction)` -/
def flattenTriples (c : List (ℕ × ℕ × ℕ)) : List ℕ := c.flatMap fun t => [t.1, t.2.1, t.2.2]

/-- Python's `sorted` on integers. -/
def sortNat (l : List ℕ) : List ℕ := l.insertionSort (· ≤ ·)

/-- ctree.py:119-124 -/
def tensorsPosOf (n : ℕ) (c : List (ℕ × ℕ × ℕ)) : List ℕ :=
  sortNat ((uniqueEverseen (flattenTriples c)).filter (· < n))

section
variable {ι : Type} [DecidableEq ι]

/-- ctree.py:126-137: all indices of the tensors that are contracted, with repetitions. -/
def usedInds (tsInds : List (List ι)) (tensorsPos : List ℕ) : List ι :=
  tensorsPos.flatMap fun x => tsInds.getD x []

/-- ctree.py:131-137 `hyper_count`; only meaningful for indices of the contracted tensors
(elsewhere it is negative, where Python raises `KeyError`; both end in an exception). -/
def hyperCount (used : List ι) (x : ι) : ℤ := (used.count x : ℤ) - 1

/-- ctree.py:139-152: the output indices. -/
def outputOf (used : List ι) (output : Option (List ι)) : Except PyErr (Finset ι) :=
  match output with
  | none =>
    if (uniqueEverseen used).any fun x => decide (hyperCount used x > 1) then
      .error .valueError                                                           -- 141-144
    else
      .ok ((uniqueEverseen used).filter fun x => decide (hyperCount used x = 0)).toFinset
  | some l => .ok (l.toFinset ∩ (uniqueEverseen used).toFinset)                    -- 149, 152

/-- ctree.py:154-156 -/
def addOutput (hc : ι → ℤ) (out : Finset ι) (x : ι) : ℤ := if x ∈ out then hc x + 1 else hc x

/-- ctree.py:180-185: the loop over the shared indices of one contraction. -/
def sharedLoop : List ι → (ι → ℤ) → Finset ι → Except PyErr ((ι → ℤ) × Finset ι)
  | [], hc, iz => .ok (hc, iz)
  | s :: r, hc, iz =>
    if 0 < hc s then
      let hc' := Function.update hc s (hc s - 1)
      sharedLoop r hc' (if 0 < hc' s then insert s iz else iz)
    else .error .assertionError

/-- `enum` lists the elements of a set, each once; nothing else is assumed about the order in
which Python iterates over a `frozenset`. -/
def EnumOk (enum : Finset ι → List ι) : Prop := ∀ s, (enum s).Nodup ∧ ∀ x, x ∈ enum s ↔ x ∈ s

/-- ctree.py:158-188: intermediate tensors. `enum` is the unspecified iteration order of a
Python set (used for the loop at 181 and for `tuple(iz_)`, 188). An entry `none` is Python's
`None` placeholder (159). -/
def indsLoop (enum : Finset ι → List ι) (check : Bool) :
    List (ℕ × ℕ × ℕ) → (ι → ℤ) → (ℕ → Option (List ι)) → Except PyErr (ℕ → Option (List ι))
  | [], _, I => .ok I
  | (tx, ty, tz) :: c, hc, I =>
    match I tx, I ty with
    | some lx, some ly =>
      let ix := lx.toFinset
      let iy := ly.toFinset
      let shared := ix ∩ iy                                                        -- 173
      if check && decide (shared = ∅) then .error .valueError                      -- 174
      else
        match sharedLoop (enum shared) hc ((ix \ iy) ∪ (iy \ ix)) with             -- 178-185
        | .error e => .error e
        | .ok (hc', iz) => indsLoop enum check c hc' (Function.update I tz (some (enum iz)))
    | _, _ => .error .typeError

/-- ctree.py:204-207: writing parents and children. -/
def writeNodes : List (ℕ × ℕ × ℕ) → (ℕ → Node) → (ℕ → Node)
  | [], N => N
  | (x, y, z) :: c, N =>
    let N1 := Function.update N x { N x with parent := some z }
    let N2 := Function.update N1 y { N1 y with parent := some z }
    let N3 := Function.update N2 z { N2 z with c0 := some x, c1 := some y }
    writeNodes c N3

/-- ctree.py:197-207. `pos` is the sorted list `pos_`, `tree_map_` is the rank in it. -/
def buildNodes (pos : List ℕ) (c : List (ℕ × ℕ × ℕ)) : List Node :=
  let tree := c.map fun t => (pos.idxOf t.1, pos.idxOf t.2.1, pos.idxOf t.2.2)
  let size := (flattenTriples tree).foldr max 0 + 1                                -- 203
  (List.range size).map (writeNodes tree fun _ => ⟨none, none, none⟩)

/-- The argument `dims`: one integer, or a dictionary. -/
inductive PyDims (ι : Type) where
  | int (d : ℕ)
  | dict (f : ι → Option ℕ)

/-- The dimension the argument gives to an index. -/
def PyDims.get? : PyDims ι → ι → Option ℕ
  | .int d, _ => some d
  | .dict f, x => f x

/-- ctree.py:212-222 and 242-245: the tuple of dimensions in the order of the indices. -/
def PyDims.toList (order : List ι) : PyDims ι → Except PyErr (List ℕ)
  | .int d => .ok (order.map fun _ => d)
  | .dict f => match order.mapM f with
    | none => .error .keyError
    | some l => .ok l

end

/-- ctree.hpp:64-72: number of bits of every bitset. -/
def maxInds (inds : List (List ℕ)) : ℕ :=
  (inds.map fun xs => xs.foldr (fun x m => max (x + 1) m) 0).foldr max 0

/-- ctree.hpp:59-94: the constructor that takes lists of positions. -/
def CTree.make (nodes : List Node) (inds : List (List ℕ)) (dims : List ℕ) (check : Bool) :
    Except PyErr CTree :=
  match Tree.make nodes with
  | none => .error .invalidArgument
  | some T =>
    if inds.length ≠ T.size then .error .invalidArgument                           -- 109
    else
      let c : CTree := ⟨T, maxInds inds, fun p => (inds.getD p []).toFinset, (Dims.vec dims).collapse⟩
      if c.isValid check then .ok c else .error .invalidArgument

/-- ctree.py: the core tree and the three private fields. -/
structure PyTree (ι : Type) where
  core : CTree
  nTensors : ℕ
  tensorsPos : List ℕ
  indsOrder : List ι

/-- ctree.py:119-251: the rest of the constructor, from the list `contraction` on. -/
def PyTree.ofTriples {ι : Type} [DecidableEq ι] (enum : Finset ι → List ι) (c : List (ℕ × ℕ × ℕ))
    (tsInds : List (List ι)) (dims : PyDims ι) (output : Option (List ι)) (check : Bool) :
    Except PyErr (PyTree ι) :=
  let n := tsInds.length
  let tensorsPos := tensorsPosOf n c
  let used := usedInds tsInds tensorsPos
  match outputOf used output with
  | .error e => .error e
  | .ok out =>
    match indsLoop enum check c (addOutput (hyperCount used) out) (fun p => tsInds[p]?) with
    | .error e => .error e
    | .ok I =>
      let pos := sortNat (uniqueEverseen (flattenTriples c))                       -- 191
      if ¬ (tensorsPos.length ≤ pos.length ∧ pos.take tensorsPos.length = tensorsPos) then
        .error .assertionError                                                     -- 194-195
      else
        match pos.mapM I with                                                      -- 210
        | none => .error .typeError
        | some ts =>
          let order := uniqueEverseen ts.flatten                                   -- 225
          match dims.toList order with
          | .error e => .error e
          | .ok ds =>
            let nodes := buildNodes pos c
            if ¬ nodes.all Node.isValid then .error .invalidArgument               -- 227-234
            else
              match CTree.make nodes (ts.map fun xs => xs.map fun x => order.idxOf x) ds check with
              | .error e => .error e
              | .ok core => .ok ⟨core, n, tensorsPos, order⟩

/-- ctree.py:67-251, the branch that builds the tree from a path. An empty path takes the
other branch (`all` of nothing is true, 85) and fails at 88-91 or at 94. -/
def PyTree.ofPath {ι : Type} [DecidableEq ι] (enum : Finset ι → List ι) (path : List (ℕ × ℕ))
    (tsInds : List (List ι)) (dims : PyDims ι) (output : Option (List ι)) (check : Bool) :
    Except PyErr (PyTree ι) :=
  match path with
  | [] => match output with
    | some _ => .error .valueError
    | none => .error .typeError
  | _ :: _ =>
    match contractionLoop tsInds.length 0 (List.range tsInds.length) path with
    | none => .error .indexError
    | some c => PyTree.ofTriples enum c tsInds dims output check

/-- ctree.py:85 and 111-117 for an argument that is a one-shot iterator: the `all` of line 85
stops at the first element that is not a node, and that element is gone when line 112 iterates.
When nothing is left `max` of line 160 fails. -/
def PyTree.ofIterator {ι : Type} [DecidableEq ι] (enum : Finset ι → List ι) (path : List (ℕ × ℕ))
    (tsInds : List (List ι)) (dims : PyDims ι) (output : Option (List ι)) (check : Bool) :
    Except PyErr (PyTree ι) :=
  match path with
  | [] => PyTree.ofPath enum [] tsInds dims output check
  | [_] => .error .valueError
  | _ :: s :: path => PyTree.ofPath enum (s :: path) tsInds dims output check

namespace PyTree
variable {ι : Type} [DecidableEq ι]

/-- ctree.py `inds` property: the index names of the tensor at a position. -/
def inds (t : PyTree ι) (p : ℕ) : Finset ι :=
  ((List.range t.core.nInds).filter (· ∈ t.core.inds p)).filterMap (fun i => t.indsOrder[i]?) |>.toFinset

/-- ctree.py `output_inds`: `self.inds[-1]`. -/
def outputInds (t : PyTree ι) : Finset ι := t.inds (t.core.tree.size - 1)

/-- ctree.py:364-369 `rescale` -/
def rescale (n nLeaves : ℕ) (tensorsPos : List ℕ) (pos : ℕ) : ℕ :=
  match tensorsPos[pos]? with
  | some q => q
  | none => pos + n - nLeaves

/-- ctree.py:371-385; `none` is the `ValueError` of `index`. -/
def pathLoop : List (ℕ × ℕ × ℕ) → List ℕ → Option (List (ℕ × ℕ))
  | [], _ => some []
  | (x, y, z) :: c, allPos =>
    if x ∈ allPos ∧ y ∈ allPos then
      let i := allPos.idxOf x
      let j := allPos.idxOf y
      (pathLoop c (((allPos.eraseIdx (max i j)).eraseIdx (min i j)) ++ [z])).map fun p => (i, j) :: p
    else none

/-- ctree.py:350-388 `path()`. -/
def path (t : PyTree ι) : Option (List (ℕ × ℕ)) :=
  match getContraction (2 * t.core.tree.size) t.core.tree with
  | none => none
  | some c =>
    let f := rescale t.nTensors t.core.tree.nLeaves t.tensorsPos
    pathLoop (c.map fun t => (f t.1, f t.2.1, f t.2.2)) (List.range t.nTensors)

end PyTree
end TNCO
