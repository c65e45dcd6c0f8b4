import Verif.Model.MergeSplit
import Verif.Model.Contract

/-!
# Paths as Python takes them: any integers, steps of any length

`tnco/ctree.py` 110-117, `tnco/utils/tn.py` 345-375, 410-494 and 970-1018. `list.pop(i)` and `l[i]` count
from the end if `i` is negative. The rest of the four functions is that of `Model/PathBuild`,
`Model/MergeSplit` and `Model/Contract`. A step is a list of integers; unpacking a step that does not
have two entries raises `ValueError`.
-/

namespace TNCO

/-- The place that the Python index `i` means in a list of length `k`; `none` is `IndexError`. -/
def pyPlace (k : ℕ) (i : ℤ) : Option ℕ :=
  if 0 ≤ i then (if i.toNat < k then some i.toNat else none)
  else if (-i).toNat ≤ k then some (k - (-i).toNat)
  else none

/-- `l.pop(i)`: the entry and what is left; `none` is `IndexError`. -/
def pyPop {α : Type} (l : List α) (i : ℤ) : Option (α × List α) :=
  match pyPlace l.length i with
  | none => none
  | some j =>
    match l[j]? with
    | none => none
    | some a => some (a, l.eraseIdx j)

/-- `l[i]`; `none` is `IndexError`. -/
def pyAt {α : Type} (l : List α) (i : ℤ) : Option α := (pyPlace l.length i).bind fun j => l[j]?

/-- ctree.py:113-115, tn.py:354-356: `x, y = sorted(step); py = pos.pop(y); px = pos.pop(x)`. Returns
`px`, `py` and what is left of the list. -/
def popStep {α : Type} (pos : List α) (step : List ℤ) : Except PyErr (α × α × List α) :=
  match step with
  | [a, b] =>
    match pyPop pos (max a b) with
    | none => .error .indexError
    | some (py, rest) =>
      match pyPop rest (min a b) with
      | none => .error .indexError
      | some (px, rest') => .ok (px, py, rest')
  | _ => .error .valueError

/-- ctree.py:110-117: the loop over the path. -/
def contractionLoopZ (n : ℕ) : ℕ → List ℕ → List (List ℤ) → Except PyErr (List (ℕ × ℕ × ℕ))
  | _, _, [] => .ok []
  | i, pos, s :: path =>
    match popStep pos s with
    | .error e => .error e
    | .ok (px, py, rest) =>
      match contractionLoopZ n (i + 1) (rest ++ [i + n]) path with
      | .error e => .error e
      | .ok c => .ok ((px, py, i + n) :: c)

section
variable {ι : Type} [DecidableEq ι]

/-- ctree.py:67-251, the branch that builds the tree from a path. -/
def PyTree.ofPathZ (enum : Finset ι → List ι) (path : List (List ℤ)) (tsInds : List (List ι)) (dims : PyDims ι)
    (output : Option (List ι)) (check : Bool) : Except PyErr (PyTree ι) :=
  match path with
  | [] => match output with
    | some _ => .error .valueError
    | none => .error .typeError
  | _ :: _ =>
    match contractionLoopZ tsInds.length 0 (List.range tsInds.length) path with
    | .error e => .error e
    | .ok c => PyTree.ofTriples enum c tsInds dims output check

/-- tn.py:971-976: `x == y` after unpacking. -/
def sameEntries : List ℤ → Bool
  | [a, b] => a == b
  | _ => false

/-- tn.py:970-1018: the loop with arrays. -/
def contractLoopZ {R : Type} [CommSemiring R] (enum : Finset ι → List ι) (out : Finset ι) :
    (ι → ℤ) → List (NDArray R × List ι) → List (List ℤ) → Except PyErr (List (NDArray R × List ι))
  | _, ts, [] => .ok ts
  | hc, ts, s :: path =>
    if sameEntries s then .error .valueError                                           -- 975-976
    else match popStep ts s with
      | .error e => .error e
      | .ok ((ax, xs), (ay, ys), rest) =>
        if !countsOk hc xs ys then .error .assertionError
        else
          match tensordot ax xs ay ys (enum (keptInds hc out xs ys)) with
          | .error e => .error e
          | .ok z => contractLoopZ enum out (lowerCount hc xs ys) (rest ++ [z]) path

/-- tn.py:859-1025 `contract` with `arrays`. -/
def contractZ {R : Type} [CommSemiring R] (enum : Finset ι → List ι) (path : List (List ℤ)) (tsInds : List (List ι))
    (output : Option (List ι)) (arrays : List (NDArray R)) (dims : Option (PyDims ι)) :
    Except PyErr (List (List ι) × Finset ι × List (NDArray R)) :=
  match checkDims tsInds (some arrays) dims with
  | .error e => .error e
  | .ok _ =>
    match contractOutput tsInds.flatten output with
    | .error e => .error e
    | .ok out =>
      match contractLoopZ enum out (hyperCount tsInds.flatten) (arrays.zip tsInds) path with
      | .error e => .error e
      | .ok ts => .ok (ts.map Prod.snd, out ∩ (ts.map Prod.snd).flatten.toFinset, ts.map Prod.fst)

end

/-- tn.py:345-368: the loop over the `i`-th path. -/
def mergeLoopZ (i : ℕ) : List Lbl → List Lbl → List (List ℤ) → Except PyErr (List Lbl × List (ℕ × ℕ))
  | _, mpos, [] => .ok (mpos, [])
  | pos, mpos, s :: path =>
    match popStep pos s with
    | .error e => .error e
    | .ok (px, py, rest) =>
      if px ∈ mpos ∧ py ∈ mpos then
        match mergeLoopZ i (rest ++ [.made i rest.length])
            ((mpos.eraseIdx (max (mpos.idxOf px) (mpos.idxOf py))).eraseIdx (min (mpos.idxOf px) (mpos.idxOf py)) ++
              [.made i rest.length]) path with
        | .error e => .error e
        | .ok (m, p) => .ok (m, (min (mpos.idxOf px) (mpos.idxOf py), max (mpos.idxOf px) (mpos.idxOf py)) :: p)
      else .error .valueError

/-- tn.py:342-368: the loop over the paths, from the `i`-th on. -/
def mergeAllZ (n : ℕ) : ℕ → List Lbl → List (List (List ℤ)) → Except PyErr (List Lbl × List (ℕ × ℕ))
  | _, mpos, [] => .ok (mpos, [])
  | i, mpos, path :: paths =>
    match mergeLoopZ i ((List.range n).map .tensor) mpos path with
    | .error e => .error e
    | .ok (m, p) =>
      match mergeAllZ n (i + 1) m paths with
      | .error e => .error e
      | .ok (m', q) => .ok (m', p ++ q)

/-- tn.py:309-375 `merge_contraction_paths`; `paths` is a list. -/
def mergePathsZ (n : ℕ) (paths : List (List (List ℤ))) (autocomplete : Bool) : Except PyErr (List (ℕ × ℕ)) :=
  match mergeAllZ n 0 ((List.range n).map .tensor) paths with
  | .error e => .error e
  | .ok (m, p) => .ok (if autocomplete then p ++ List.replicate (m.length - 1) (0, 1) else p)

/-- tn.py:419-442: the first loop; `m` is `n_intermediate_tensors`. -/
def colorLoopZ : ℕ → Colors → List (List ℤ) → Except PyErr Colors
  | _, s, [] => .ok s
  | m, s, st :: path =>
    match popStep s.tensors st with
    | .error e => .error e
    | .ok (px, py, rest) =>
      match s.tensor2color py, s.tensor2color px with
      | some cy, some cx =>
        match dictPop s.color2tensors cx with
        | none => .error .keyError
        | some (sx, d1) =>
          match dictPop d1 cy with
          | none => .error .keyError
          | some (sy, d2) =>
            colorLoopZ (m + 1) ⟨rest ++ [m + 1],
              fun t => if t ∈ sx ∪ sy ∪ {m + 1} then some (min cx cy) else s.tensor2color t,
              dictSet d2 (min cx cy) (sx ∪ sy ∪ {m + 1})⟩ path
      | _, _ => .error .keyError

/-- tn.py:466: `t_x, t_y = tensors[x], tensors[y]`, read before anything is popped. -/
def readStep {α : Type} (tensors : List α) : List ℤ → Except PyErr (α × α)
  | [a, b] =>
    match pyAt tensors (min a b), pyAt tensors (max a b) with
    | some tx, some ty => .ok (tx, ty)
    | _, _ => .error .indexError
  | _ => .error .valueError

/-- tn.py:454-485: the second loop; `m` is `n_intermediate_tensors`, `lists` is `cc_tensors`. -/
def splitLoopZ (cc : List (Finset ℕ)) : ℕ → List ℕ → List (List ℕ) → List (List (ℕ × ℕ)) → List (List ℤ) →
    Except PyErr (List (List (ℕ × ℕ)))
  | _, _, _, paths, [] => .ok paths
  | m, tensors, lists, paths, s :: path =>
    match readStep tensors s with
    | .error e => .error e
    | .ok (tx, ty) =>
      match cc.findIdx? (tx ∈ ·) with
      | none => .error .valueError
      | some k =>
        if ¬ ty ∈ cc.getD k ∅ then .error .assertionError
        else
          match popStep tensors s with
          | .error e => .error e
          | .ok (_, _, rest) =>
            if ¬ (tx ∈ lists.getD k [] ∧ ty ∈ lists.getD k []) then .error .valueError
            else
              match pyPop (lists.getD k []) (max ((lists.getD k []).idxOf tx) ((lists.getD k []).idxOf ty) : ℕ) with
              | none => .error .indexError
              | some (_, l') =>
                match pyPop l' (min ((lists.getD k []).idxOf tx) ((lists.getD k []).idxOf ty) : ℕ) with
                | none => .error .indexError
                | some (_, l'') =>
                  splitLoopZ cc (m + 1) (rest ++ [m + 1]) (lists.set k (l'' ++ [m + 1]))
                    (paths.set k (paths.getD k [] ++
                      [(min ((lists.getD k []).idxOf tx) ((lists.getD k []).idxOf ty),
                        max ((lists.getD k []).idxOf tx) ((lists.getD k []).idxOf ty))])) path

/-- tn.py:378-494 `split_contraction_path` with `return_connected_components=True`. -/
def splitPathZ (n : ℕ) (path : List (List ℤ)) (normalize : Bool) :
    Except PyErr (List (List (ℕ × ℕ)) × List (Finset ℕ)) :=
  match colorLoopZ n (initColors n) path with
  | .error e => .error e
  | .ok s =>
    match splitLoopZ (s.color2tensors.map Prod.snd) n (List.range n)
        (if normalize then (s.color2tensors.map Prod.snd).map sortSet
          else (s.color2tensors.map Prod.snd).map fun _ => List.range n)
        ((s.color2tensors.map Prod.snd).map fun _ => []) path with
    | .error e => .error e
    | .ok paths => .ok (paths, (s.color2tensors.map Prod.snd).map fun s => s.filter (· < n))

end TNCO
