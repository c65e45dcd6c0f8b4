import Verif.Model.PathBuild
import Mathlib.Order.Lattice.Nat
import Mathlib.Data.Finset.Lattice.Fold

/-!
# Merging and splitting contraction paths: `tnco/utils/tn.py` 309-494

Simplifications: positions in a path are natural numbers (integers: `Model/PathInts`); progress bars are not modelled, except
that the description of the bar calls `len(paths)`.
-/

namespace TNCO

/-- tn.py:338-358: an entry of `pos` and `merged_pos`, a number or a pair. -/
inductive Lbl where
  | tensor (k : ℕ)
  | made (i l : ℕ)
deriving DecidableEq, Repr

/-- tn.py:345-368: the loop over the `i`-th path; returns `merged_pos` and the steps added. -/
def mergeLoop (i : ℕ) : List Lbl → List Lbl → List (ℕ × ℕ) → Except PyErr (List Lbl × List (ℕ × ℕ))
  | _, mpos, [] => .ok (mpos, [])
  | pos, mpos, (x, y) :: path =>
    match popPair pos x y with
    | none => .error .indexError
    | some (px, py, rest) =>
      let z := Lbl.made i rest.length
      if px ∈ mpos ∧ py ∈ mpos then
        let mx := min (mpos.idxOf px) (mpos.idxOf py)
        let my := max (mpos.idxOf px) (mpos.idxOf py)
        match mergeLoop i (rest ++ [z]) ((mpos.eraseIdx my).eraseIdx mx ++ [z]) path with
        | .error e => .error e
        | .ok (m, p) => .ok (m, (mx, my) :: p)
      else .error .valueError

/-- tn.py:342-368: the loop over the paths, from the `i`-th on. -/
def mergeAll (n : ℕ) : ℕ → List Lbl → List (List (ℕ × ℕ)) → Except PyErr (List Lbl × List (ℕ × ℕ))
  | _, mpos, [] => .ok (mpos, [])
  | i, mpos, path :: paths =>
    match mergeLoop i ((List.range n).map .tensor) mpos path with
    | .error e => .error e
    | .ok (m, p) =>
      match mergeAll n (i + 1) m paths with
      | .error e => .error e
      | .ok (m', q) => .ok (m', p ++ q)

/-- tn.py:309-375 `merge_contraction_paths`. `sized` is `false` if `paths` is an iterator without
length: then `len(paths)` at line 349 raises `TypeError`. -/
def mergePaths (n : ℕ) (paths : List (List (ℕ × ℕ))) (autocomplete : Bool) (sized : Bool := true) :
    Except PyErr (List (ℕ × ℕ)) :=
  if !sized && !paths.isEmpty then .error .typeError
  else
    match mergeAll n 0 ((List.range n).map .tensor) paths with
    | .error e => .error e
    | .ok (m, p) =>
      .ok (if autocomplete then p ++ List.replicate (m.length - 1) (0, 1) else p)

/-- Python's `sorted` on a set of numbers. -/
def sortSet (s : Finset ℕ) : List ℕ := (List.range (s.sup id + 1)).filter (· ∈ s)

/-- tn.py:414-416: the loop variables `tensors`, `tensor2color` and `color2tensors` (in insertion
order). -/
structure Colors where
  tensors : List ℕ
  tensor2color : ℕ → Option ℕ
  color2tensors : List (ℕ × Finset ℕ)

/-- `dict.pop(key)`; `none` is `KeyError`. -/
def dictPop (d : List (ℕ × Finset ℕ)) (k : ℕ) : Option (Finset ℕ × List (ℕ × Finset ℕ)) :=
  match d.find? (·.1 == k) with
  | none => none
  | some e => some (e.2, d.filter (·.1 != k))

/-- `dict[key] = value` -/
def dictSet (d : List (ℕ × Finset ℕ)) (k : ℕ) (v : Finset ℕ) : List (ℕ × Finset ℕ) :=
  if d.any (·.1 == k) then d.map fun e => if e.1 == k then (k, v) else e else d ++ [(k, v)]

/-- tn.py:419-442: the first loop; `m` is `n_intermediate_tensors`. -/
def colorLoop : ℕ → Colors → List (ℕ × ℕ) → Except PyErr Colors
  | _, s, [] => .ok s
  | m, s, (x, y) :: path =>
    match popPair s.tensors x y with
    | none => .error .indexError
    | some (px, py, rest) =>
      match s.tensor2color py, s.tensor2color px with
      | some cy, some cx =>
        match dictPop s.color2tensors cx with
        | none => .error .keyError
        | some (sx, d1) =>
          match dictPop d1 cy with
          | none => .error .keyError
          | some (sy, d2) =>
            let cz := min cx cy
            let sz := sx ∪ sy ∪ {m + 1}
            colorLoop (m + 1) ⟨rest ++ [m + 1], fun t => if t ∈ sz then some cz else s.tensor2color t,
              dictSet d2 cz sz⟩ path
      | _, _ => .error .keyError

/-- tn.py:414-416: before the first loop. -/
def initColors (n : ℕ) : Colors :=
  ⟨List.range n, fun t => if t < n then some t else none, (List.range n).map fun i => (i, {i})⟩

/-- tn.py:454-485: the second loop; `m` is `n_intermediate_tensors`, `lists` is `cc_tensors`. -/
def splitLoop (cc : List (Finset ℕ)) : ℕ → List ℕ → List (List ℕ) → List (List (ℕ × ℕ)) → List (ℕ × ℕ) →
    Except PyErr (List (List (ℕ × ℕ)))
  | _, _, _, paths, [] => .ok paths
  | m, tensors, lists, paths, (a, b) :: path =>
    let x := min a b
    let y := max a b
    match tensors[x]?, tensors[y]? with
    | some tx, some ty =>
      match cc.findIdx? (tx ∈ ·) with
      | none => .error .valueError
      | some k =>
        if ¬ ty ∈ cc.getD k ∅ then .error .assertionError
        else
          match popPair tensors x y with
          | none => .error .indexError
          | some (_, _, rest) =>
            let l := lists.getD k []
            if ¬ (tx ∈ l ∧ ty ∈ l) then .error .valueError
            else
              let i := min (l.idxOf tx) (l.idxOf ty)
              let j := max (l.idxOf tx) (l.idxOf ty)
              match popPair l i j with
              | none => .error .indexError
              | some (_, _, l') =>
                splitLoop cc (m + 1) (rest ++ [m + 1]) (lists.set k (l' ++ [m + 1]))
                  (paths.set k (paths.getD k [] ++ [(i, j)])) path
    | _, _ => .error .indexError

/-- tn.py:378-494 `split_contraction_path` with `return_connected_components=True`. -/
def splitPath (n : ℕ) (path : List (ℕ × ℕ)) (normalize : Bool) :
    Except PyErr (List (List (ℕ × ℕ)) × List (Finset ℕ)) :=
  match colorLoop n (initColors n) path with
  | .error e => .error e
  | .ok s =>
    let cc := s.color2tensors.map Prod.snd
    let lists := if normalize then cc.map sortSet else cc.map fun _ => List.range n
    match splitLoop cc n (List.range n) lists (cc.map fun _ => []) path with
    | .error e => .error e
    | .ok paths => .ok (paths, cc.map fun s => s.filter (· < n))

/-- tn.py:378-494 with `return_connected_components=False`: only the non-empty paths. -/
def splitPathOnly (n : ℕ) (path : List (ℕ × ℕ)) (normalize : Bool) :
    Except PyErr (List (List (ℕ × ℕ))) :=
  match splitPath n path normalize with
  | .error e => .error e
  | .ok (paths, _) => .ok (paths.filter (·.length ≠ 0))

end TNCO
