import Verif.Model.PathBuild
import Verif.Model.Dict
import Verif.Model.OrderedFrozenSet

/-!
# Connected components (`tnco/testing/utils.py:39-134`)

`enum` is the order in which a `frozenset` is iterated.  As empty tensors are
filtered out at the beginning (line 61), the branches for empty tensors in
lines 76-78 and 117-124 are never entered, and are left out.
-/

namespace TNCO
variable {I : Type} [DecidableEq I]

/-- The dictionaries `index2color` and `color2index`. -/
structure IndexColors (I : Type) [DecidableEq I] where
  index2color : List (I × Nat)
  color2index : List (Nat × Finset I)

/-- `all_colors_` (`tnco/testing/utils.py:80-84`). -/
def tensorColors (st : IndexColors I) (inds : List I) : List Nat :=
  uniqueEverseen (inds.filterMap (dget st.index2color))

/-- `all_inds_` (`tnco/testing/utils.py:87-89`). -/
def mergedInds (st : IndexColors I) (inds : List I) : Finset I :=
  (tensorColors st inds).foldl
    (fun s c => s ∪ (dget st.color2index c).getD ∅) inds.toFinset

/-- `color_` (`tnco/testing/utils.py:92-93`). -/
def newColor (st : IndexColors I) (inds : List I) : Nat :=
  match tensorColors st inds with
  | [] => ((st.color2index.map fun e => e.1 + 1).foldl max 0)
  | c :: cs => cs.foldl min c

/-- The body of the loop (`tnco/testing/utils.py:80-98`). -/
def colorStep (enum : Finset I → List I) (st : IndexColors I) (inds : List I) :
    IndexColors I :=
  let color := newColor st inds
  let all := mergedInds st inds
  ⟨dupdate st.index2color ((enum all).map fun x => (x, color)),
    dset ((tensorColors st inds).foldl dpop st.color2index) color all⟩

/-- `map_reduce(enumerate(cc), key, position, tuple)`
(`tnco/testing/utils.py:131-134`). -/
def groupFrom (k : Nat) (d : List (Nat × List Nat)) :
    List Nat → List (Nat × List Nat)
  | [] => d
  | c :: cs => groupFrom (k + 1) (dset d c ((dget d c).getD [] ++ [k])) cs

/-- The assertions (`tnco/testing/utils.py:100-115`): all the indices of a
tensor have one color, and the colored indices are those of the tensors. -/
def colorsChecked (st : IndexColors I) (us : List (List I)) : Bool :=
  uniqueEverseen (us.map fun inds =>
    (uniqueEverseen (inds.map (dget st.index2color))).length) = [1] &&
  let l := uniqueEverseen us.flatten ++ st.index2color.map Prod.fst
  l.all fun x => l.count x = 2

/-- `get_connected_components` (`tnco/testing/utils.py:39-134`). -/
def connectedComponents (enum : Finset I → List I) (ts : List (List I)) :
    Except PyErr (List (List Nat)) :=
  let us := ts.filter fun inds => inds.length ≠ 0
  if us.length = 0 then .ok []
  else
    let st := us.foldl (colorStep enum) ⟨[], []⟩
    if ¬ colorsChecked st us then .error .assertionError
    else
      match us.mapM fun inds => inds.head?.bind (dget st.index2color) with
      | none => .error .keyError
      | some cc => .ok ((groupFrom 0 [] cc).map Prod.snd)

end TNCO
