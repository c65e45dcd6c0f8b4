import Verif.Model.Traverse

/-!
# `traverse_tree`: `tnco/ctree.py` 407-434

Model of the Python function around `traverse` (`include/tnco/utils.hpp` 34-51). Other than in `Model/Traverse.lean`, the callback is run:
it changes a state `σ` (all that it can reach from Python) and may raise an exception, which pybind11 passes on through the loop.

The tree is passed by reference to C++, so that a callback which changes the tree changes what the loop reads. Therefore the tree is read
from the state by `tree : σ → Tree` in each turn.

Simplified: of the progress bar of `rich` only the task is kept, i.e. its `total` and `completed`, and whether it is shown.
-/

namespace TNCO

/-- A Python callback: from a position and the state it makes the new state, and possibly an exception. -/
abbrev Callback (σ E : Type) := ℕ → σ → σ × Option E

/-- What is left of a call of `traverse_tree`: the state, the counters of the progress bar, whether the bar was displayed, and the exception
that has left the call, if any. -/
structure Walked (σ E : Type) where
  state : σ
  completed : ℕ
  total : ℕ
  shown : Bool
  raised : Option E

/-- The loop of utils.hpp:40-50 run with `callback_` of ctree.py:424-427, which counts before it calls (ctree.py:425-426). `none` = the loop
is still running after `fuel` turns, or a node has only one child (undefined behaviour in C++). -/
def walkLoop {σ E : Type} (tree : σ → Tree) (cb : Callback σ E) :
    ℕ → List ℕ → (ℕ → Bool) → σ → ℕ → Option (σ × ℕ × Option E)
  | _, [], _, s, k => some (s, k, none)
  | 0, _ :: _, _, _, _ => none
  | fuel + 1, pos :: stack, visited, s, k =>
    if visited pos || ((tree s).nodes pos).isLeaf then                -- utils.hpp:42
      match cb pos s with                                             -- utils.hpp:44
      | (s', none) => walkLoop tree cb fuel stack visited s' (k + 1)
      | (s', some e) => some (s', k + 1, some e)
    else
      match ((tree s).nodes pos).c0, ((tree s).nodes pos).c1 with
      | some a, some b =>                                             -- utils.hpp:46-48
        walkLoop tree cb fuel (a :: b :: pos :: stack) (Function.update visited pos true) s k
      | _, _ => none

/-- ctree.py:407-434 `traverse_tree(ctree, callback, verbose=verbose)`; `total=len(ctree)` (ctree.py:422) is read at the start, as is the
root (utils.hpp:39). The bar is disabled if `verbose <= 0` (ctree.py:421). -/
def traverseTree {σ E : Type} (fuel : ℕ) (tree : σ → Tree) (cb : Callback σ E) (verbose : Int) (s : σ) : Option (Walked σ E) :=
  (walkLoop tree cb fuel [(tree s).size - 1] (fun _ => false) s 0).map fun r =>
    ⟨r.1, r.2.1, (tree s).size, decide (0 < verbose), r.2.2⟩

end TNCO
