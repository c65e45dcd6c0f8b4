import Verif.Model.Tree

/-!
# Traversal: `include/tnco/utils.hpp` 34-71
-/

namespace TNCO

/-- utils.hpp:40-50: the `while (std::size(stack))` loop. `fuel` bounds the
number of iterations (`none` = still running); `out` is the sequence of
callback invocations; the head of `stack` is its top. A missing child of a
non-leaf (undefined behaviour in C++) is also `none`. -/
def traverseLoop (T : Tree) : ℕ → List ℕ → (ℕ → Bool) → List ℕ → Option (List ℕ)
  | _, [], _, out => some out
  | 0, _ :: _, _, _ => none
  | fuel + 1, pos :: stack, visited, out =>
    if visited pos || (T.nodes pos).isLeaf then                       -- 42
      traverseLoop T fuel stack visited (out ++ [pos])                -- 43-44
    else
      match (T.nodes pos).c0, (T.nodes pos).c1 with
      | some a, some b =>                                             -- 46-48
        traverseLoop T fuel (a :: b :: pos :: stack) (Function.update visited pos true) out
      | _, _ => none

/-- utils.hpp:34-51 `traverse`: the sequence of positions passed to the callback. -/
def traverse (fuel : ℕ) (T : Tree) : Option (List ℕ) :=
  traverseLoop T fuel [T.size - 1] (fun _ => false) []

/-- utils.hpp:53-71 `get_contraction`. -/
def getContraction (fuel : ℕ) (T : Tree) : Option (List (ℕ × ℕ × ℕ)) :=
  (traverse fuel T).map fun l => l.filterMap fun pos =>
    match (T.nodes pos).c0, (T.nodes pos).c1 with
    | some a, some b => some (a, b, pos)
    | _, _ => none

end TNCO
