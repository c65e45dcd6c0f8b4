import Mathlib.Data.Nat.Notation
import Mathlib.Logic.Function.Basic
import Mathlib.Data.List.Basic

/-!
# Core tree: `include/tnco/node.hpp`, `include/tnco/tree.hpp`

`null = -1` (node.hpp:38) is `none`; every other index is a natural number
because the `Node` constructor maps all negative numbers to `null`
(node.hpp:46-49) and `Node` fields are read-only from Python
(node.hpp:140-148).
-/

namespace TNCO

/-- node.hpp:40-42: `children[0]`, `children[1]`, `parent`. -/
structure Node where
  c0 : Option ℕ
  c1 : Option ℕ
  parent : Option ℕ
deriving DecidableEq, Repr, Inhabited

namespace Node

/-- node.hpp:46-49: negative numbers are mapped to `null`. -/
def ofInt (x : Int) : Option ℕ := if x < 0 then none else some x.toNat

/-- node.hpp:65 -/
def isRoot (n : Node) : Bool := n.parent == none

/-- node.hpp:67 -/
def isLeaf (n : Node) : Bool := n.c0 == none

/-- node.hpp:69-105. The checks at 75-80, 83 and 88 cannot fail once the
constructor has normalised negative numbers, except the first half of 83, which
is subsumed by the sign check (71); they are kept as the sign check. -/
def isValid (n : Node) : Bool :=
  -- 71: both children must have the same sign
  if n.c0.isNone != n.c1.isNone then false
  -- 93: children must be different
  else if !n.isLeaf && n.c0 == n.c1 then false
  -- 98: parent must be different from children
  else if !n.isLeaf && !n.isRoot && (n.parent == n.c0 || n.parent == n.c1) then false
  else true

/-- node.hpp:44-54: constructor `Node((x, y), p)`; `none` is the thrown
`invalid_argument`. -/
def make (x y p : Int) : Option Node :=
  let n : Node := ⟨ofInt x, ofInt y, ofInt p⟩
  if n.isValid then some n else none

end Node

/-- tree.hpp:38: `std::vector<node_type> nodes`, as a size and an indexing
function. Positions `≥ size` are never meaningful. -/
structure Tree where
  size : ℕ
  nodes : ℕ → Node

namespace Tree

/-- Builds the vector from a list (test/witness convenience; the vector that the
Python binding receives, tree.hpp:40). -/
def ofList (l : List Node) : Tree := ⟨l.length, fun i => l.getD i default⟩

/-- tree.hpp:195-202 -/
def nLeaves (T : Tree) : ℕ := (T.size + 1) / 2

/-- tree.hpp:60-66: each reference is `null` or inside the vector. -/
def refOk (n : ℕ) : Option ℕ → Bool
  | none => true
  | some x => decide (x < n)

/-- tree.hpp:101-112: `count_parents[i]`, the number of nodes whose parent is `i`. -/
def countParents (T : Tree) (i : ℕ) : ℕ :=
  (List.range T.size).countP fun j => (T.nodes j).parent == some i

/-- tree.hpp:101-112: `count_children[i]`, how often `i` is listed as a child. -/
def countChildren (T : Tree) (i : ℕ) : ℕ :=
  ((List.range T.size).countP fun j => (T.nodes j).c0 == some i) +
  ((List.range T.size).countP fun j => (T.nodes j).c0 != none && (T.nodes j).c1 == some i)

/-- tree.hpp:56-138 `is_valid`, in order. The two lambdas at 119-121 and
129-131 are `(c == node.is_leaf()) ? 0 : 2` and `(c == node.is_root()) ? 0 : 1`
because `==` binds tighter than `?:`; the Boolean on the right of `==` is
promoted to 0/1. -/
def isValid (T : Tree) : Bool :=
  let all (p : ℕ → Bool) := (List.range T.size).all p
  -- 58-70
  if !(all fun i =>
      let n := T.nodes i
      refOk T.size n.parent && refOk T.size n.c0 && refOk T.size n.c1 && n.isValid) then false
  -- 73
  else if !(T.nodes (T.size - 1)).isRoot then false
  -- 78-80
  else if (List.range T.size).countP (fun i => (T.nodes i).isRoot) != 1 then false
  -- 88-90
  else if (List.range T.nLeaves).countP (fun i => (T.nodes i).isLeaf) != T.nLeaves then false
  -- 95
  else if T.size != 2 * T.nLeaves - 1 then false
  -- 116-121
  else if !(all fun i =>
      !(T.countParents i == (if (T.nodes i).isLeaf then 1 else 0))) then false
  -- 126-131
  else if !(all fun i =>
      !(T.countChildren i == (if (T.nodes i).isRoot then 1 else 0))) then false
  else true

/-- tree.hpp:40-48: the constructor; `none` is `invalid_argument`. -/
def make (l : List Node) : Option Tree :=
  if l.length = 0 then none
  else if (ofList l).isValid then some (ofList l) else none

/-- Assignment `node.children[node.children[0] != x] = y` (tree.hpp:180,181):
overwrite the slot holding `x` (slot 0 if it holds `x`, otherwise slot 1). -/
def replaceChild (n : Node) (x y : ℕ) : Node :=
  if n.c0 == some x then { n with c0 := some y } else { n with c1 := some y }

/-- tree.hpp:140-191 `swap_with_nn(pos_D)`; `pos_D` non-negative. The four
assignments at 180-183 are performed in order through references, so each one
reads the already updated vector. -/
def swapWithNN (T : Tree) (posD : ℕ) : Tree :=
  if T.size ≤ posD then T                                   -- 154
  else
    match (T.nodes posD).parent with
    | none => T                                             -- 160
    | some posB =>
      match (T.nodes posB).parent with
      | none => T                                           -- 167
      | some posA =>
        -- 176: children[children[0] == pos_B]
        match (if (T.nodes posA).c0 == some posB then (T.nodes posA).c1 else (T.nodes posA).c0) with
        | none => T                                         -- not a tree (undefined behaviour in C++)
        | some posC =>
          let n0 := T.nodes
          let n1 := Function.update n0 posA (replaceChild (n0 posA) posC posD)   -- 180
          let n2 := Function.update n1 posB (replaceChild (n1 posB) posD posC)   -- 181
          let n3 := Function.update n2 posC { n2 posC with parent := some posB } -- 182
          let n4 := Function.update n3 posD { n3 posD with parent := some posA } -- 183
          ⟨T.size, n4⟩

end Tree
end TNCO
