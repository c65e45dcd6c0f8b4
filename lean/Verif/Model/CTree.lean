import Verif.Model.Traverse
import Mathlib.Data.Finset.SDiff
import Mathlib.Data.Finset.Lattice.Basic
import Mathlib.Algebra.BigOperators.Group.Finset.Basic

/-!
# Contraction tree: `include/tnco/ctree.hpp`

A bitset of the tree is represented by the finite set of its positions; `C02`
justifies this operation by operation (all bitsets of one tree have the same
length `n_inds`, checked at ctree.hpp:114-119).
-/

namespace TNCO

/-- Sets of index positions. -/
abbrev ISet := Finset ℕ

/-- bitset.hpp `operator^` on sets of positions. -/
def ISet.xor (a b : ISet) : ISet := (a \ b) ∪ (b \ a)

/-- bitset.hpp `intersects`. -/
def ISet.intersects (a b : ISet) : Bool := decide (a ∩ b ≠ ∅)

/-- ctree.hpp:35-37 `dims_type`: one number for all indices, or one per index. -/
inductive Dims where
  | int (d : ℕ)
  | vec (l : List ℕ)
deriving DecidableEq, Repr

namespace Dims

/-- Dimension of index `i`; an access outside the vector (undefined behaviour in C++)
is 0 here, a value which `is_valid` forbids for real dimensions (ctree.hpp:121-135). -/
def get : Dims → ℕ → ℕ
  | int d, _ => d
  | vec l, i => l.getD i 0

/-- ctree.hpp:121-135 -/
def ok (n : ℕ) : Dims → Bool
  | int d => d != 0
  | vec l => l.length == n && l.all (· != 0)

/-- ctree.hpp:79-89: a vector of equal dimensions is stored as one number. -/
def collapse : Dims → Dims
  | vec (d :: l) => if l.all (· == d) then int d else vec (d :: l)
  | d => d

end Dims

/-- ctree.hpp:31-40: nodes, one bitset (of `n_inds` bits) per node, dimensions. -/
structure CTree where
  tree : Tree
  nInds : ℕ
  inds : ℕ → ISet
  dims : Dims

namespace CTree

/-- ctree.hpp:137-148, one node. A missing child of a non-leaf cannot occur after the
tree check. -/
def nodeOk (c : CTree) (checkShared : Bool) (i : ℕ) : Bool :=
  match (c.tree.nodes i).c0, (c.tree.nodes i).c1 with
  | some a, some b =>
    !((checkShared && !(c.inds a).intersects (c.inds b)) ||
      !decide ((c.inds a).xor (c.inds b) ⊆ c.inds i) ||
      !decide (c.inds i ⊆ c.inds a ∪ c.inds b))
  | none, _ => true
  | _, none => false

/-- ctree.hpp:101-152 `is_valid(check_shared_inds)`. The two size checks at 109-119 hold by
construction in this representation. -/
def isValid (c : CTree) (checkShared : Bool) : Bool :=
  c.tree.isValid && c.dims.ok c.nInds &&
    (List.range c.tree.size).all fun i => c.nodeOk checkShared i

end CTree
end TNCO
