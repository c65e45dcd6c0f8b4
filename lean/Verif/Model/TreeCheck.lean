import Verif.Model.Pickle

/-!
# Reading and checking a contraction tree from Python

`tnco/ctree.py:263-330,390-404` (`__eq__`, `all_inds`, `output_inds`, `inds`, `max_width`) and
`tnco/testing/utils.py:360-444` (`is_valid_contraction_tree`).

The order in which Python iterates over a `frozenset` is an arbitrary function `enum`. `math.log2`
is a function `log2`. Errors are values; a generator given to `all` is read up to the first element
that is not true, so that an error behind it does not occur.
-/

namespace TNCO

variable {ι : Type} [DecidableEq ι]

/-- `l[key]` for a sequence of `n` elements: the position that Python reads; `none` is the
`IndexError`. -/
def pyPos (n : ℕ) (key : ℤ) : Option ℕ :=
  if 0 ≤ key then (if key < n then some key.toNat else none)
  else if -(n : ℤ) ≤ key then some (key + n).toNat else none

/-- tree.hpp:52-54 `operator==`: the two vectors of nodes are equal. -/
def Tree.same (S T : Tree) : Bool :=
  S.size == T.size && (List.range S.size).all fun i => S.nodes i == T.nodes i

/-- ctree.hpp:96-99 `operator==`; bitsets are equal when their lengths and positions are. -/
def CTree.same (c d : CTree) : Bool :=
  c.tree.same d.tree && (c.nInds == d.nInds && (List.range c.tree.size).all fun i => decide (c.inds i = d.inds i)) &&
    decide (c.dims = d.dims)

namespace PyTree

/-- ctree.py:263-264 `__eq__` for two contraction trees. -/
def same (t u : PyTree ι) : Bool := t.core.same u.core && decide (t.indsOrder = u.indsOrder)

/-- ctree.py:269-277 `all_inds`. -/
def allInds (t : PyTree ι) : Finset ι := t.indsOrder.toFinset

/-- ctree.py:320-322 `get_inds`: the names of the positions of a bitset. -/
def getInds (t : PyTree ι) (p : ℕ) : Except PyErr (Finset ι) :=
  match namesOf t.indsOrder t.core.nInds (t.core.inds p) with
  | none => .error .indexError
  | some xs => .ok xs.toFinset

/-- ctree.py:324-325: `inds[key]` for an integer. -/
def indsAt (t : PyTree ι) (key : ℤ) : Except PyErr (Finset ι) :=
  match pyPos t.core.tree.size key with
  | none => .error .indexError
  | some p => t.getInds p

/-- `inds[child]` for a child as Python sees it (node.hpp:113-118, 143-148): `inds[None]` is a `TypeError`. -/
def indsChild (t : PyTree ι) : Option ℕ → Except PyErr (Finset ι)
  | none => .error .typeError
  | some c => t.indsAt c

/-- ctree.py:327: `inds[:stop]`. -/
def indsTo (t : PyTree ι) (stop : ℕ) : Except PyErr (List (Finset ι)) :=
  ((List.range t.core.tree.size).take stop).mapM t.getInds

/-- ctree.py:403: the product of the dimensions of some indices; a missing dimension is
`None`, which cannot be multiplied. -/
def dimProd (enum : Finset ι → List ι) (t : PyTree ι) (xs : Finset ι) : Except PyErr ℕ :=
  match (enum xs).mapM (dimOf t.indsOrder t.core.dims) with
  | none => .error .typeError
  | some ds => .ok (ds.foldl (· * ·) 1)

/-- `max` of a sequence. -/
def pyMax {R : Type} [LinearOrder R] : List R → Except PyErr R
  | [] => .error .valueError
  | a :: l => .ok (l.foldl max a)

/-- ctree.py:390-404 `max_width`; the iteration over `self.inds` reads `inds[0]`, `inds[1]`, …
until the `IndexError`. -/
def maxWidth {R : Type} [LinearOrder R] (log2 : ℕ → R) (enum : Finset ι → List ι) (t : PyTree ι) : Except PyErr R := do
  let ws ← (List.range t.core.tree.size).mapM fun p => do
    let xs ← t.getInds p
    let d ← t.dimProd enum xs
    return log2 d
  pyMax ws

end PyTree

/-! ## `is_valid_contraction_tree` -/

/-- utils.py:360-366: the optional arguments; `once`: `ts_inds` is a one-shot iterator; `hyper` is a
dictionary. -/
structure CheckArgs (ι : Type) where
  tsInds : Option (List (List ι))
  once : Bool
  dims : Option (PyDims ι)
  output : Option (List ι)
  hyper : Option (ι → Option ℕ)
  check : Option Bool

/-- utils.py:390-391: `swap_with_nn` at every position, in order. -/
def swapAll (T : Tree) : Tree := (List.range T.size).foldl Tree.swapWithNN T

/-- utils.py:395-399: `all` over the dimensions of the tree; `dims[x]` of a dictionary may be a
`KeyError`. -/
def dimsAgree (dims : PyDims ι) (own : ι → Option ℕ) : List ι → Except PyErr Bool
  | [] => .ok true
  | x :: l =>
    match dims.get? x with
    | none => .error .keyError
    | some d => if some d = own x then dimsAgree dims own l else .ok false

/-- utils.py:424-430: one node. `none` is the `return False` of 427-428. -/
def nodeShared (t : PyTree ι) (shared : Bool) (p : ℕ) : Except PyErr (Option (Finset ι)) :=
  if (t.core.tree.nodes p).isLeaf then .ok (some ∅)
  else do
    let ix ← t.indsChild (t.core.tree.nodes p).c0
    let iy ← t.indsChild (t.core.tree.nodes p).c1
    if shared && decide (ix ∩ iy = ∅) then return none
    else return some (ix ∩ iy)

/-- utils.py:423-431: the loop over the nodes; the names counted, in order. -/
def sharedNames (enum : Finset ι → List ι) (t : PyTree ι) (shared : Bool) : List ℕ → Except PyErr (Option (List ι))
  | [] => .ok (some [])
  | p :: l => do
    match ← nodeShared t shared p with
    | none => return none
    | some xs =>
      match ← sharedNames enum t shared l with
      | none => return none
      | some ys => return some (enum xs ++ ys)

/-- utils.py:438-441: `all` over the counts. -/
def countsAgree (hyper : ι → Option ℕ) (counted : List ι) : List ι → Except PyErr Bool
  | [] => .ok true
  | x :: l =>
    match hyper x with
    | none => .error .keyError
    | some v => if v = counted.count x then countsAgree hyper counted l else .ok false

/-- utils.py:419-441 -/
def checkHyper (enum : Finset ι → List ι) (t : PyTree ι) (shared : Bool) (hyper : ι → Option ℕ) : Except PyErr Bool := do
  match ← sharedNames enum t shared (List.range t.core.tree.size) with
  | none => return false
  | some xs =>
    let out ← t.indsAt (-1)
    let counted := xs ++ enum out
    countsAgree hyper counted (uniqueEverseen counted)

/-- utils.py:402-406. A one-shot iterator is used up by 403, so that 405 sees nothing. -/
def checkLeaves (t : PyTree ι) (once : Bool) (tsInds : List (List ι)) : Except PyErr Bool := do
  let leaves ← t.indsTo t.core.tree.nLeaves
  if leaves ≠ tsInds.map List.toFinset then return false
  else return decide ((if once then [] else tsInds).flatten.toFinset = t.allInds)

/-- utils.py:413-417 -/
def checkOutput (t : PyTree ι) (output : List ι) : Except PyErr Bool := do
  let out ← t.indsAt (-1)
  return decide (out = output.toFinset)

/-- An optional test: `None` means that it is not made. -/
def optional {α : Type} (test : α → Except PyErr Bool) : Option α → Except PyErr Bool
  | none => .ok true
  | some a => test a

/-- Tests made one after the other, up to the first that fails. -/
def allTests : List (Except PyErr Bool) → Except PyErr Bool
  | [] => .ok true
  | t :: l => do if ← t then allTests l else return false

/-- testing/utils.py:360-444 `is_valid_contraction_tree`. -/
def isValidTree (enum : Finset ι → List ι) (t : PyTree ι) (a : CheckArgs ι) : Except PyErr Bool := do
  let copy ← t.unpickle enum                                                              -- 385
  if !copy.same t then return false                                                       -- 386-387
  if ({ copy with core := { copy.core with tree := swapAll copy.core.tree } } : PyTree ι).same t then
    throw .assertionError                                                                 -- 390-392
  allTests [
    optional (fun d => dimsAgree d (dimOf t.indsOrder t.core.dims) t.indsOrder) a.dims,
    optional (checkLeaves t a.once) a.tsInds,
    .ok (t.core.isValid (a.check.getD false)),                                            -- 409-411
    optional (checkOutput t) a.output,
    optional (checkHyper enum t (a.check.getD false)) a.hyper]

end TNCO
