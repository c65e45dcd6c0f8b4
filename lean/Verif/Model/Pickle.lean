import Verif.Model.PathBuild
import Verif.Model.FiniteWidth

/-!
# Rebuilding contraction trees and optimizers: pickling

`tnco/ctree.py:85-100,227-261` (the constructor given nodes, `__reduce__`),
`tnco/optimize/infinite_memory/optimizer.py:47-94,234-251`,
`tnco/optimize/finite_width/optimizer.py:54-143,332-354`.

The textual form of the generator state (`optimizer.hpp:69-71,191-195`) is taken to restore the
state exactly, as the C++ standard requires of random number engines (proved for that of the code: C87_restore); pickling of numbers,
strings and tuples is the identity. Index names: a type `ι`. The order in which Python iterates over
a `frozenset` is an arbitrary function `enum`.
-/

namespace TNCO

variable {ι : Type} [DecidableEq ι]

/-- The part of a tree that the Python object keeps: `(dims, n_tensors, tensors_pos, inds_order)`. -/
structure PyCache (ι : Type) where
  dims : PyDims ι
  nTensors : ℕ
  tensorsPos : List ℕ
  indsOrder : List ι

/-- ctree.py:85-100 and 227-251: the constructor given a list of nodes (`output_inds` is not
given). A missing dimension becomes `None` (245), which the C++ constructor refuses. -/
def PyTree.ofNodes (nodes : List Node) (tsInds : List (List ι)) (k : PyCache ι) (check : Bool) :
    Except PyErr (PyTree ι) :=
  if k.indsOrder.toFinset ≠ tsInds.flatten.toFinset then .error .valueError            -- 99
  else match k.dims.toList k.indsOrder with
    | .error _ => .error .typeError
    | .ok ds =>
      match CTree.make nodes (tsInds.map fun xs => xs.map fun x => k.indsOrder.idxOf x) ds check with
      | .error e => .error e
      | .ok core => .ok ⟨core, k.nTensors, k.tensorsPos, k.indsOrder⟩

/-- ctree.hpp `dims` seen from Python (ctree.py:341-348): `zip` stops at the shorter sequence. -/
def dimOf (order : List ι) (d : Dims) (x : ι) : Option ℕ :=
  if x ∈ order then
    match d with
    | .int n => some n
    | .vec l => l[order.idxOf x]?
  else none

/-- ctree.py:332-348 `dims`. -/
def PyTree.dims (t : PyTree ι) : PyDims ι := .dict (dimOf t.indsOrder t.core.dims)

/-- optimizer.py: `_ctree_cache`. -/
def PyTree.cache (t : PyTree ι) : PyCache ι := ⟨t.dims, t.nTensors, t.tensorsPos, t.indsOrder⟩

/-- `map(lambda x: order[x], xs.positions())`; `none` is the `IndexError`. -/
def namesOf (order : List ι) (nInds : ℕ) (xs : ISet) : Option (List ι) :=
  ((List.range nInds).filter (· ∈ xs)).mapM fun i => order[i]?

/-- optimizer.py (both) `__get_ctree__`: the C++ tree as a Python tree. -/
def getCtree (k : PyCache ι) (c : CTree) : Except PyErr (PyTree ι) :=
  match ((List.range c.tree.size).map c.inds).mapM (namesOf k.indsOrder c.nInds) with
  | none => .error .indexError
  | some names => PyTree.ofNodes ((List.range c.tree.size).map c.tree.nodes) names k false

/-- ctree.py:253-261: `__reduce__` followed by `__build__`; `self.inds[:]` are frozensets. -/
def PyTree.unpickle (enum : Finset ι → List ι) (t : PyTree ι) : Except PyErr (PyTree ι) :=
  match ((List.range t.core.tree.size).map t.core.inds).mapM (namesOf t.indsOrder t.core.nInds) with
  | none => .error .indexError
  | some names =>
    PyTree.ofNodes ((List.range t.core.tree.size).map t.core.tree.nodes)
      (names.map fun xs => enum xs.toFinset) t.cache false

/-- What happens to a tree that is part of a pickled optimizer. -/
def shipTree (enum : Finset ι → List ι) (k : PyCache ι) (c : CTree) : Except PyErr (PyTree ι) :=
  match getCtree k c with
  | .error e => .error e
  | .ok t => t.unpickle enum

/-- Errors when an optimizer is rebuilt. -/
inductive ShipErr where
  | tree (e : PyErr)
  | make
  /-- a traversal does not stop -/
  | noReturn
  | index
deriving DecidableEq, Repr

/-- The Python optimizer of infinite_memory/optimizer.py: C++ object and cache. The cost model
is a function of the order of the indices and of the dimensions (`cmodel.__get_core__`, and the
dimensions that every call receives). -/
structure PyInf (ι σ R : Type) where
  core : InfOpt σ R
  cache : PyCache ι

section
variable {σ P R W : Type} [AddCommGroup R] [LinearOrder R] [LinearOrder P] [AddCommGroup W] [LinearOrder W]

/-- infinite_memory/optimizer.py:47-84. -/
def PyInf.make (cm : List ι → Dims → CostModel R) (t : PyTree ι) (seed : σ) (dis : Bool)
    (minT : Option (PyTree ι)) : Except ShipErr (PyInf ι σ R) :=
  match InfOpt.make (cm t.indsOrder t.core.dims) t.core seed dis (minT.map PyTree.core) with
  | none => .error .noReturn
  | some (.error _) => .error .make
  | some (.ok o) => .ok ⟨o, t.cache⟩

/-- infinite_memory/optimizer.py:234-245: `__reduce__`, then `__build__` elsewhere. -/
def PyInf.unpickle (enum : Finset ι → List ι) (cm : List ι → Dims → CostModel R) (o : PyInf ι σ R) :
    Except ShipErr (PyInf ι σ R) :=
  match shipTree enum o.cache o.core.ctree, shipTree enum o.cache o.core.minCtree with
  | .ok t, .ok mt => PyInf.make cm t o.core.prng o.core.disableShared (some mt)
  | .error e, _ => .error (.tree e)
  | _, .error e => .error (.tree e)

/-- The Python optimizer of finite_width/optimizer.py. `skip` is `_skip_slices`, by name. -/
structure PyFw (ι σ R W : Type) where
  core : FwOpt σ R W
  cache : PyCache ι
  skip : Finset ι

/-- `Bitset(map(order.index, names), n_inds)`; `none`: an unknown name. -/
def toBits (order : List ι) (s : Finset ι) : Option ISet :=
  if s ⊆ order.toFinset then some (s.image fun x => order.idxOf x) else none

/-- `frozenset(map(lambda x: order[x], bits.positions()))` -/
def ofBits (order : List ι) (nInds : ℕ) (s : ISet) : Option (Finset ι) :=
  (namesOf order nInds s).map List.toFinset

/-- finite_width/optimizer.py:54-133; `maxNew` is the keyword `max_number_new_slices`. The width
model is that of the cost model for the order and dimensions of the tree. -/
def PyFw.make (g : FwPrng σ P) (cm : List ι → Dims → CostModel R) (wm : List ι → Dims → WidthModel W)
    (t : PyTree ι) (maxNew : ℕ) (seed : σ) (dis : Bool) (skip : Finset ι) (minT : Option (PyTree ι))
    (slices minSlices : Option (Finset ι)) : Except ShipErr (PyFw ι σ R W) :=
  match toBits t.indsOrder skip with
  | none => .error .index
  | some sk =>
    match slices.mapM (toBits t.indsOrder), minSlices.mapM (toBits t.indsOrder) with
    | some sl, some msl =>
      match FwOpt.pyMake g (cm t.indsOrder t.core.dims) (wm t.indsOrder t.core.dims) t.core maxNew seed dis
          sk (minT.map PyTree.core) sl msl with
      | none => .error .noReturn
      | some (.error _) => .error .make
      | some (.ok o) => .ok ⟨o, t.cache, skip⟩
    | _, _ => .error .index

/-- finite_width/optimizer.py:332-348: `max_number_new_slices` is not among the pickled values, so
the rebuilt optimizer has its default 0. -/
def PyFw.unpickle (enum : Finset ι → List ι) (g : FwPrng σ P) (cm : List ι → Dims → CostModel R)
    (wm : List ι → Dims → WidthModel W) (o : PyFw ι σ R W) : Except ShipErr (PyFw ι σ R W) :=
  match shipTree enum o.cache o.core.inf.ctree, shipTree enum o.cache o.core.inf.minCtree with
  | .ok t, .ok mt =>
    match ofBits o.cache.indsOrder o.core.inf.ctree.nInds o.core.slices,
        ofBits o.cache.indsOrder o.core.inf.ctree.nInds o.core.minSlices with
    | some sl, some msl =>
      PyFw.make g cm wm t 0 o.core.inf.prng o.core.inf.disableShared o.skip (some mt) (some sl) (some msl)
    | _, _ => .error .index
  | .error e, _ => .error (.tree e)
  | _, .error e => .error (.tree e)

end
end TNCO
