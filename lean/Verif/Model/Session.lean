import Verif.Model.Compare
import Verif.Model.Report

/-!
# The optimizer and probability classes as a program uses them

`tnco/optimize/prob.py`, `tnco/optimize/infinite_memory/optimizer.py:47-232`, `tnco/optimize/finite_width/optimizer.py:54-330`,
`include/tnco/optimize/prob/{base,greedy,mh}.hpp` (bindings).

Texts (`cost_type`, `width_type`, `slice_update`) are given after `str(..).lower()`. A C++ exception `std::invalid_argument` or `std::domain_error` reaches Python
as a `ValueError`. `none` is a call that does not return. Costs are exact integers; what is reported of them is `shownCost` (`Model/Report.lean`). The seed is the
state of the generator that it gives.
-/

namespace TNCO

variable {ι : Type} [DecidableEq ι]

/-- globals.hpp:41-44, 80-116: with or without MPFR, and the size of `long double` in bits (`type_to_str`). -/
structure Build where
  mpfr : Bool
  longBits : ℕ

/-- `EXPAND_WIDTH_TYPE`: `float`, `double`, `long double`. -/
def Build.widthTypes (B : Build) : List String := ["float32", "float64", "float" ++ toString B.longBits]

/-- `EXPAND_COST_TYPE`: the width types, and `float1024` unless built without MPFR. -/
def Build.costTypes (B : Build) : List String := B.widthTypes ++ if B.mpfr then ["float1024"] else []

/-! ## Probabilities -/

/-- The three classes of `tnco_core.optimize.prob`; `β` is the type of `beta`. -/
inductive ProbKind (β : Type) where
  | base
  | greedy
  | mh (beta : β)
deriving DecidableEq

/-- An object of such a class; there is one class for each cost type. -/
structure ProbObj (β : Type) where
  kind : ProbKind β
  costType : String
deriving DecidableEq

/-- prob.py:25-56 `BaseProbability`, 59-88 `Greedy`, 117-151 `MetropolisHastings` (and 91-114 `SimulatedAnnealing`, which only warns). -/
def makeProb {β : Type} (B : Build) (kind : ProbKind β) (costType : String) : Except PyErr (ProbObj β) :=
  if costType ∉ ["float32", "float64", "float128", "float1024"] then .error .notImplemented
  else if costType ∉ B.costTypes then .error .attributeError
  else .ok ⟨kind, costType⟩

/-- `p == q` (base.hpp:72-75, greedy.hpp:61-64, mh.hpp:77-80). The operators are bound without `py::is_operator`, so an argument of another class is a
`TypeError`; if the class of `q` is derived from that of `p`, Python calls the operator of `q` first. `none`: some other object. -/
def ProbObj.eq {β : Type} [DecidableEq β] (p : ProbObj β) : Option (ProbObj β) → Except PyErr Bool
  | none => .error .typeError
  | some q =>
    if p.costType ≠ q.costType then .error .typeError
    else match p.kind, q.kind with
      | .base, .base => .ok true
      | .greedy, .greedy => .ok true
      | .mh b, .mh b' => .ok (decide (b = b'))
      | _, _ => .error .typeError

/-- `pickle.loads(pickle.dumps(p))` (base.hpp:77-79, greedy.hpp:65-67, mh.hpp:81-85): the class, and `(beta,)` or `()`. -/
def ProbObj.unpickle {β : Type} (p : ProbObj β) : ProbObj β :=
  match p.kind with
  | .base => ⟨.base, p.costType⟩
  | .greedy => ⟨.greedy, p.costType⟩
  | .mh b => ⟨.mh b, p.costType⟩

/-! ## Constructors -/

/-- The argument `cmodel`: a model of one of the two modules, an object of one of the two classes `BaseCostModel` (which has no `cost_type`), or
something else. -/
inductive ModelArg (ι W : Type) where
  | infinite (m : PyCost ι)
  | finite (m : PyFwCost ι W)
  | infiniteBase
  | finiteBase
  | other

/-- The infinite-memory optimizer: `_cmodel`, the C++ cost model, and the rest. -/
structure InfObj (ι σ : Type) where
  cmodel : PyCost ι
  core : CostCore
  opt : PyInf ι σ ℤ

section
variable {σ P W β : Type} [LinearOrder P]

/-- infinite_memory/optimizer.py:79-84: the C++ constructor. -/
def InfObj.build (m : PyCost ι) (c : CostCore) (t : PyTree ι) (seed : σ) (dis : Bool) (minT : Option (PyTree ι)) : Option (Except PyErr (InfObj ι σ)) :=
  match InfOpt.make (c.model t.core.dims) t.core seed dis (minT.map PyTree.core) with
  | none => none
  | some (.error _) => some (.error .valueError)
  | some (.ok o) => some (.ok ⟨m, c, ⟨o, t.cache⟩⟩)

/-- infinite_memory/optimizer.py:47-84 `__init__`; `extra`: there are keyword arguments other than the known ones. -/
def InfObj.init (B : Build) (enum : Finset ι → List ι) (t : PyTree ι) (cm : ModelArg ι W) (seed : σ) (dis extra : Bool) (minT : Option (PyTree ι)) :
    Option (Except PyErr (InfObj ι σ)) :=
  match cm with
  | .infinite m =>
    if extra then some (.error .typeError)                                              -- 62-63
    else if m.costType ∉ B.costTypes then some (.error .attributeError)                 -- 69
    else match m.core enum t.indsOrder with
      | .error e => some (.error e)
      | .ok c => InfObj.build m c t seed dis minT
  | .infiniteBase => if extra then some (.error .typeError) else some (.error .attributeError)
  | _ => some (.error .notImplemented)                                                  -- 57-58

/-- infinite_memory/optimizer.py:221-232 `update`, with the exception, if there is one; `accept` is what the probability objects return, `none` is an object of another class. -/
def InfObj.update (g : Prng σ P) (accept : ProbKind β → ℤ → ℤ → P) (o : InfObj ι σ) : Option (ProbObj β) → Option (InfObj ι σ × Option PyErr)
  | none => some (o, some .typeError)
  | some p =>
    if p.costType ≠ o.cmodel.costType then some (o, some .typeError)
    else (o.opt.core.update g (o.core.model o.opt.core.ctree.dims) (accept p.kind)).map fun c => ({ o with opt := { o.opt with core := c } }, none)

/-- A program that calls `update` again and again, going on after exceptions. -/
def InfObj.session (g : Prng σ P) (accept : ProbKind β → ℤ → ℤ → P) (o : InfObj ι σ) : List (Option (ProbObj β)) → Option (InfObj ι σ)
  | [] => some o
  | p :: ps => match o.update g accept p with
    | none => none
    | some (o', _) => o'.session g accept ps

/-- infinite_memory/optimizer.py:96-105 `ctree`. -/
def InfObj.ctree (o : InfObj ι σ) : Except PyErr (PyTree ι) := getCtree o.opt.cache o.opt.core.ctree

/-- infinite_memory/optimizer.py:107-117 `min_ctree`. -/
def InfObj.minCtree (o : InfObj ι σ) : Except PyErr (PyTree ι) := getCtree o.opt.cache o.opt.core.minCtree

/-- infinite_memory/optimizer.py:155-164 `total_cost`. -/
def InfObj.totalCost (o : InfObj ι σ) : ℚ := shownCost (o.cmodel.costType == "float1024") o.opt.core.totalCost

/-- infinite_memory/optimizer.py:166-175 `min_total_cost`. -/
def InfObj.minTotalCost (o : InfObj ι σ) : ℚ := shownCost (o.cmodel.costType == "float1024") o.opt.core.minTotal

/-- infinite_memory/optimizer.py:130-142 `disable_shared_inds`. -/
def InfObj.disableSharedInds (o : InfObj ι σ) : Bool := o.opt.core.disableShared

variable [AddCommGroup W] [LinearOrder W]

/-- The finite-width optimizer. -/
structure FwObj (ι σ W : Type) where
  cmodel : PyFwCost ι W
  core : CostCore
  wm : WidthModel W
  opt : PyFw ι σ ℤ W

/-- finite_width/optimizer.py:104-108: `any(..)` over the tensors, by name; an exception of `width` ends the loop. -/
def skipTooWide (log2 : ℕ → W) (enum : Finset ι → List ι) (m : PyFwCost ι W) (t : PyTree ι) (skip : Finset ι) : List ℕ → Except PyErr Bool
  | [] => .ok false
  | p :: ps => match t.getInds p with
    | .error e => .error e
    | .ok xs => match m.width log2 enum (enum (xs ∩ skip)) t.dims with
      | .error e => .error e
      | .ok w => if m.maxWidth < w then .ok true else skipTooWide log2 enum m t skip ps

/-- `Bitset(map(ctree._inds_order.index, names), ctree.n_inds)` for an optional frozenset. -/
def optBits (order : List ι) : Option (Finset ι) → Except PyErr (Option ISet)
  | none => .ok none
  | some s => match toBits order s with
    | none => .error .valueError
    | some b => .ok (some b)

/-- The keyword arguments of the finite-width optimizer; `minTree`, `slices`, `minSlices` are the private ones. -/
structure FwKw (ι σ : Type) where
  sliceUpdate : String
  maxNew : ℕ
  skip : Option (List ι)
  seed : σ
  dis : Bool
  extra : Bool
  minTree : Option (PyTree ι)
  slices : Option (Finset ι)
  minSlices : Option (Finset ι)

/-- finite_width/optimizer.py:111-133: the slices as bitsets, the C++ cost model and the C++ constructor. -/
def FwObj.build (g : FwPrng σ P) (log2 : ℕ → W) (enum : Finset ι → List ι) (t : PyTree ι) (m : PyFwCost ι W) (k : FwKw ι σ) (skip : Finset ι) :
    Option (Except PyErr (FwObj ι σ W)) :=
  match optBits t.indsOrder k.slices, optBits t.indsOrder k.minSlices, toBits t.indsOrder skip with
  | .ok sl, .ok msl, some sk =>
    match m.core enum t.indsOrder with
    | .error e => some (.error e)
    | .ok c => match c.widthModel log2 t.core.dims m.maxWidth with
      | none => some (.error .valueError)
      | some w =>
        match FwOpt.make g (c.model t.core.dims) w t.core k.maxNew k.seed k.dis (if skip = ∅ then none else some sk) (k.minTree.map PyTree.core) sl msl with
        | none => none
        | some (.error _) => some (.error .valueError)
        | some (.ok o) => some (.ok ⟨m, c, w, ⟨o, t.cache, skip⟩⟩)
  | _, _, _ => some (.error .valueError)

/-- finite_width/optimizer.py:54-133 `__init__`. -/
def FwObj.init (B : Build) (g : FwPrng σ P) (log2 : ℕ → W) (enum : Finset ι → List ι) (t : PyTree ι) (cm : ModelArg ι W) (k : FwKw ι σ) :
    Option (Except PyErr (FwObj ι σ W)) :=
  match cm with
  | .finite m =>
    if k.extra then some (.error .typeError)                                            -- 74-75
    else if k.sliceUpdate ≠ "greedy" then some (.error .notImplemented)                 -- 79-80
    else if m.costType ∉ B.costTypes ∨ m.widthType ∉ B.widthTypes then some (.error .attributeError)
    else
      let skip := (k.skip.getD []).toFinset
      if ¬ skip ⊆ t.indsOrder.toFinset then some (.error .valueError)                   -- 98-99
      else match skipTooWide log2 enum m t skip (List.range t.core.tree.size) with
        | .error e => some (.error e)
        | .ok true => some (.error .valueError)                                         -- 104-109
        | .ok false => FwObj.build g log2 enum t m k skip
  | .finiteBase =>
    if k.extra then some (.error .typeError)
    else if k.sliceUpdate ≠ "greedy" then some (.error .notImplemented)
    else some (.error .attributeError)
  | _ => some (.error .notImplemented)                                                  -- 67-68

/-- finite_width/optimizer.py:314-330 `update`. -/
def FwObj.update (g : FwPrng σ P) (accept : ProbKind β → ℤ → ℤ → P) (o : FwObj ι σ W) (p : Option (ProbObj β)) (updateSlices : Bool) :
    Except FwErr (FwObj ι σ W × Option PyErr) :=
  match p with
  | none => .ok (o, some .typeError)
  | some p =>
    if p.costType ≠ o.cmodel.costType then .ok (o, some .typeError)
    else match o.opt.core.update g (o.core.model o.opt.core.inf.ctree.dims) o.wm (accept p.kind) updateSlices with
      | .error e => .error e
      | .ok c => .ok ({ o with opt := { o.opt with core := c } }, none)

/-- A program that calls `update` again and again, going on after exceptions. -/
def FwObj.session (g : FwPrng σ P) (accept : ProbKind β → ℤ → ℤ → P) (o : FwObj ι σ W) : List (Option (ProbObj β) × Bool) → Except FwErr (FwObj ι σ W)
  | [] => .ok o
  | p :: ps => match o.update g accept p.1 p.2 with
    | .error e => .error e
    | .ok (o', _) => o'.session g accept ps

/-- finite_width/optimizer.py:145-154 `ctree`. -/
def FwObj.ctree (o : FwObj ι σ W) : Except PyErr (PyTree ι) := getCtree o.opt.cache o.opt.core.inf.ctree

/-- finite_width/optimizer.py:156-166 `min_ctree`. -/
def FwObj.minCtree (o : FwObj ι σ W) : Except PyErr (PyTree ι) := getCtree o.opt.cache o.opt.core.inf.minCtree

/-- finite_width/optimizer.py:216-225 `total_cost`. -/
def FwObj.totalCost (o : FwObj ι σ W) : ℚ := shownCost (o.cmodel.costType == "float1024") o.opt.core.inf.totalCost

/-- finite_width/optimizer.py:227-236 `min_total_cost`. -/
def FwObj.minTotalCost (o : FwObj ι σ W) : ℚ := shownCost (o.cmodel.costType == "float1024") o.opt.core.inf.minTotal

/-- finite_width/optimizer.py:264-276 `slices`; `none` is an `IndexError`. -/
def FwObj.slices (o : FwObj ι σ W) : Option (Finset ι) := ofBits o.opt.cache.indsOrder o.opt.core.inf.ctree.nInds o.opt.core.slices

/-- finite_width/optimizer.py:278-290 `min_slices`. -/
def FwObj.minSlices (o : FwObj ι σ W) : Option (Finset ι) := ofBits o.opt.cache.indsOrder o.opt.core.inf.ctree.nInds o.opt.core.minSlices

/-- finite_width/optimizer.py:179-189 `skip_slices`. -/
def FwObj.skipSlices (o : FwObj ι σ W) : Finset ι := o.opt.skip

end
end TNCO
