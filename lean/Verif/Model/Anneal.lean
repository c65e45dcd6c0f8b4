import Verif.Model.RandomPath
import Verif.Model.Pickle
import Verif.Model.Cost
import Verif.Model.Width
import Verif.Model.Parallel
import Verif.Model.Report
import Verif.Model.TensorNetwork
import Mathlib.Data.Rat.Floor

/-!
# Simulated annealing: `tnco/app/infinite_memory/sa.py`, `tnco/app/finite_width/sa.py`

Also the Python cost models (`tnco/optimize/{infinite_memory,finite_width}/cost_model.py`) as far as
the apps use them. One run (`core_` in both files) is a state machine for `parallel`
(`tnco/parallel.py`). How costs are reported is a parameter (`Printer`): the apps use `costPrinter`, and `exactPrinter` is there for comparison. Simplifications: costs, widths and inverse temperatures are exact numbers;
running times are not modelled; the seeds that `rng.choices` draws are an argument; a generator passed as `betas` is taken
to be usable in every run.
-/

namespace TNCO

/-! ## Parameters -/

/-- The argument `betas`: a tuple of two numbers, another sequence, or an iterable without length. -/
inductive Betas where
  | pair (b0 b1 : ℚ)
  | sized (l : List ℚ)
  | unsized (l : List ℚ)

/-- `more_itertools.numeric_range(start, stop, step)` with exact numbers and `step ≠ 0`: the length is the quotient of the
distance by the step, rounded up. -/
def numericRange (start stop step : ℚ) : List ℚ :=
  let d := if 0 < step then stop - start else start - stop
  let st := if 0 < step then step else -step
  let len := if d ≤ 0 then 0 else (d / st).floor.toNat + (if d / st = (d / st).floor then 0 else 1)
  (List.range len).map fun k : ℕ => start + k * step

/-- sa.py:136-140 (infinite memory), 154-158 (finite width): `n_steps`. -/
def checkSteps : Option ℚ → Except PyErr (Option ℕ)
  | none => .ok none
  | some q => if (q.floor : ℚ) ≠ q ∨ q ≤ 0 then .error .valueError else .ok (some q.floor.toNat)

/-- sa.py:142-152 (infinite memory), 160-170 (finite width). The result is the list of inverse temperatures and whether it has a length. -/
def expandBetas (betas : Betas) (nSteps : Option ℕ) : Except PyErr (List ℚ × Bool) :=
  match betas with
  | .pair b0 b1 =>
    match nSteps with
    | none => .error .valueError
    | some n => if b0 = b1 then .error .valueError else .ok (numericRange b0 b1 ((b1 - b0) / n), true)
  | .sized l => .ok (l, true)
  | .unsized l => .ok (l, false)

/-- `SimpleCostModel`: the sparse indices and the number of projections. -/
structure PyCM (ι : Type) [DecidableEq ι] where
  sparse : Option (Finset ι)
  nProjs : Option ℤ

section
variable {ι : Type} [DecidableEq ι]

/-- infinite_memory/cost_model.py:78-92, finite_width/cost_model.py:98-114 (the part both have): `n_projs` is an
`int`. -/
def PyCM.make (sparse : Option (Finset ι)) (nProjs : Option ℤ) : Except PyErr (PyCM ι) :=
  if (match nProjs with | none => false | some n => decide (n < 1)) then .error .valueError
  else if sparse = none ∧ nProjs ≠ none then .error .valueError
  else if sparse.getD ∅ ≠ ∅ ∧ nProjs = none then .error .valueError
  else .ok ⟨sparse, nProjs⟩

/-- infinite_memory/cost_model.py:185-207 `__get_core__`, with the dimensions that every call receives. -/
def PyCM.core (cm : PyCM ι) (order : List ι) (dims : Dims) : Except PyErr (CostModel ℤ) :=
  let sp := cm.sparse.getD ∅
  if sp = ∅ then .ok (simpleModel dims)
  else if ¬ sp ⊆ order.toFinset then .error .valueError
  else
    match sparseModel (sp.image order.idxOf) (cm.nProjs.getD 0).toNat dims with
    | none => .error .valueError
    | some m => .ok m

end

/-! ## One run -/

/-- What the two apps do differently. `none`: the call does not return. -/
structure Anneal (σ κ ρ V : Type) where
  /-- `get_random_contraction_path(ts_inds, merge_paths=False, seed=seed)` -/
  paths : ℕ → Option (Except PyErr (List (List (ℕ × ℕ))))
  /-- The contraction tree of a path and its optimizer. -/
  make : ℕ → List (ℕ × ℕ) → Option (Except PyErr σ)
  /-- The `n`-th update. -/
  update : ℕ → ℚ → σ → Option (Except PyErr σ)
  /-- `log2_min_total_cost` -/
  log2 : σ → V
  /-- What is appended to the results when the loop is over. -/
  finish : σ → Option (Except PyErr κ)
  /-- What is appended to the results for an empty path. -/
  trivial : κ
  /-- The end of `core_`. -/
  total : List κ → Except PyErr ρ

/-- Where a run is: at the beginning; before the next path; in the loop over the temperatures. -/
inductive AState (σ κ : Type) where
  | start (seed : ℕ)
  | comps (seed : ℕ) (todo : List (List (ℕ × ℕ))) (done : List κ)
  | loop (seed : ℕ) (todo : List (List (ℕ × ℕ))) (done : List κ) (n : ℕ) (betas : List ℚ) (opt : σ)

variable {σ κ ρ V : Type}

/-- sa.py:202-204 (infinite memory), 225-227 (finite width): the shared buffers. -/
def writeStatus (i : ℕ) (status log2 : V) (m : Mem V) : Mem V :=
  { m with
    status := m.status.set i status
    bufs := m.bufs.map fun b => if b.1 = "log2_total_cost" then (b.1, b.2.set i log2) else b }

/-- sa.py:206-212 (infinite memory), 229-236 (finite width): after the loop. -/
def annealFinish (A : Anneal σ κ ρ V) (seed : ℕ) (todo : List (List (ℕ × ℕ))) (done : List κ) (n : ℕ) (betas : List ℚ) (o : σ) (m : Mem V) :
    CoreStep (AState σ κ) ρ PyErr V :=
  match A.finish o with
  | none => .next (.loop seed todo done n betas o) m
  | some (.error e) => .raise e m
  | some (.ok k) => .next (.comps seed todo (done ++ [k])) m

/-- One step of `core_`: sa.py:162-229 (infinite memory), 182-261 (finite width). `ratio n k` is `n / k`. A call that does not
return keeps the run where it is. -/
def annealStep (A : Anneal σ κ ρ V) (betas : List ℚ) (sized : Bool) (nSteps : Option ℕ) (ratio : ℕ → ℕ → V) (i : ℕ) :
    AState σ κ → Mem V → CoreStep (AState σ κ) ρ PyErr V
  | .start seed, m =>
    match A.paths seed with
    | none => .next (.start seed) m
    | some (.error e) => .raise e m
    | some (.ok ps) => .next (.comps seed ps []) m
  | .comps _ [] done, m =>
    match A.total done with
    | .error e => .raise e m
    | .ok r => .ret r m
  | .comps seed ([] :: todo) done, m => .next (.comps seed todo (done ++ [A.trivial])) m
  | .comps seed ((s :: p) :: todo) done, m =>
    match A.make seed (s :: p) with
    | none => .next (.comps seed ((s :: p) :: todo) done) m
    | some (.error e) => .raise e m
    | some (.ok o) => .next (.loop seed todo done 0 betas o) m
  | .loop seed todo done n [] o, m => annealFinish A seed todo done n [] o m
  | .loop seed todo done n (b :: bs) o, m =>
    if nSteps = some n ∨ m.stop.getD i false = true then annealFinish A seed todo done n (b :: bs) o m
    else
      match A.update n b o with
      | none => .next (.loop seed todo done n (b :: bs) o) m
      | some (.error e) => .raise e m
      | some (.ok o') =>
        if sized then .next (.loop seed todo done (n + 1) bs o') (writeStatus i (ratio n betas.length) (A.log2 o') m)
        else .raise .typeError m

/-- The core that `Parallel` receives; the only argument is the seed (`seed=seeds`). -/
def annealCore (A : Anneal σ κ ρ V) (betas : List ℚ) (sized : Bool) (nSteps : Option ℕ) (ratio : ℕ → ℕ → V) :
    Core ℕ V (AState σ κ) ρ PyErr where
  start _ kw _ := .start ((dget kw "seed").getD 0)
  step i s m := annealStep A betas sized nSteps ratio i s m

/-! ## Infinite memory -/

section
variable {ι τ σ P V : Type} [DecidableEq ι] [LinearOrder P]

/-- What happens to an exception of an optimizer: C++ `invalid_argument` and `domain_error` become `ValueError`. -/
def ShipErr.toPy {α : Type} : ShipErr → Option (Except PyErr α)
  | .tree e => some (.error e)
  | .make => some (.error .valueError)
  | .index => some (.error .valueError)
  | .noReturn => none

/-- The result of one path: its cost and the best path. -/
structure InfPartOf (C : Type) where
  cost : C
  path : List (ℕ × ℕ)
deriving DecidableEq, Repr

/-- infinite_memory/sa.py:60-76 `ContractionResults` (without the running time). -/
structure InfResultOf (C : Type) where
  cost : C
  path : List (ℕ × ℕ)
  costs : List C
  paths : List (List (ℕ × ℕ))
deriving DecidableEq, Repr

/-- With exact costs. -/
abbrev InfPart := InfPartOf ℤ
abbrev InfResult := InfResultOf ℤ

/-- infinite_memory/sa.py:214-229 -/
def infTotalWith {C : Type} (pr : Printer C) (n : ℕ) (done : List (InfPartOf C)) : Except PyErr (InfResultOf C) :=
  let paths := if done.isEmpty then List.replicate n [] else done.map InfPartOf.path
  match mergePaths n paths true with
  | .error e => .error e
  | .ok path => .ok ⟨pr.total (done.map InfPartOf.cost), path, done.map InfPartOf.cost, paths⟩

/-- The indices of the tensors of a network. -/
def NetworkRec.tsInds (N : NetworkRec ι) : List (List ι) := N.tensors.map TensorRec.inds

/-- sa.py:180-185 (infinite memory), 203-208 (finite width): the contraction tree of a path. -/
def NetworkRec.tree (enum : Finset ι → List ι) (N : NetworkRec ι) (path : List (ℕ × ℕ)) : Except PyErr (PyTree ι) :=
  PyTree.ofPath enum path N.tsInds (.dict (dget N.dims)) (some (enum N.output)) true

/-- The outside world: Python's random numbers, the order of sets, the C++ generator, the acceptance probability, `log2`. -/
structure SaEnv (ι τ σ P V : Type) where
  rng : PyRng τ
  rngSeed : ℕ → τ
  enumN : Finset ℕ → List ℕ
  enum : Finset ι → List ι
  prng : FwPrng σ P
  prngSeed : ℕ → σ
  prob : ℚ → ℤ → ℤ → P
  log2 : ℤ → V
  ratio : ℕ → ℕ → V
  /-- Bound for the loop of `get_random_contraction_path`. -/
  fuel : ℕ

/-- infinite_memory/sa.py:162-229. The state has the optimizer and its cost model. -/
def infAnnealWith {C : Type} (pr : Printer C) (E : SaEnv ι τ σ P V) (N : NetworkRec ι) (cm : PyCM ι) :
    Anneal (PyInf ι σ ℤ × CostModel ℤ) (InfPartOf C) (InfResultOf C) V where
  paths seed := randomPaths E.rng E.enumN E.fuel (E.rngSeed seed) N.tsInds
  make seed path :=
    match N.tree E.enum path with
    | .error e => some (.error e)
    | .ok t =>
      match cm.core t.indsOrder t.core.dims with
      | .error e => some (.error e)
      | .ok m =>
        match PyInf.make (fun _ _ => m) t (E.prngSeed seed) false none with
        | .error e => e.toPy
        | .ok o => some (.ok (o, m))
  update _ beta o := (o.1.core.update E.prng.toPrng o.2 (E.prob beta)).map fun c => .ok (⟨c, o.1.cache⟩, o.2)
  log2 o := E.log2 o.1.core.minTotal
  finish o :=
    match getCtree o.1.cache o.1.core.minCtree with
    | .error e => some (.error e)
    | .ok t => t.path.map fun p => .ok ⟨pr.shown o.1.core.minTotal, p⟩
  trivial := ⟨pr.zero, []⟩
  total := infTotalWith pr N.tensors.length

/-- With exact costs. -/
abbrev infAnneal (E : SaEnv ι τ σ P V) (N : NetworkRec ι) (cm : PyCM ι) : Anneal (PyInf ι σ ℤ × CostModel ℤ) InfPart InfResult V :=
  infAnnealWith exactPrinter E N cm

/-- `sorted(results)`: a stable sort with `<` of the costs (app.py:76-80). -/
def sortResults {ρ C : Type} [LinearOrder C] (cost : ρ → C) (l : List ρ) : List ρ := l.insertionSort fun a b => cost a ≤ cost b

/-- The arguments of `Parallel` that the apps do not choose. -/
structure ParEnv (V : Type) where
  cd : Codec V
  alloc : ℕ → ℕ
  zero : V
  joblib : Bool

/-- sa.py:231-252 (infinite memory), 263-284 (finite width): run `Parallel` and sort. -/
def runAnneal {σ κ ρ C : Type} [LinearOrder C] (A : Anneal σ κ ρ V) (cost : ρ → C) (betas : List ℚ) (sized : Bool) (nSteps : Option ℕ) (ratio : ℕ → ℕ → V)
    (W : ParEnv V) (nJobs : ℤ) (seeds : List ℕ) (sched : List Event) (sys : Sys) :
    Sys × Option (Except (ParErr PyErr) (List ρ)) :=
  match parallel (annealCore A betas sized nSteps ratio) W.cd W.alloc W.zero W.joblib nJobs [] [("seed", seeds)]
      [("log2_total_cost", ['f'])] sched sys with
  | (sys, some (.ok rs)) => (sys, some (.ok (sortResults cost rs)))
  | r => r

/-- infinite_memory/sa.py:96-252 `optimize`, from the network on. -/
def optimizeInfWith {C : Type} [LinearOrder C] (pr : Printer C) (E : SaEnv ι τ σ P V) (W : ParEnv V) (N : NetworkRec ι) (betas : Betas) (nSteps : Option ℚ)
    (nProjs : Option ℤ) (nJobs : ℤ) (seeds : List ℕ) (sched : List Event) (sys : Sys) : Sys × Option (Except (ParErr PyErr) (List (InfResultOf C))) :=
  match checkSteps nSteps with
  | .error e => (sys, some (.error (.lib e)))
  | .ok n =>
    match expandBetas betas n with
    | .error e => (sys, some (.error (.lib e)))
    | .ok (bs, sized) =>
      match PyCM.make (some N.sparse) nProjs with
      | .error e => (sys, some (.error (.lib e)))
      | .ok cm => runAnneal (infAnnealWith pr E N cm) InfResultOf.cost bs sized n E.ratio W nJobs seeds sched sys

/-- With exact costs. -/
abbrev optimizeInf (E : SaEnv ι τ σ P V) (W : ParEnv V) (N : NetworkRec ι) (betas : Betas) (nSteps : Option ℚ) (nProjs : Option ℤ)
    (nJobs : ℤ) (seeds : List ℕ) (sched : List Event) (sys : Sys) : Sys × Option (Except (ParErr PyErr) (List InfResult)) :=
  optimizeInfWith exactPrinter E W N betas nSteps nProjs nJobs seeds sched sys

/-! ## Finite width -/

/-- The result of one path. -/
structure FwPartOf (C ι : Type) where
  cost : C
  path : List (ℕ × ℕ)
  slices : Finset ι
deriving DecidableEq

/-- finite_width/sa.py:70-92 `ContractionResults` (without the running time). -/
structure FwResultOf (C ι : Type) where
  cost : C
  path : List (ℕ × ℕ)
  costs : List C
  paths : List (List (ℕ × ℕ))
  slicesList : List (Finset ι)
  slices : Finset ι
deriving DecidableEq

/-- With exact costs. -/
abbrev FwPart (ι : Type) := FwPartOf ℤ ι
abbrev FwResult (ι : Type) := FwResultOf ℤ ι

/-- finite_width/sa.py:238-261; `functools.reduce` of nothing is a `TypeError`. -/
def fwTotalWith {C : Type} (pr : Printer C) (n : ℕ) (done : List (FwPartOf C ι)) : Except PyErr (FwResultOf C ι) :=
  let paths := if done.isEmpty then List.replicate n [] else done.map FwPartOf.path
  let sls := if done.isEmpty then List.replicate n ∅ else done.map FwPartOf.slices
  match mergePaths n paths true with
  | .error e => .error e
  | .ok path =>
    match sls with
    | [] => .error .typeError
    | s :: ss => .ok ⟨pr.total (done.map FwPartOf.cost), path, done.map FwPartOf.cost, paths, sls, ss.foldl (· ∪ ·) s⟩

variable {W : Type} [AddCommGroup W] [LinearOrder W]

/-- The width part of `__get_core__` (finite_width/cost_model.py:339-362). -/
def PyCM.widthCore (cm : PyCM ι) (log2 : ℕ → W) (maxWidth : W) (order : List ι) (dims : Dims) : Except PyErr (WidthModel W) :=
  let sp := cm.sparse.getD ∅
  if sp = ∅ then
    match simpleWidthModel log2 dims maxWidth with
    | none => .error .valueError
    | some m => .ok m
  else if ¬ sp ⊆ order.toFinset then .error .valueError
  else
    match sparseWidthModel log2 dims maxWidth (sp.image order.idxOf) (cm.nProjs.getD 0).toNat with
    | none => .error .valueError
    | some m => .ok m

/-- The optimizer with its cost and width models. -/
structure FwRun (ι σ W : Type) where
  opt : PyFw ι σ ℤ W
  cm : CostModel ℤ
  wm : WidthModel W

/-- `opt.update(prob, update_slices=(n % update_slices == 0))` for positive or negative `update_slices`. -/
def sliceTurn (n : ℕ) (updateSlices : ℤ) : Bool := decide ((n : ℤ) % updateSlices = 0)

/-- finite_width/sa.py:182-261. `log2W` is `log2` for widths. -/
def fwAnnealWith {C : Type} (pr : Printer C) (E : SaEnv ι τ σ P V) (N : NetworkRec ι) (cm : PyCM ι) (log2W : ℕ → W) (maxWidth : W) (updateSlices : ℤ) :
    Anneal (FwRun ι σ W) (FwPartOf C ι) (FwResultOf C ι) V where
  paths seed := randomPaths E.rng E.enumN E.fuel (E.rngSeed seed) N.tsInds
  make seed path :=
    match N.tree E.enum path with
    | .error e => some (.error e)
    | .ok t =>
      match cm.core t.indsOrder t.core.dims, cm.widthCore log2W maxWidth t.indsOrder t.core.dims with
      | .ok m, .ok wm =>
        match PyFw.make E.prng (fun _ _ => m) (fun _ _ => wm) t 0 (E.prngSeed seed) false ∅ none none none with
        | .error e => e.toPy
        | .ok o => some (.ok ⟨o, m, wm⟩)
      | .error e, _ => some (.error e)
      | _, .error e => some (.error e)
  update n beta o :=
    if updateSlices = 0 then some (.error .zeroDivision)
    else
      match o.opt.core.update E.prng o.cm o.wm (E.prob beta) (sliceTurn n updateSlices) with
      | .error .noReturn => none
      | .error .divByZero => some (.error .zeroDivision)        -- undefined behaviour
      | .ok c => some (.ok { o with opt := { o.opt with core := c } })
  log2 o := E.log2 o.opt.core.inf.minTotal
  finish o :=
    match getCtree o.opt.cache o.opt.core.inf.minCtree with
    | .error e => some (.error e)
    | .ok t =>
      match ofBits o.opt.cache.indsOrder o.opt.core.inf.ctree.nInds o.opt.core.minSlices with
      | none => some (.error .indexError)
      | some sl => t.path.map fun p => .ok ⟨pr.shown o.opt.core.inf.minTotal, p, sl⟩
  trivial := ⟨pr.zero, [], ∅⟩
  total := fwTotalWith pr N.tensors.length

/-- With exact costs. -/
abbrev fwAnneal (E : SaEnv ι τ σ P V) (N : NetworkRec ι) (cm : PyCM ι) (log2W : ℕ → W) (maxWidth : W) (updateSlices : ℤ) :
    Anneal (FwRun ι σ W) (FwPart ι) (FwResult ι) V :=
  fwAnnealWith exactPrinter E N cm log2W maxWidth updateSlices

/-- finite_width/sa.py:112-284 `optimize`, from the network on. -/
def optimizeFwWith {C : Type} [LinearOrder C] (pr : Printer C) (E : SaEnv ι τ σ P V) (Wd : ParEnv V) (N : NetworkRec ι) (log2W : ℕ → W) (maxWidth : W)
    (betas : Betas) (nSteps : Option ℚ) (nProjs : Option ℤ) (updateSlices : ℤ) (nJobs : ℤ) (seeds : List ℕ) (sched : List Event) (sys : Sys) :
    Sys × Option (Except (ParErr PyErr) (List (FwResultOf C ι))) :=
  match checkSteps nSteps with
  | .error e => (sys, some (.error (.lib e)))
  | .ok n =>
    match expandBetas betas n with
    | .error e => (sys, some (.error (.lib e)))
    | .ok (bs, sized) =>
      if maxWidth < 0 then (sys, some (.error (.lib .valueError)))
      else
        match PyCM.make (some N.sparse) nProjs with
        | .error e => (sys, some (.error (.lib e)))
        | .ok cm => runAnneal (fwAnnealWith pr E N cm log2W maxWidth updateSlices) FwResultOf.cost bs sized n E.ratio Wd nJobs seeds sched sys

/-- With exact costs. -/
abbrev optimizeFw (E : SaEnv ι τ σ P V) (Wd : ParEnv V) (N : NetworkRec ι) (log2W : ℕ → W) (maxWidth : W) (betas : Betas)
    (nSteps : Option ℚ) (nProjs : Option ℤ) (updateSlices : ℤ) (nJobs : ℤ) (seeds : List ℕ) (sched : List Event) (sys : Sys) :
    Sys × Option (Except (ParErr PyErr) (List (FwResult ι))) :=
  optimizeFwWith exactPrinter E Wd N log2W maxWidth betas nSteps nProjs updateSlices nJobs seeds sched sys

end

end TNCO
