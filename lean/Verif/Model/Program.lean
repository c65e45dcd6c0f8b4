import Verif.Model.LoadText
import Verif.Model.LoadNet
import Verif.Model.Anneal
import Verif.Model.Json
import Verif.Model.AppIO

/-!
# The program: from the text of a tensor network to the output

`tnco/app/cli.py`, `BaseOptimizer` and `Optimizer` of `tnco/app/app.py` (707-870), and `optimize` of the two apps from the first line to the last. `Fire` is not
modelled: the arguments of `Main` and of `optimize` are given. Simplifications: formats of texts other than the list of indices are a parameter (and so are, in it, the names
of indices: they are numbers here); the seeds that `rng.choices` draws are an argument, as in `Anneal.lean`; `str(Decimal)` (for which see
`CostText.lean`) and running times are parameters;
arrays that come from other formats have integer entries; time between the check of the options and the output is modelled by two states of the file system.
-/

namespace TNCO

/-! ## `tnco/app/cli.py` -/

/-- `signature(Optimizer).parameters` (app.py:789-802). -/
def optimizerParams : List String :=
  ["method", "max_width", "n_jobs", "width_type", "cost_type", "output_format", "output_filename", "output_compression", "overwrite_output_file", "atol", "dtype",
    "backend", "seed", "verbose"]

/-- cli.py:55-67 `Main.__init__`: the arguments of `Optimizer`; `none` is `None`. -/
def mainParams {V : Type} (json : V) (args : List (Option V)) : Except PyErr (List (String × Option V)) :=
  match dget (optimizerParams.zip args) "output_format" with
  | none => .error .keyError
  | some none => .ok (dset (optimizerParams.zip args) "output_format" (some json))
  | some (some _) => .ok (optimizerParams.zip args)

/-! ## Loading a text -/

/-- Tags of a tensor, as a dictionary. -/
abbrev TagsJ := List (KeyJ × PyJ)

/-- `'name'` -/
def keyName : List ℕ := [110, 97, 109, 101]
/-- `'fuse_path'` -/
def keyFusePath : List ℕ := [102, 117, 115, 101, 95, 112, 97, 116, 104]

/-- app.py:474-478: the names of the tensors, in order. -/
def tensorNames (rows : List (ℕ × List (List ℕ))) (outTok sparseTok : List ℕ) : List (List ℕ) :=
  match readInds (rows.zipIdx.map fun r => (r.2, r.1.1, r.1.2)) outTok sparseTok with
  | .error _ => []                       -- not reached: `loadRows` has raised
  | .ok (ts, _) => ts.map Prod.fst

/-- app.py:479-486: the `TensorNetwork` of the rows; the tags of a tensor are `dict(name=name)`. -/
def rowsNet (N : NetworkRec ℕ) (names : List (List ℕ)) : ArrNet ℕ ℤ TagsJ where
  tsInds := N.tsInds
  arrays := N.tensors.map fun _ => none
  tsTags := names.map fun n => some (.leaf [(.str keyName, .str n)])
  dims := dget N.dims
  output := N.output
  sparse := N.sparse
  hyperMap := none
  fusePath := none

section
variable {σ W : Type} [Zero W] [Add W] [LT W] [DecidableLT W]

/-- app.py:471-486, then 308-416: `load_tn` of a list of rows. -/
def loadRowsNet (A : LoadNetArgs ℕ σ W) (outTok sparseTok : List ℕ) (rows : List (ℕ × List (List ℕ))) : Option (Except PyErr (ArrNet ℕ ℤ TagsJ)) :=
  match loadRows rows outTok sparseTok with
  | .error e => some (.error e)
  | .ok N => loadNet A (rowsNet N (tensorNames rows outTok sparseTok))

/-- app.py:419-486: `load_tn` of a text; `other` is what it does with the other formats. -/
def loadText (digit : ℕ → Option ℕ) (upper : ℕ → List ℕ) (other : TextKind → Option (Except PyErr (ArrNet ℕ ℤ TagsJ))) (A : LoadNetArgs ℕ σ W)
    (outTok sparseTok : List ℕ) (s : List ℕ) : Option (Except PyErr (ArrNet ℕ ℤ TagsJ)) :=
  match textKind digit upper s with
  | .error e => some (.error e)
  | .ok (.inds rows) => loadRowsNet A outTok sparseTok rows
  | .ok k => other k

end

/-! ## The network for the optimizer and for the output -/

section
variable {ι K T : Type} [DecidableEq ι]

/-- What the apps use of a network: `ts_inds`, `dims`, `output_inds`, `sparse_inds` (infinite_memory/sa.py:156, 169, 181-184). -/
def ArrNet.toRec (N : ArrNet ι K T) : NetworkRec ι where
  tensors := N.tsInds.map fun xs => ⟨xs, xs.map fun x => (N.dims x).getD 0, none⟩
  output := N.output
  sparse := N.sparse
  dims := (uniqueEverseen N.tsInds.flatten).filterMap fun x => (N.dims x).map fun d => (x, d)

end

/-- app.py:395-403: the tags, as a dictionary: `dict(x=..., y=...)` for a contraction. -/
def tagsJ : TagTree TagsJ → TagsJ
  | .leaf m => m
  | .pair x y => [(.str [120], .dict (tagsJ x)), (.str [121], .dict (tagsJ y))]

/-- app.py:411-416, for the encoder of tn.py:32-66: the tags that are `None` are `{}`. -/
def ArrNet.toJ (enum : Finset ℕ → List ℕ) (N : ArrNet ℕ ℤ TagsJ) : NetworkJ where
  tensors := (N.tsInds.zip (N.arrays.zip N.tsTags)).map fun t =>
    ⟨t.1.map fun x : ℕ => .int x, t.1.map fun x => (N.dims x).getD 0, t.2.1.map fun a => ⟨a.shape, fun k => .int (a.data k)⟩, (t.2.2.map tagsJ).getD []⟩
  output := (enum N.output).map fun x : ℕ => .int x
  sparse := (enum N.sparse).map fun x : ℕ => .int x
  tags :=
    match N.fusePath with
    | none => []
    | some p => [(.str keyFusePath, pathJ p)]

/-- infinite_memory/sa.py:215, finite_width/sa.py:239: the sum of nothing but `0`s is `0`, otherwise a `Decimal`. -/
def costJ (decimal : ℚ → List ℕ) (paths : List (List (ℕ × ℕ))) (c : ℚ) : PyJ := if paths.all List.isEmpty then .int 0 else .decimal (decimal c)

/-- infinite_memory/sa.py:175, 210: the cost of a part. -/
def partCostJ (decimal : ℚ → List ℕ) (p : List (ℕ × ℕ)) (c : ℚ) : PyJ := if p.isEmpty then .int 0 else .decimal (decimal c)

/-- infinite_memory/sa.py:229 -/
def infResultJ (part decimal : ℚ → List ℕ) (time : PyJ) (r : InfResultOf ℚ) : ResultJ where
  cost := costJ decimal r.paths r.cost
  runtime := time
  path := r.path
  disconnectedCosts := List.zipWith (partCostJ part) r.paths r.costs
  disconnectedPaths := r.paths
  finite := none

/-- finite_width/sa.py:261 -/
def fwResultJ (part decimal : ℚ → List ℕ) (enum : Finset ℕ → List ℕ) (time : PyJ) (r : FwResultOf ℚ ℕ) : ResultJ where
  cost := costJ decimal r.paths r.cost
  runtime := time
  path := r.path
  disconnectedCosts := List.zipWith (partCostJ part) r.paths r.costs
  disconnectedPaths := r.paths
  finite := some (r.slicesList.map fun s => (enum s).map fun x : ℕ => .int x, (enum r.slices).map fun x : ℕ => .int x)

/-! ## `Optimizer(...).optimize(...)` -/

/-- Where an exception comes from: `import_module` (app.py:866), `__post_init__` (786), `_load_tn` (sa.py:131), the search, `_dump_results` (sa.py:252). -/
inductive ProgErr where
  | noModule
  | options (e : AppErr)
  | load (e : PyErr)
  | search (e : ParErr PyErr)
  | write (e : AppErr)
deriving DecidableEq

/-- app.py:781-786, then infinite_memory/sa.py:131-252 or finite_width/sa.py:149-284: `before` and `after` are the surroundings of `dump_results` when the
optimizer is made, and at the end. The first call has `None` for the network and the results, which it does not look at. -/
def runApp {ρ : Type} (before after : DumpEnv NetworkJ ResultJ) (dump : DumpArgs) (loaded : Option (Except PyErr (ArrNet ℕ ℤ TagsJ)))
    (search : NetworkRec ℕ → Sys → Sys × Option (Except (ParErr PyErr) (List ρ))) (enum : Finset ℕ → List ℕ) (toJ : ℕ → ρ → ResultJ) (sys : Sys) :
    Sys × Option (Except ProgErr (DumpOut NetworkJ ResultJ)) :=
  match dumpResults before { dump with checkOnly := true, extra := false } ⟨[], [], [], []⟩ [] with
  | .error e => (sys, some (.error (.options e)))
  | .ok _ =>
    match loaded with
    | none => (sys, none)
    | some (.error e) => (sys, some (.error (.load e)))
    | some (.ok N) =>
      match search N.toRec sys with
      | (sys', none) => (sys', none)
      | (sys', some (.error e)) => (sys', some (.error (.search e)))
      | (sys', some (.ok rs)) =>
        match dumpResults after { dump with checkOnly := false, extra := false } (N.toJ enum) (rs.zipIdx.map fun r => toJ r.2 r.1) with
        | .error e => (sys', some (.error (.write e)))
        | .ok o => (sys', some (.ok o))

/-- The surroundings of the program. -/
structure ProgEnv (σ W τ ρ P V L : Type) where
  digit : ℕ → Option ℕ
  upper : ℕ → List ℕ
  other : TextKind → Option (Except PyErr (ArrNet ℕ ℤ TagsJ))
  /-- `load_tn`, with `fuse` and `decompose_hyper_inds`. -/
  load : LoadNetArgs ℕ σ W
  sa : SaEnv ℕ τ ρ P V
  par : ParEnv V
  log2W : ℕ → L
  width : WidthArg → L
  /-- `str` of the `Decimal` that is the cost of a part -/
  part : ℚ → List ℕ
  /-- `str` of a sum of such `Decimal`s, which may be another text for the same number (`C92_functions`, `C92_violated_text`) -/
  decimal : ℚ → List ℕ
  /-- `runtime_s` of the results, in the order of the output -/
  time : ℕ → PyJ
  before : DumpEnv NetworkJ ResultJ
  after : DumpEnv NetworkJ ResultJ

/-- The arguments of `Optimizer` and `optimize`; `fixed` says whether `cost_type` is `float1024`. -/
structure ProgArgs where
  method : List ℕ
  maxWidth : WidthArg
  nJobs : ℤ
  fixed : Bool
  dump : DumpArgs
  outTok : List ℕ
  sparseTok : List ℕ
  betas : Betas
  nSteps : Option ℚ
  nProjs : Option ℤ
  updateSlices : ℤ
  seeds : List ℕ

/-- `'sa'` -/
def saText : List ℕ := [115, 97]

variable {σ W τ ρ P V L : Type} [Zero W] [Add W] [LT W] [DecidableLT W] [LinearOrder P] [AddCommGroup L] [LinearOrder L]

/-- app.py:848-870 `Optimizer(...)`, and `optimize(text, ...)`: there is one method. -/
def program (E : ProgEnv σ W τ ρ P V L) (a : ProgArgs) (text : List ℕ) (sched : List Event) (sys : Sys) :
    Sys × Option (Except ProgErr (DumpOut NetworkJ ResultJ)) :=
  if a.method ≠ saText then (sys, some (.error .noModule))
  else if finiteWidthModule a.maxWidth then
    runApp E.before E.after a.dump (loadText E.digit E.upper E.other E.load a.outTok a.sparseTok text)
      (fun N sys => optimizeFwWith (costPrinter a.fixed) E.sa E.par N E.log2W (E.width a.maxWidth) a.betas a.nSteps a.nProjs a.updateSlices a.nJobs a.seeds sched sys)
      E.load.enum (fun k r => fwResultJ E.part E.decimal E.load.enum (E.time k) r) sys
  else
    runApp E.before E.after a.dump (loadText E.digit E.upper E.other E.load a.outTok a.sparseTok text)
      (fun N sys => optimizeInfWith (costPrinter a.fixed) E.sa E.par N a.betas a.nSteps a.nProjs a.nJobs a.seeds sched sys)
      E.load.enum (fun k r => infResultJ E.part E.decimal (E.time k) r) sys

end TNCO
