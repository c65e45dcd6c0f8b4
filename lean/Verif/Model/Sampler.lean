import Verif.Model.Sampling
import Verif.Model.Anneal
import Verif.Model.LoadNet
import Verif.Model.AppIO

/-!
# The class `Sampler`: `tnco/app/circuit/sampling.py:415-545`

Here `sample` runs with the optimizer of the app. The seeds that the optimizer draws for the call number `n`, and the turns of its workers, are
arguments; so is everything that `Model/Anneal.lean` takes from its environment.
-/

namespace TNCO

section
variable {ι τ ρ P V : Type} [DecidableEq ι] [LinearOrder P]

/-- `map(fts.partial(Tensor, dims=2), ts_inds)` (sampling.py:203-205) -/
def bitTensors : List (List ι) → Except PyErr (List (TensorRec ι))
  | [] => .ok []
  | xs :: inds =>
    match mkTensor xs (.scalar 2) none with
    | .error e => .error e
    | .ok t =>
      match bitTensors inds with
      | .error e => .error e
      | .ok ts => .ok (t :: ts)

/-- sampling.py:203-207: the network without arrays that is optimized. -/
def bitsNetwork (inds : List (List ι)) : Except PyErr (NetworkRec ι) :=
  match bitTensors inds with
  | .error e => .error e
  | .ok ts => mkNetwork (ts.map some) (some []) none

/-- app.py:411-416: what `load_tn` makes of a network without arrays if it neither fuses nor decomposes. -/
def reloadNet (enum : Finset ι → List ι) (N : NetworkRec ι) : Except PyErr (NetworkRec ι) :=
  match tensorRecs (K := Unit) (T := Unit) (dget N.dims) N.tsInds (N.tensors.map fun _ => none) (N.tensors.map fun _ => none) with
  | .error e => .error e
  | .ok ts => mkNetwork (ts.map some) (some (enum N.output)) (some (enum N.sparse))

/-- An exception of a worker is raised again by `Parallel`. -/
def raised : ParErr PyErr → PyErr
  | .lib e => e
  | .task e => e

/-- sampling.py:219 `sorted(res, key=lambda x: x.cost)[0]` -/
def cheapest {C : Type} [LinearOrder C] (rs : List (InfResultOf C)) : Except PyErr (InfResultOf C) :=
  match sortResults InfResultOf.cost rs with
  | [] => .error .indexError
  | r :: _ => .ok r

/-- The parameters of the optimizer of a sampler, and what it uses of its environment. -/
structure SamplerOpts (ι τ ρ P V : Type) where
  sa : SaEnv ι τ ρ P V
  par : ParEnv V
  betas : Betas
  nSteps : Option ℚ
  nProjs : Option ℤ
  nJobs : ℤ
  seeds : ℕ → List ℕ
  turns : ℕ → List (List ι) → List (List Event)
  sys : Sys
  /-- Whether the cost type is `float1024`. -/
  fixed : Bool

/-- The bound for the loop of `get_random_contraction_path` that suffices for the network. -/
def SamplerOpts.env (O : SamplerOpts ι τ ρ P V) (inds : List (List ι)) : SaEnv ι τ ρ P V :=
  { O.sa with fuel := inds.length + inds.flatten.length + 1 }

/-- sampling.py:203-219: the path for the network of call number `n`. `none` if the workers have not finished. -/
def SamplerOpts.optimize (O : SamplerOpts ι τ ρ P V) (n : ℕ) (inds : List (List ι)) : Option (Except PyErr (List (ℕ × ℕ))) :=
  match bitsNetwork inds with
  | .error e => some (.error e)
  | .ok N =>
    match reloadNet O.sa.enum N with
    | .error e => some (.error e)
    | .ok N' =>
      match (optimizeInfWith (costPrinter O.fixed) (O.env inds) O.par N' O.betas O.nSteps O.nProjs O.nJobs (O.seeds n) (O.turns n inds).flatten O.sys).2 with
      | none => none
      | some (.error e) => some (.error (raised e))
      | some (.ok rs) =>
        if N'.tensors = N.tensors ∧ N'.output = N.output ∧ N'.sparse = N.sparse then            -- 216 `assert tn_ == tn`
          match cheapest rs with
          | .error e => some (.error e)
          | .ok r => some (.ok r.path)
        else some (.error .assertionError)

end

variable {Q K R S σ W : Type} [DecidableEq Q] [Field K] [StarRing K] [DecidableEq K] [Field R] [LinearOrder R]
variable {τ ρ P V : Type} [LinearOrder P]

/-- The options of `sample`, with the optimizer of the sampler (sampling.py:529-545). -/
def SampleArgs.using (A : SampleArgs Q K R S σ W) (O : SamplerOpts (Q × Stage) τ ρ P V) : SampleArgs Q K R S σ W :=
  { A with optimize := O.optimize }

/-- sampling.py:454-473 `Sampler.__post_init__`: the seed of the optimizer and the state of `_rng`. -/
def makeSampler {κ : Type} (randrange : κ → ℕ × κ) (start : κ) (maxWidth : WidthArg) : Except PyErr (ℕ × κ) :=
  if finiteWidthModule maxWidth then .error .notImplemented else .ok (randrange start)

/-- The argument `circuit`: a circuit, or what an earlier call has prepared (sampling.py:164, 232-233). -/
inductive SampleInput (Q K : Type) where
  | circuit (gates : List (Gate Q K))
  | state (steps : List (SampleStep Q K)) (qubits : Finset Q)

/-- What `sample` returns (sampling.py:236-237, 369). -/
inductive SampleOutput (Q K R : Type) where
  | counts (r : List (List ℕ × R)) (qubits : List Q)
  | state (steps : List (SampleStep Q K)) (qubits : Finset Q)

/-- sampling.py:240-369, as `SampleOutput` -/
def countsOf {e : Type} : Except e (List (List ℕ × R) × List Q) → Except e (SampleOutput Q K R)
  | .error e => .error e
  | .ok (r, qubits) => .ok (.counts r qubits)

variable [Zero W] [Add W] [LT W] [DecidableLT W]

/-- sampling.py:164-233: the intermediate state. -/
def stateOfInput (A : SampleArgs Q K R S σ W) (input : SampleInput Q K) (order : Option (List Q)) :
    Option (Except PyErr (List (SampleStep Q K) × Finset Q)) :=
  match input with
  | .circuit gates => prepare A gates order
  | .state steps qubits => some (.ok (steps, qubits))

/-- sampling.py:475-545 `Sampler.sample`: the result and the state of `_rng`. `seeded` is `Random(seed)`. -/
def samplerCall {κ μ : Type} (A : SampleArgs Q K R S σ W) (randrange : κ → ℕ × κ) (seeded : ℕ → μ) (random : μ → R × μ) (enumQ : Finset Q → List Q)
    (s : κ) (input : SampleInput Q K) (order : Option (List Q)) (nSamples : ℕ) (normalize stateOnly : Bool) :
    Option (Except PyErr (SampleOutput Q K R)) × κ :=
  (match stateOfInput A input order with
    | none => none
    | some (.error e) => some (.error e)
    | some (.ok (steps, qset)) =>
      if stateOnly then some (.ok (.state steps qset))                                          -- 236-237
      else some (countsOf (sampleFrom random (seeded (randrange s).1) A.sq A.load.enum enumQ steps qset order nSamples normalize)),
    (randrange s).2)

end TNCO
