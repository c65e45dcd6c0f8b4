import Verif.Model.Anneal

/-!
# Several calls of `optimize` on one optimizer

`BaseOptimizer.__post_init__` (app.py:781-783) makes one generator for all calls; every call draws the seeds of its runs from it
(infinite_memory/sa.py:134, 232; finite_width/sa.py:152, 264). `random` is `Random.random`; `rng.choices(range(2**32), k=n)` is
`[population[floor(random() * 2**32)] for _ in range(n)]`, where the product is exact (53 bits times a power of two). A negative `n_runs` gives no seeds.
The network is the one that `load_tn` returned: `_load_tn` has its own generator, made of the seed in each call (app.py:763-770).
-/

namespace TNCO

variable {ι τ σ P V γ : Type} [DecidableEq ι] [LinearOrder P]

/-- `rng.choices(range(size), k=k)` -/
def choices (random : γ → ℚ × γ) (size : ℕ) : ℕ → γ → List ℕ × γ
  | 0, s => ([], s)
  | k + 1, s => (((random s).1 * size).floor.toNat :: (choices random size k (random s).2).1, (choices random size k (random s).2).2)

/-- What a call leaves behind: the state of the generator, that of the system, and what the call gives. -/
structure CallEnd (γ ρ : Type) where
  rng : γ
  sys : Sys
  value : Option (Except (ParErr PyErr) ρ)

/-- infinite_memory/sa.py:96-252 `optimize` of an optimizer whose generator has the state `s`; the checks of the arguments come before the
draws. -/
def callInf {C : Type} [LinearOrder C] (pr : Printer C) (random : γ → ℚ × γ) (E : SaEnv ι τ σ P V) (W : ParEnv V) (N : NetworkRec ι) (betas : Betas)
    (nSteps : Option ℚ) (nProjs : Option ℤ) (nJobs : ℤ) (nRuns : ℤ) (sched : List Event) (s : γ) (sys : Sys) : CallEnd γ (List (InfResultOf C)) :=
  match checkSteps nSteps with
  | .error e => ⟨s, sys, some (.error (.lib e))⟩
  | .ok n =>
    match expandBetas betas n with
    | .error e => ⟨s, sys, some (.error (.lib e))⟩
    | .ok _ =>
      match PyCM.make (some N.sparse) nProjs with
      | .error e => ⟨s, sys, some (.error (.lib e))⟩
      | .ok _ =>
        ⟨(choices random (2 ^ 32) nRuns.toNat s).2,
          (optimizeInfWith pr E W N betas nSteps nProjs nJobs (choices random (2 ^ 32) nRuns.toNat s).1 sched sys).1,
          (optimizeInfWith pr E W N betas nSteps nProjs nJobs (choices random (2 ^ 32) nRuns.toNat s).1 sched sys).2⟩

/-- finite_width/sa.py:112-284 `optimize`, in the same way. -/
def callFw {W C : Type} [AddCommGroup W] [LinearOrder W] [LinearOrder C] (pr : Printer C) (random : γ → ℚ × γ) (E : SaEnv ι τ σ P V) (Wd : ParEnv V) (N : NetworkRec ι)
    (log2W : ℕ → W) (maxWidth : W) (betas : Betas) (nSteps : Option ℚ) (nProjs : Option ℤ) (us : ℤ) (nJobs : ℤ) (nRuns : ℤ) (sched : List Event) (s : γ)
    (sys : Sys) : CallEnd γ (List (FwResultOf C ι)) :=
  match checkSteps nSteps with
  | .error e => ⟨s, sys, some (.error (.lib e))⟩
  | .ok n =>
    match expandBetas betas n with
    | .error e => ⟨s, sys, some (.error (.lib e))⟩
    | .ok _ =>
      if maxWidth < 0 then ⟨s, sys, some (.error (.lib .valueError))⟩
      else
        match PyCM.make (some N.sparse) nProjs with
        | .error e => ⟨s, sys, some (.error (.lib e))⟩
        | .ok _ =>
          ⟨(choices random (2 ^ 32) nRuns.toNat s).2,
            (optimizeFwWith pr E Wd N log2W maxWidth betas nSteps nProjs us nJobs (choices random (2 ^ 32) nRuns.toNat s).1 sched sys).1,
            (optimizeFwWith pr E Wd N log2W maxWidth betas nSteps nProjs us nJobs (choices random (2 ^ 32) nRuns.toNat s).1 sched sys).2⟩

end TNCO
