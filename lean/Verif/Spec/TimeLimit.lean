import Verif.Model.Anneal

/-!
# What a run returns when it makes no further updates

The time limit of the apps (`timeout`, `tnco/parallel.py:233-239`) sets a flag for each run. The definitions here say
what should come of a run from then on: no update is made any more, and what is left of `core_` is carried out.
-/

namespace TNCO
variable {σ κ ρ V : Type}

/-- The result of one path without any update. `none`: a call does not return. -/
def Anneal.asDrawn (A : Anneal σ κ ρ V) (seed : ℕ) : List (ℕ × ℕ) → Option (Except PyErr κ)
  | [] => some (.ok A.trivial)
  | s :: p =>
    match A.make seed (s :: p) with
    | none => none
    | some (.error e) => some (.error e)
    | some (.ok o) => A.finish o

/-- The results of the paths which are left, without any update, after those which are done. -/
def Anneal.wrapPaths (A : Anneal σ κ ρ V) (seed : ℕ) : List (List (ℕ × ℕ)) → List κ → Option (Except PyErr ρ)
  | [], done => some (A.total done)
  | p :: todo, done =>
    match A.asDrawn seed p with
    | none => none
    | some (.error e) => some (.error e)
    | some (.ok k) => A.wrapPaths seed todo (done ++ [k])

/-- What a run returns from a state on if it makes no further update. -/
def Anneal.wrapUp (A : Anneal σ κ ρ V) : AState σ κ → Option (Except PyErr ρ)
  | .start seed =>
    match A.paths seed with
    | none => none
    | some (.error e) => some (.error e)
    | some (.ok ps) => A.wrapPaths seed ps []
  | .comps seed todo done => A.wrapPaths seed todo done
  | .loop seed todo done _ _ o =>
    match A.finish o with
    | none => none
    | some (.error e) => some (.error e)
    | some (.ok k) => A.wrapPaths seed todo (done ++ [k])

/-- The same for a call of `core_` with this seed, which may not have begun, or may be over. -/
def Anneal.lateResult (A : Anneal σ κ ρ V) (seed : ℕ) : Task (AState σ κ) ρ PyErr → Option (Except PyErr ρ)
  | .pending => A.wrapUp (.start seed)
  | .running s => A.wrapUp s
  | .returned r => some (.ok r)
  | .finished r => some (.ok r)
  | .raised e => some (.error e)

/-- The arguments of the calls of `core_`: one seed each. -/
def seedRows (seeds : List ℕ) : List (List ℕ × List (String × ℕ)) := seeds.map fun s => ([], [("seed", s)])

/-- The workers, the timer and the shared memory of a call of `optimize` after the schedule `sched`. -/
def annealWorld (A : Anneal σ κ ρ V) (betas : List ℚ) (sized : Bool) (nSteps : Option ℕ) (ratio : ℕ → ℕ → V) (W : ParEnv V) (nJobs : ℤ) (seeds : List ℕ)
    (sched : List Event) : World ℕ V (AState σ κ) ρ PyErr :=
  runSched (annealCore A betas sized nSteps ratio) (!(decide (nJobs ≠ 1) && W.joblib)) (seedRows seeds) sched
    (World.init W.zero seeds.length ["log2_total_cost"])

end TNCO
