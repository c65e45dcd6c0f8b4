import Verif.Model.Buffer
import Verif.Model.Dict

/-!
# `Parallel` (`tnco/parallel.py:104-359`)

The core function is a state machine (`Core`): a step reads and writes the
shared memory, and may return or raise.  The workers, the thread of the timer
and the calling process are interleaved by an explicit *schedule*, a list of
events; nothing is assumed about it, so that theorems over all schedules hold
for every number of jobs, every back end of `joblib` and every timeout.

The shared memory is modelled slot by slot; `Props/Buffer.lean` shows that
the slots of `Buffer` are independent.  The system part (`Sys`) records the
segments that are linked and whether the timer is alive, so that leaks are
visible.

Not modelled: `IPython` detection, warnings.  The progress display
(`verbose >= 2`) is in `Model/Display.lean`.
-/

namespace TNCO

/-- The slots of the shared buffers that the core receives: `status`, `stop`
and the buffers asked for by the caller. -/
structure Mem (V : Type) where
  status : List V
  stop : List Bool
  bufs : List (String × List V)

/-- What a step of a worker does: go on, return a result, or raise. -/
inductive CoreStep (σ ρ ε V : Type) where
  | next (s : σ) (m : Mem V)
  | ret (r : ρ) (m : Mem V)
  | raise (e : ε) (m : Mem V)

/-- The function to parallelize.  `start` receives the positional arguments,
the keyword arguments and `idx`. -/
structure Core (A V σ ρ ε : Type) where
  start : List A → List (String × A) → Nat → σ
  step : Nat → σ → Mem V → CoreStep σ ρ ε V

/-- `zip` of any number of lists of positional arguments together with the
list of keyword dictionaries: stops at the shortest
(`tnco/parallel.py:210-214`).  The recursion is over the last list. -/
def zipRows {A : Type} : List (List A) → List (List A)
  | [] => []
  | [xs] => xs.map fun x => [x]
  | xs :: ys :: rest => List.zipWith (· :: ·) xs (zipRows (ys :: rest))

/-- The arguments of every call (`tnco/parallel.py:206-214`). -/
def parallelArgs {A : Type} (args : List (List A)) (kwargs : List (String × List A)) :
    Except PyErr (List (List A × List (String × A))) :=
  if args = [] ∧ kwargs = [] then .error .valueError
  else if kwargs = [] then .ok ((zipRows args).map fun xs => (xs, []))
  else
    let ks := (zipRows (kwargs.map Prod.snd)).map fun vs =>
      (kwargs.map Prod.fst).zip vs
    if args = [] then .ok (ks.map fun d => ([], d))
    else .ok ((zipRows args).zip ks)

/-- The state of one call of `core_` (`tnco/parallel.py:310-318`).
`returned` is the moment between the return of `core` and
`completed[idx] = True`. -/
inductive Task (σ ρ ε : Type) where
  | pending
  | running (s : σ)
  | returned (r : ρ)
  | finished (r : ρ)
  | raised (e : ε)

/-- The thread of the timer (`tnco/parallel.py:233-239`): waiting, about to
set `stop[k]`, or over. -/
inductive TimerSt where
  | armed
  | firing (k : Nat)
  | over
deriving DecidableEq

/-- Workers, timer and memory; only `core_` writes to `completed`.  `calls` records the calls of `core` in the
order in which they start; `failed` the first exception of a worker. -/
structure World (A V σ ρ ε : Type) where
  mem : Mem V
  completed : List Bool
  tasks : List (Task σ ρ ε)
  timer : TimerSt
  calls : List (Nat × List A × List (String × A))
  failed : Option ε

/-- An event of the schedule: worker `i` takes a step, or the timer does. -/
inductive Event where
  | work (i : Nat)
  | tick
deriving DecidableEq

variable {A V σ ρ ε : Type}

/-- `core_` finished its step with the state `t` and the memory `m`. -/
def World.put (w : World A V σ ρ ε) (i : Nat) (t : Task σ ρ ε) (m : Mem V) :
    World A V σ ρ ε :=
  { w with tasks := w.tasks.set i t, mem := m }

def isFinished : Task σ ρ ε → Bool
  | .finished _ => true
  | _ => false

/-- Whether worker `i` may run: with `joblib`, always; sequentially
(`tnco/parallel.py:335-343`), after all the earlier ones have finished. -/
def mayRun (seq : Bool) (w : World A V σ ρ ε) (i : Nat) : Bool :=
  !seq || (w.tasks.take i).all isFinished

/-- One step of worker `i` (`tnco/parallel.py:310-318`). -/
def workStep (core : Core A V σ ρ ε) (rows : List (List A × List (String × A)))
    (i : Nat) (w : World A V σ ρ ε) : World A V σ ρ ε :=
  match w.tasks[i]?, rows[i]? with
  | some .pending, some (xs, d) =>
    { w.put i (.running (core.start xs d i)) w.mem with
      calls := w.calls ++ [(i, xs, d)] }
  | some (.running s), _ =>
    match core.step i s w.mem with
    | .next s' m => w.put i (.running s') m
    | .ret r m => w.put i (.returned r) m
    | .raise e m =>
      { w.put i (.raised e) m with failed := w.failed.or (some e) }
  | some (.returned r), _ =>
    { w.put i (.finished r) w.mem with completed := w.completed.set i true }
  | _, _ => w

/-- One step of the timer: the time is up, or `stop[k]` is set
(`tnco/parallel.py:234-236`). -/
def tickStep (w : World A V σ ρ ε) : World A V σ ρ ε :=
  match w.timer with
  | .armed => { w with timer := .firing 0 }
  | .firing k =>
    if k < w.mem.stop.length then
      { w with
        timer := .firing (k + 1)
        mem := { w.mem with stop := w.mem.stop.set k true } }
    else { w with timer := .over }
  | .over => w

/-- The workers and the timer run according to the schedule.  The first
exception of a worker ends the sequential run; with `joblib`, other workers
may go on for a while. -/
def runSched (core : Core A V σ ρ ε) (seq : Bool)
    (rows : List (List A × List (String × A))) :
    List Event → World A V σ ρ ε → World A V σ ρ ε
  | [], w => w
  | .tick :: es, w => runSched core seq rows es (tickStep w)
  | .work i :: es, w =>
    runSched core seq rows es
      (if mayRun seq w i then workStep core rows i w else w)

/-- The result of a finished task. -/
def taskResult : Task σ ρ ε → Option ρ
  | .finished r => some r
  | _ => none

/-- What the caller gets from the workers: `none` while they are running, the
first exception, or the results in the order of the arguments. -/
def collect (w : World A V σ ρ ε) : Option (Except ε (List ρ)) :=
  match w.failed with
  | some e => some (.error e)
  | none => (w.tasks.mapM taskResult).map .ok

/-- Exceptions of `Parallel`: its own or those of the core. -/
inductive ParErr (ε : Type) where
  | lib (e : PyErr)
  | task (e : ε)
deriving DecidableEq

/-- The resources of the system: the shared-memory segments that exist, the
number of the next one, and how many timers are waiting. -/
structure Sys where
  linked : List Nat
  fresh : Nat
  timers : Nat
deriving DecidableEq

/-- Whether `Buffer.__init__` gets as far as to create the segment
(`tnco/parallel.py:55-76`). -/
def allocates (n : Nat) (dtype : List Char) : Bool :=
  match dtype with
  | [c] => decide (0 < n * (calcsize c).getD 0)
  | _ => false

/-- A new segment. -/
def Sys.link (sys : Sys) : Sys :=
  { sys with linked := sys.linked ++ [sys.fresh], fresh := sys.fresh + 1 }

/-- Creates the buffers one after the other; those created before a failure
stay linked (`tnco/parallel.py:219-231`).  Returns the segments. -/
def makeBuffers (cd : Codec V) (alloc : Nat → Nat) (zero : V) (n : Nat) :
    List (List Char) → Sys → Sys × Except PyErr (List Nat)
  | [], sys => (sys, .ok [])
  | dtype :: ds, sys =>
    match mkBuffer cd alloc (.inl (List.replicate n zero)) dtype with
    | .error e => (if allocates n dtype then sys.link else sys, .error e)
    | .ok _ =>
      match makeBuffers cd alloc zero n ds sys.link with
      | (sys', .error e) => (sys', .error e)
      | (sys', .ok ids) => (sys', .ok (sys.fresh :: ids))

/-- The world when the workers start. -/
def World.init (zero : V) (n : Nat) (bufs : List String) :
    World A V σ ρ ε where
  mem :=
    { status := List.replicate n zero
      stop := List.replicate n false
      bufs := bufs.map fun b => (b, List.replicate n zero) }
  completed := List.replicate n false
  tasks := List.replicate n .pending
  timer := .armed
  calls := []
  failed := none

/-- The keywords `idx`, `status`, `stop`, those of the caller and the names of
the buffers must be different, else the call of `core_` is a `TypeError`
(`tnco/parallel.py:326-331`, `338-343`). -/
def keywordClash (kwargs bufs : List String) : Bool :=
  !decide (["idx", "status", "stop"] ++ kwargs ++ bufs).Nodup

/-- The release of the resources on success (`tnco/parallel.py:349-356`): `ids` are the segments of `status`,
`stop` and `completed` and those in the dictionary of buffers. -/
def Sys.release (sys : Sys) (ids : List Nat) : Sys :=
  { sys with
    linked := sys.linked.filter fun s => !ids.contains s
    timers := sys.timers - 1 }

/-- The timer is not cancelled when an exception is raised: it goes on waiting
unless the time is already up. -/
def Sys.abandon (sys : Sys) (t : TimerSt) : Sys :=
  if t = .armed then sys else { sys with timers := sys.timers - 1 }

/-- `Parallel` (`tnco/parallel.py:104-359`).  `joblib` tells whether `joblib`
can be imported.  The result is `none` if the schedule ends before the
workers do. -/
def parallel (core : Core A V σ ρ ε) (cd : Codec V) (alloc : Nat → Nat)
    (zero : V) (joblib : Bool) (nJobs : Int) (args : List (List A))
    (kwargs : List (String × List A)) (bufs : List (String × List Char))
    (sched : List Event) (sys : Sys) :
    Sys × Option (Except (ParErr ε) (List ρ)) :=
  match parallelArgs args kwargs with
  | .error e => (sys, some (.error (.lib e)))
  | .ok rows =>
    match makeBuffers cd alloc zero rows.length
        ([['f'], ['b'], ['?']] ++ bufs.map Prod.snd) sys with
    | (sys, .error e) => (sys, some (.error (.lib e)))
    | (sys, .ok ids) =>
      let dict := dupdate [] ((bufs.map Prod.fst).zip (ids.drop 3))
      let names := dict.map Prod.fst
      let sys := { sys with timers := sys.timers + 1 }
      let useJoblib := decide (nJobs ≠ 1) && joblib
      if useJoblib && decide (nJobs = 0) then
        -- `joblib` refuses `n_jobs=0`
        (sys, some (.error (.lib .valueError)))
      else if keywordClash (kwargs.map Prod.fst) names then
        (sys, some (.error (.lib .typeError)))
      else
        let w := runSched core (!useJoblib) rows sched
          (World.init zero rows.length names)
        match collect w with
        | none => (sys, none)
        | some (.error e) => (sys.abandon w.timer, some (.error (.task e)))
        | some (.ok rs) =>
          (sys.release (ids.take 3 ++ dict.map Prod.snd), some (.ok rs))

end TNCO
