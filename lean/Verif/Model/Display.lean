import Verif.Model.Parallel
import Mathlib.Data.List.Sort

/-!
# The progress display of `Parallel` (`tnco/parallel.py:241-308`, `346-347`)

With `verbose >= 2` a thread looks at the shared buffers while the workers run, and shows a line for each of them. It is a further party of the schedule: each of
its steps reads one slot of a buffer, so that the memory may change between any two reads.

`rich.progress.Progress` is modelled by its table of lines: `add_task` adds a line under a new number, `update` and `remove_task` raise `KeyError` for a number that
is not there. `gone` records the lines that were removed, with what they showed last.

Simplifications: `progress.refresh` and `sleep` have no effect on the state; the names `start`, `visible`, `advance` and `refresh`, which `rich` takes for itself, are
shown like any other.
-/

namespace TNCO

/-- A line of the display: `idx + 1`, the fraction done (`none`: still 0, as created), and the values of the buffers (`none`: `nan`, as created). -/
structure Line (V : Type) where
  label : Nat
  done : Option V
  fields : List (String × Option V)
deriving DecidableEq

/-- Where the thread is. `last` tells whether this is the last full update.
* `check k`: the test of the loop is about to read `completed[k]` (`tnco/parallel.py:289`);
* `row last k`: about to read `completed[k]` in a full update (`tnco/parallel.py:279`);
* `stat last k c`: about to read `status[k]`, after `completed[k]` was `c`;
* `value last k c`: the status was positive, and is about to be read again (`tnco/parallel.py:281`);
* `fetch last k c v t todo got`: about to read the buffers `todo` for line `t` (`tnco/parallel.py:266-271`);
* `over`: the thread has ended; `failed e`: it has ended with an exception. -/
inductive ShowSt (V : Type) where
  | check (k : Nat)
  | row (last : Bool) (k : Nat)
  | stat (last : Bool) (k : Nat) (c : Bool)
  | value (last : Bool) (k : Nat) (c : Bool)
  | fetch (last : Bool) (k : Nat) (c : Bool) (v : Option V) (t : Nat) (todo : List String) (got : List (String × Option V))
  | over
  | failed (e : PyErr)
deriving DecidableEq

/-- The thread of the display: where it is, the dictionary `tasks`, and the table of `progress`. -/
structure Display (V : Type) where
  st : ShowSt V
  tasks : List (Nat × Option Nat)
  lines : List (Nat × Line V)
  fresh : Nat
  gone : List (Line V)
deriving DecidableEq

/-- What the thread knows from the start: `leave`, the names of the buffers, `n_runs`, the numbers of slots of `completed` and `status`, and the test `s_ > 0`. -/
structure ShowPar (V : Type) where
  leave : Bool
  names : List String
  runs : Nat
  compSlots : Nat
  statSlots : Nat
  pos : V → Bool

variable {A V σ ρ ε : Type}

/-- The thread at its start (`tnco/parallel.py:252-254`, `289`). -/
def Display.init : Display V := ⟨.check 0, [], [], 0, []⟩

/-- `get_task` (`tnco/parallel.py:256-263`). A buffer with the name of an argument of `add_task` is a `TypeError`. -/
def getTask (p : ShowPar V) (d : Display V) (idx : Nat) : Except PyErr (Display V × Option Nat) :=
  match dget d.tasks idx with
  | some t => .ok (d, t)
  | none =>
    if p.names.any fun b => ["self", "description", "total", "idx"].contains b then .error .typeError
    else .ok ({ d with
      tasks := dset d.tasks idx (some d.fresh)
      lines := d.lines ++ [(d.fresh, ⟨idx + 1, none, p.names.map fun b => (b, none)⟩)]
      fresh := d.fresh + 1 }, some d.fresh)

/-- `progress.update` (`tnco/parallel.py:266-271`). A buffer with the name of an argument is a `TypeError`. -/
def updateLine (p : ShowPar V) (d : Display V) (t idx : Nat) (v : Option V) (got : List (String × Option V)) : Except PyErr (Display V) :=
  if p.names.any fun b => ["self", "task_id", "completed", "idx"].contains b then .error .typeError
  else
    match dget d.lines t with
    | none => .error .keyError
    | some _ => .ok { d with lines := dset d.lines t ⟨idx + 1, v, got⟩ }

/-- `remove_task` (`tnco/parallel.py:273-276`). -/
def removeTask (p : ShowPar V) (d : Display V) (idx : Nat) : Except PyErr (Display V) :=
  if p.leave then .ok d
  else
    match dget d.tasks idx with
    | some (some t) =>
      match dget d.lines t with
      | none => .error .keyError
      | some l => .ok { d with tasks := dset (dpop d.tasks idx) idx none, lines := dpop d.lines t, gone := d.gone ++ [l] }
    | _ => .ok d

/-- The last two lines of a row, and on to the next one (`tnco/parallel.py:282-283`). -/
def endRow (p : ShowPar V) (d : Display V) (last : Bool) (k : Nat) (c : Bool) : Display V :=
  if c then
    match removeTask p d k with
    | .error e => { d with st := .failed e }
    | .ok d' => { d' with st := .row last (k + 1) }
  else { d with st := .row last (k + 1) }

/-- `sorted(tasks) == list(range(n_runs))` and its fellows (`tnco/parallel.py:300-302`): the checks at the end. `alive` is `timer.is_alive()`. -/
def lastChecks (p : ShowPar V) (d : Display V) (alive : Bool) : Bool :=
  (!alive || d.tasks.isEmpty ||
    (d.tasks.length == p.runs && (d.tasks.map Prod.fst).insertionSort (· ≤ ·) == List.range p.runs)) &&
  (p.leave || d.tasks.all fun e => e.2.isNone)

/-- The end of a full update: after the last one come the checks, else it is the turn of the test of the loop (`tnco/parallel.py:285-303`). -/
def endUpdate (p : ShowPar V) (d : Display V) (last alive : Bool) : Display V :=
  if last then
    if lastChecks p d alive then { d with st := .over } else { d with st := .failed .assertionError }
  else { d with st := .check 0 }

/-- One step of the thread (`tnco/parallel.py:252-303`). The slots of `completed` beyond the number of runs, if the operating system gave more memory than asked
for, hold zero. -/
def showStep (p : ShowPar V) (w : World A V σ ρ ε) (d : Display V) : Display V :=
  match d.st with
  | .check k =>
    if k < p.compSlots then
      if (w.completed[k]?).getD false then { d with st := .check (k + 1) } else { d with st := .row false 0 }
    else { d with st := .row true 0 }
  | .row last k =>
    if k < p.compSlots then { d with st := .stat last k ((w.completed[k]?).getD false) }
    else endUpdate p d last (decide (w.timer ≠ .over))
  | .stat last k c =>
    if k < p.statSlots then
      if (w.mem.status[k]?).any p.pos then { d with st := .value last k c } else endRow p d last k c
    else endUpdate p d last (decide (w.timer ≠ .over))
  | .value last k c =>
    match getTask p d k with
    | .error e => { d with st := .failed e }
    | .ok (d', none) => endRow p d' last k c
    | .ok (d', some t) => { d' with st := .fetch last k c w.mem.status[k]? t p.names [] }
  | .fetch last k c v t (b :: todo) got =>
    { d with st := .fetch last k c v t todo (got ++ [(b, (dget w.mem.bufs b).bind fun xs => xs[k]?)]) }
  | .fetch last k c v t [] got =>
    match updateLine p d t k v got with
    | .error e => { d with st := .failed e }
    | .ok d' => endRow p d' last k c
  | .over => d
  | .failed _ => d

/-- An event of the schedule: one of the workers or of the timer, or a step of the display. -/
inductive ShowEvent where
  | run (e : Event)
  | look
deriving DecidableEq

/-- Workers, timer and display run according to the schedule. -/
def runShow (core : Core A V σ ρ ε) (seq : Bool) (rows : List (List A × List (String × A))) (p : ShowPar V) :
    List ShowEvent → World A V σ ρ ε × Display V → World A V σ ρ ε × Display V
  | [], s => s
  | .run e :: es, s => runShow core seq rows p es (runSched core seq rows [e] s.1, s.2)
  | .look :: es, s => runShow core seq rows p es (s.1, showStep p s.1 s.2)

/-- Whether the thread has ended, so that `updater.join()` returns (`tnco/parallel.py:346-347`). An exception in the thread is only printed. -/
def ShowSt.ended : ShowSt V → Bool
  | .over => true
  | .failed _ => true
  | _ => false

/-- The events without those of the display. -/
def withoutLooks (es : List ShowEvent) : List Event :=
  es.filterMap fun
    | .run e => some e
    | .look => none

/-- The number of slots of a buffer of `n` items of `size` bytes (`Buffer.__len__`, `tnco/parallel.py:76`, `82-83`). -/
def slotsFor (alloc : Nat → Nat) (n size : Nat) : Nat := alloc (n * size) / size

/-- `Parallel` with `verbose` and `leave` (`tnco/parallel.py:104-359`): as `parallel`, with the display for `verbose >= 2`. The last component is the thread of the
display when the call ends, if there is one. -/
def parallelShown (core : Core A V σ ρ ε) (cd : Codec V) (alloc : Nat → Nat) (zero : V) (pos : V → Bool) (joblib : Bool) (nJobs verbose : Int) (leave : Bool)
    (args : List (List A)) (kwargs : List (String × List A)) (bufs : List (String × List Char)) (sched : List ShowEvent) (sys : Sys) :
    Sys × Option (Except (ParErr ε) (List ρ)) × Option (Display V) :=
  match parallelArgs args kwargs with
  | .error e => (sys, some (.error (.lib e)), none)
  | .ok rows =>
    match makeBuffers cd alloc zero rows.length ([['f'], ['b'], ['?']] ++ bufs.map Prod.snd) sys with
    | (sys, .error e) => (sys, some (.error (.lib e)), none)
    | (sys, .ok ids) =>
      let dict := dupdate [] ((bufs.map Prod.fst).zip (ids.drop 3))
      let names := dict.map Prod.fst
      let sys := { sys with timers := sys.timers + 1 }
      let useJoblib := decide (nJobs ≠ 1) && joblib
      let shown := decide (2 ≤ verbose)
      let p : ShowPar V := ⟨leave, names, rows.length, slotsFor alloc rows.length 1, slotsFor alloc rows.length 4, pos⟩
      if useJoblib && decide (nJobs = 0) then
        (sys, some (.error (.lib .valueError)), if shown then some .init else none)
      else if keywordClash (kwargs.map Prod.fst) names then
        (sys, some (.error (.lib .typeError)), if shown then some .init else none)
      else
        let s := runShow core (!useJoblib) rows p sched (World.init zero rows.length names, .init)
        let thread := if shown then some s.2 else none
        match collect s.1 with
        | none => (sys, none, thread)
        | some (.error e) => (sys.abandon s.1.timer, some (.error (.task e)), thread)
        | some (.ok rs) =>
          if shown && !s.2.st.ended then (sys, none, thread)
          else (sys.release (ids.take 3 ++ dict.map Prod.snd), some (.ok rs), thread)

end TNCO
