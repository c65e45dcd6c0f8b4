import Verif.Lemmas.AnnealRun

/-! `Parallel` with two cores that differ only in how they represent their states and results. -/

namespace TNCO
variable {A V σ σ' ρ ρ' ε : Type}

def Task.map (g : σ → σ') (f : ρ → ρ') : Task σ ρ ε → Task σ' ρ' ε
  | .pending => .pending
  | .running s => .running (g s)
  | .returned r => .returned (f r)
  | .finished r => .finished (f r)
  | .raised e => .raised e

def CoreStep.map (g : σ → σ') (f : ρ → ρ') : CoreStep σ ρ ε V → CoreStep σ' ρ' ε V
  | .next s m => .next (g s) m
  | .ret r m => .ret (f r) m
  | .raise e m => .raise e m

def World.map (g : σ → σ') (f : ρ → ρ') (w : World A V σ ρ ε) : World A V σ' ρ' ε :=
  ⟨w.mem, w.completed, w.tasks.map (Task.map g f), w.timer, w.calls, w.failed⟩

/-- The second core does what the first one does. -/
structure Core.Sim (g : σ → σ') (f : ρ → ρ') (c : Core A V σ ρ ε) (c' : Core A V σ' ρ' ε) : Prop where
  start : ∀ xs d i, c'.start xs d i = g (c.start xs d i)
  step : ∀ i s m, c'.step i (g s) m = (c.step i s m).map g f

variable {g : σ → σ'} {f : ρ → ρ'} {c : Core A V σ ρ ε} {c' : Core A V σ' ρ' ε}

theorem workStep_map (h : Core.Sim g f c c') (rows : List (List A × List (String × A))) (i : ℕ) (w : World A V σ ρ ε) :
    workStep c' rows i (w.map g f) = (workStep c rows i w).map g f := by
  unfold workStep
  have ht : (w.map g f).tasks[i]? = w.tasks[i]?.map (Task.map g f) := by simp [World.map]
  rw [ht]
  rcases w.tasks[i]? with _ | t
  · rfl
  cases t with
  | pending =>
    rcases rows[i]? with _ | ⟨xs, d⟩
    · rfl
    · simp only [Option.map_some, Task.map, h.start]
      simp [World.put, World.map, List.map_set, Task.map]
  | running s =>
    simp only [Option.map_some, Task.map]
    have hm : (w.map g f).mem = w.mem := rfl
    rw [hm, h.step]
    cases c.step i s w.mem with
    | next s' m => simp [CoreStep.map, World.put, World.map, List.map_set, Task.map]
    | ret r m => simp [CoreStep.map, World.put, World.map, List.map_set, Task.map]
    | raise e m => simp [CoreStep.map, World.put, World.map, List.map_set, Task.map]
  | returned r => simp [Task.map, World.put, World.map, List.map_set]
  | finished r => rfl
  | raised e => rfl

theorem tickStep_map (w : World A V σ ρ ε) : tickStep (w.map g f) = (tickStep w).map g f := by
  unfold tickStep
  have h1 : (w.map g f).timer = w.timer := rfl
  have h2 : (w.map g f).mem = w.mem := rfl
  rw [h1, h2]
  cases w.timer with
  | armed => rfl
  | firing k =>
    simp only
    split <;> rfl
  | over => rfl

theorem isFinished_map (t : Task σ ρ ε) : isFinished (t.map g f) = isFinished t := by cases t <;> rfl

theorem mayRun_map (seq : Bool) (w : World A V σ ρ ε) (i : ℕ) : mayRun seq (w.map g f) i = mayRun seq w i := by
  unfold mayRun
  congr 1
  simp only [World.map, ← List.map_take, List.all_map]
  congr 1
  funext t
  exact isFinished_map t

theorem runSched_map (h : Core.Sim g f c c') (seq : Bool) (rows : List (List A × List (String × A))) : ∀ (es : List Event) (w : World A V σ ρ ε),
    runSched c' seq rows es (w.map g f) = (runSched c seq rows es w).map g f
  | [], _ => rfl
  | .tick :: es, w => by
    simp only [runSched]
    rw [tickStep_map, runSched_map h seq rows es]
  | .work i :: es, w => by
    simp only [runSched]
    rw [mayRun_map, workStep_map h, ← runSched_map h seq rows es]
    split <;> rfl

theorem taskResult_map (t : Task σ ρ ε) : taskResult (t.map g f) = (taskResult t).map f := by cases t <;> rfl

theorem collect_map (w : World A V σ ρ ε) : collect (w.map g f) = (collect w).map (Except.map (List.map f)) := by
  unfold collect
  have h1 : (w.map g f).failed = w.failed := rfl
  rw [h1]
  cases w.failed with
  | some e => rfl
  | none =>
    simp only
    have : ∀ l : List (Task σ ρ ε), (l.map (Task.map g f)).mapM taskResult = (l.mapM taskResult).map (List.map f) := by
      intro l
      induction l with
      | nil => rfl
      | cons t l ih =>
        simp only [List.map_cons, List.mapM_cons, ih, taskResult_map]
        rcases taskResult t with _ | r
        · rfl
        · rcases l.mapM taskResult with _ | rs <;> rfl
    change ((w.tasks.map (Task.map g f)).mapM taskResult).map _ = _
    rw [this]
    rcases w.tasks.mapM taskResult with _ | rs <;> rfl

/-- What changes in the outcome. -/
def mapOutcome {ε' : Type} (f : ρ → ρ') (r : Sys × Option (Except ε' (List ρ))) : Sys × Option (Except ε' (List ρ')) :=
  (r.1, r.2.map (Except.map (List.map f)))

theorem parallel_map (h : Core.Sim g f c c') (cd : Codec V) (alloc : ℕ → ℕ) (zero : V) (joblib : Bool) (nJobs : ℤ) (args : List (List A))
    (kwargs : List (String × List A)) (bufs : List (String × List Char)) (sched : List Event) (sys : Sys) :
    parallel c' cd alloc zero joblib nJobs args kwargs bufs sched sys =
      mapOutcome f (parallel c cd alloc zero joblib nJobs args kwargs bufs sched sys) := by
  unfold parallel
  cases parallelArgs args kwargs with
  | error e => rfl
  | ok rows =>
    simp only
    rcases makeBuffers cd alloc zero rows.length ([['f'], ['b'], ['?']] ++ bufs.map Prod.snd) sys with ⟨sys1, e | ids⟩
    · rfl
    · simp only
      split
      · rfl
      split
      · rfl
      generalize (dupdate [] ((bufs.map Prod.fst).zip (ids.drop 3))).map Prod.fst = names
      have hw : (World.init zero rows.length names : World A V σ' ρ' ε) = (World.init zero rows.length names : World A V σ ρ ε).map g f := by
        simp [World.init, World.map, Task.map]
      rw [hw, runSched_map h, collect_map]
      rcases collect (runSched c (!(decide (nJobs ≠ 1) && joblib)) rows sched (World.init zero rows.length names)) with _ | e | rs
      · rfl
      · rfl
      · rfl

/-! The runs of an annealing app. -/

variable {κ κ' : Type}

def AState.map (h : κ → κ') : AState σ κ → AState σ κ'
  | .start seed => .start seed
  | .comps seed todo done => .comps seed todo (done.map h)
  | .loop seed todo done n betas o => .loop seed todo (done.map h) n betas o

/-- The two apps differ only in what they report. -/
structure Anneal.Sim (h : κ → κ') (f : ρ → ρ') (B : Anneal σ κ ρ V) (B' : Anneal σ κ' ρ' V) : Prop where
  paths : ∀ seed, B'.paths seed = B.paths seed
  make : ∀ seed p, B'.make seed p = B.make seed p
  update : ∀ n b o, B'.update n b o = B.update n b o
  log2 : ∀ o, B'.log2 o = B.log2 o
  finish : ∀ o, B'.finish o = (B.finish o).map (Except.map h)
  trivial : B'.trivial = h B.trivial
  total : ∀ l, B'.total (l.map h) = (B.total l).map f

variable {h : κ → κ'} {B : Anneal σ κ ρ V} {B' : Anneal σ κ' ρ' V}

theorem annealFinish_map (hs : Anneal.Sim h f B B') (seed : ℕ) (todo : List (List (ℕ × ℕ))) (done : List κ) (n : ℕ) (betas : List ℚ) (o : σ) (m : Mem V) :
    annealFinish B' seed todo (done.map h) n betas o m = (annealFinish B seed todo done n betas o m).map (AState.map h) f := by
  unfold annealFinish
  rw [hs.finish]
  rcases B.finish o with _ | e | k
  · rfl
  · rfl
  · simp [Except.map, CoreStep.map, AState.map]

theorem annealCore_sim (hs : Anneal.Sim h f B B') (betas : List ℚ) (sized : Bool) (nSteps : Option ℕ) (ratio : ℕ → ℕ → V) :
    Core.Sim (AState.map h) f (annealCore B betas sized nSteps ratio) (annealCore B' betas sized nSteps ratio) where
  start _ _ _ := rfl
  step i s m := by
    change annealStep B' betas sized nSteps ratio i (s.map h) m = (annealStep B betas sized nSteps ratio i s m).map (AState.map h) f
    match s with
    | .start seed =>
      simp only [AState.map, annealStep, hs.paths]
      rcases B.paths seed with _ | e | ps <;> rfl
    | .comps seed [] done =>
      simp only [AState.map, annealStep, hs.total]
      rcases B.total done with e | r <;> rfl
    | .comps seed ([] :: todo) done => simp [AState.map, annealStep, hs.trivial, CoreStep.map]
    | .comps seed ((a :: p) :: todo) done =>
      simp only [AState.map, annealStep, hs.make]
      rcases B.make seed (a :: p) with _ | e | o <;> rfl
    | .loop seed todo done n [] o =>
      simp only [AState.map, annealStep]
      exact annealFinish_map hs ..
    | .loop seed todo done n (b :: bs) o =>
      simp only [AState.map, annealStep]
      split
      · exact annealFinish_map hs ..
      · rw [hs.update]
        rcases B.update n b o with _ | e | o'
        · rfl
        · rfl
        · simp only [hs.log2]
          split <;> rfl

/-- The results before they are sorted. -/
def rawAnneal (A : Anneal σ κ ρ V) (betas : List ℚ) (sized : Bool) (nSteps : Option ℕ) (ratio : ℕ → ℕ → V) (W : ParEnv V) (nJobs : ℤ) (seeds : List ℕ)
    (sched : List Event) (sys : Sys) : Sys × Option (Except (ParErr PyErr) (List ρ)) :=
  parallel (annealCore A betas sized nSteps ratio) W.cd W.alloc W.zero W.joblib nJobs [] [("seed", seeds)] [("log2_total_cost", ['f'])] sched sys

variable {betas : List ℚ} {sized : Bool} {nSteps : Option ℕ} {ratio : ℕ → ℕ → V} {W : ParEnv V} {nJobs : ℤ} {seeds : List ℕ} {sched : List Event} {sys : Sys}

/-- The outcome after sorting the results. -/
def sortOutcome {ε' C : Type} [LinearOrder C] (cost : ρ → C) (r : Sys × Option (Except ε' (List ρ))) : Sys × Option (Except ε' (List ρ)) :=
  (r.1, r.2.map (Except.map (sortResults cost)))

theorem runAnneal_raw {C : Type} [LinearOrder C] (A : Anneal σ κ ρ V) (cost : ρ → C) :
    runAnneal A cost betas sized nSteps ratio W nJobs seeds sched sys =
      sortOutcome cost (rawAnneal A betas sized nSteps ratio W nJobs seeds sched sys) := by
  unfold runAnneal rawAnneal
  split
  · next h => rw [h]; rfl
  · next h1 =>
    rcases hp : parallel (annealCore A betas sized nSteps ratio) W.cd W.alloc W.zero W.joblib nJobs [] [("seed", seeds)] [("log2_total_cost", ['f'])] sched sys
      with ⟨sys1, _ | e | rs⟩
    · rfl
    · rfl
    · exact (h1 _ _ hp).elim

theorem rawAnneal_map (hs : Anneal.Sim h f B B') :
    rawAnneal B' betas sized nSteps ratio W nJobs seeds sched sys = mapOutcome f (rawAnneal B betas sized nSteps ratio W nJobs seeds sched sys) :=
  parallel_map (annealCore_sim hs betas sized nSteps ratio) ..

end TNCO
