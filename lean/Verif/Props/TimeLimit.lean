import Verif.Lemmas.TimeLimitApp

/-!
# C84: the time limit

What `timeout` does to a call of `optimize`. The time limit is not a moment at which everything ends: the timer sets one flag after the
other (`tnco/parallel.py:234-239`), and a run looks at its flag before each update. The theorems say what comes of each run once the flags
are set, and how soon the call ends.
-/

namespace TNCO
section
variable {σ κ ρ V : Type} {A : Anneal σ κ ρ V} {C : Type} [LinearOrder C] {cost : ρ → C} {betas : List ℚ} {sized : Bool} {nSteps : Option ℕ}
  {ratio : ℕ → ℕ → V} {W : ParEnv V} {nJobs : ℤ} {seeds : List ℕ} {sys sys' : Sys} {rs : List ρ}

/-- C84: the timer needs `n + 2` steps for `n` runs, whatever the workers do meanwhile. Then all flags are set, and they stay so. -/
theorem C84_flags {es : List Event} (ht : seeds.length + 2 ≤ es.count .tick) (es' : List Event) :
    (annealWorld A betas sized nSteps ratio W nJobs seeds (es ++ es')).mem.stop = List.replicate seeds.length true := by
  have hloc := annealCore_local A betas sized nSteps ratio
  have hover : (annealWorld A betas sized nSteps ratio W nJobs seeds (es ++ es')).timer = .over :=
    sched_over hloc _ (by simp only [ticksLeft, World.init, List.length_replicate, List.count_append]; omega)
  have hstop : TimerOk (annealWorld A betas sized nSteps ratio W nJobs seeds (es ++ es')) := sched_timerOk hloc _ trivial
  have hlen : (annealWorld A betas sized nSteps ratio W nJobs seeds (es ++ es')).mem.stop.length = seeds.length := by
    unfold annealWorld
    rw [sched_stop hloc]
    simp [World.init]
  unfold TimerOk at hstop
  rw [hover] at hstop
  exact List.eq_replicate_iff.2 ⟨hlen, hstop⟩

/-- C84: what a call returns depends only on the runs as they are when the flags are set. Each of them returns what it has by then: no update
is made any more, neither of the path at hand nor of those to come. There is still one result for each seed. -/
theorem C84_results {es es' : List Event} (ht : seeds.length + 2 ≤ es.count .tick)
    (h : runAnneal A cost betas sized nSteps ratio W nJobs seeds (es ++ es') sys = (sys', some (.ok rs))) :
    ∃ rs0, rs.Perm rs0 ∧ (rs.Pairwise fun a b => cost a ≤ cost b) ∧ rs0.length = seeds.length ∧
      ∀ (i : ℕ) (hi : i < seeds.length) (hr : i < rs0.length), ∃ t,
        (annealWorld A betas sized nSteps ratio W nJobs seeds es).tasks[i]? = some t ∧ A.lateResult seeds[i] t = some (.ok rs0[i]) := by
  obtain ⟨rs0, hc, rfl⟩ := runAnneal_world h
  exact ⟨rs0, sortResults_perm _ _, sortResults_sorted _ _, late_results ht hc⟩

/-- C84: the flags are set in order, one with each step of the timer after the first: the run number `i` has its flag exactly from the step
`i + 2` on. -/
theorem C84_order (es : List Event) : (annealWorld A betas sized nSteps ratio W nJobs seeds es).mem.stop =
    (List.range seeds.length).map (fun i => decide (i + 2 ≤ es.count .tick)) := world_flags es

/-- C84: each run returns what it has when its own flag is set, at whatever point of the schedule that is; the others do not matter. -/
theorem C84_each {sched : List Event} (h : runAnneal A cost betas sized nSteps ratio W nJobs seeds sched sys = (sys', some (.ok rs))) :
    ∃ rs0, rs.Perm rs0 ∧ (rs.Pairwise fun a b => cost a ≤ cost b) ∧ rs0.length = seeds.length ∧
      ∀ es es', sched = es ++ es' → ∀ (i : ℕ) (hi : i < seeds.length) (hr : i < rs0.length), i + 2 ≤ es.count .tick → ∃ t,
        (annealWorld A betas sized nSteps ratio W nJobs seeds es).tasks[i]? = some t ∧ A.lateResult seeds[i] t = some (.ok rs0[i]) := by
  obtain ⟨rs0, hc, rfl⟩ := runAnneal_world h
  refine ⟨rs0, sortResults_perm _ _, sortResults_sorted _ _, (world_tasks hc).1, ?_⟩
  rintro es es' rfl
  exact (late_run hc).2

/-- C84: if the time is up before the runs begin, each of them returns what it has drawn. -/
theorem C84_drawn {es es' : List Event} (ht : seeds.length + 2 ≤ es.count .tick) (hw : ∀ i, .work i ∉ es)
    (h : runAnneal A cost betas sized nSteps ratio W nJobs seeds (es ++ es') sys = (sys', some (.ok rs))) :
    ∃ rs0, rs = sortResults cost rs0 ∧ List.Forall₂ (fun seed r => A.wrapUp (.start seed) = some (.ok r)) seeds rs0 := by
  obtain ⟨rs0, hc, rfl⟩ := runAnneal_world h
  obtain ⟨hlen, hall⟩ := late_results ht hc
  refine ⟨rs0, rfl, List.forall₂_iff_get.2 ⟨hlen.symm, fun i h1 h2 => ?_⟩⟩
  obtain ⟨t, h3, h4⟩ := hall i h1 h2
  unfold annealWorld at h3
  rw [pending_of_no_work es hw] at h3
  have hi : i < seeds.length := h1
  simp only [World.init, List.getElem?_replicate, hi, if_true, Option.some.injEq] at h3
  subst h3
  exact h4

/-- C84: that is what a call without temperatures returns, with whatever schedule and number of jobs. -/
theorem C84_no_steps {es es' : List Event} (ht : seeds.length + 2 ≤ es.count .tick) (hw : ∀ i, .work i ∉ es)
    (h : runAnneal A cost betas sized nSteps ratio W nJobs seeds (es ++ es') sys = (sys', some (.ok rs)))
    {sized' : Bool} {nSteps' : Option ℕ} {ratio' : ℕ → ℕ → V} {W' : ParEnv V} {nJobs' : ℤ} {sched : List Event} {sys1 sys1' : Sys} {rs' : List ρ}
    (h' : runAnneal A cost [] sized' nSteps' ratio' W' nJobs' seeds sched sys1 = (sys1', some (.ok rs'))) : rs = rs' := by
  obtain ⟨rs0, rfl, hall⟩ := C84_drawn ht hw h
  obtain ⟨rs0', rfl, hall'⟩ := runAnneal_results h'
  suffices rs0 = rs0' by rw [this]
  clear h h' ht hw
  induction hall generalizing rs0' with
  | nil => cases hall'; rfl
  | cons h1 _ ih =>
    cases hall' with
    | cons h2 h3 =>
      rw [ih _ h3]
      obtain ⟨B, ps, ks, -, g1, g2, g3⟩ := h2
      have := parts_wrap g2 []
      simp only [Anneal.wrapUp, g1, this, List.nil_append, g3, Option.some.injEq, Except.ok.injEq] at h1
      rw [h1]

end

section
variable {ι τ σ P V : Type} [DecidableEq ι] [LinearOrder P] {E : SaEnv ι τ σ P V} {Wd : ParEnv V} {N : NetworkRec ι} {betas : Betas} {nSteps : Option ℚ}
  {nProjs : Option ℤ} {nJobs : ℤ} {seeds : List ℕ} {sys sys' : Sys}

/-- C84, infinite memory: once the flags are set, a call for `n` tensors returns within `2 n + 4` turns of each worker for each run, however
many temperatures are left. -/
theorem C84_infinite (hE : E.Ok N) (hN : N.Plain) (n : Option ℕ) (bs : List ℚ) (cm : PyCM ι) (hn : checkSteps nSteps = .ok n)
    (hb : expandBetas betas n = .ok (bs, true)) (hcm : PyCM.make (some N.sparse) nProjs = .ok cm) (hsp : SparseOk N.tsInds N.sparse)
    (hj : nJobs ≠ 0 ∨ Wd.joblib = false) (hseeds : seeds ≠ []) (henc : ∀ c ∈ ['f', 'b', '?'], ∃ bs, Wd.cd.enc c Wd.zero = .ok bs)
    {es : List Event} (ht : seeds.length + 2 ≤ es.count .tick) {rounds : List (List Event)} (hr : ∀ r ∈ rounds, ∀ i < seeds.length, .work i ∈ r)
    (hlen : seeds.length * (2 * N.tensors.length + 4) ≤ rounds.length) :
    ∃ sys' rs, optimizeInf E Wd N betas nSteps nProjs nJobs seeds (es ++ rounds.flatten) sys = (sys', some (.ok rs)) := by
  obtain ⟨rfl, hok⟩ := pyCM_make_ok hcm
  have hsafe : ∀ seed, ∃ ps, (infAnneal E N ⟨some N.sparse, nProjs⟩).Safe bs (stepsOf n bs) seed ps := by
    intro seed
    obtain ⟨ps, h1, hP⟩ := randomPaths_parts hE.rng hE.enumN (E.rngSeed seed) N.tsInds hE.fuel
    exact ⟨ps, inf_safe E hN hE.enum hok hP bs _ seed h1 fun p hp hne => sparse_path hP hsp hp hne⟩
  have hts : N.tsInds.length = N.tensors.length := by simp [NetworkRec.tsInds]
  have hM : ∀ seed ∈ seeds, AtMost (infAnneal E N ⟨some N.sparse, nProjs⟩) N.tensors.length (.start seed) := fun seed _ ps h => by
    rw [← hts]; exact randomPaths_count hE.rng hE.enumN _ _ hE.fuel h
  obtain ⟨sys', rs, h⟩ := runAnneal_ended (A := infAnneal E N ⟨some N.sparse, nProjs⟩) (cost := InfResultOf.cost) (betas := bs) (nSteps := n) (ratio := E.ratio)
    (sys := sys) (sched := es ++ rounds.flatten) hj hseeds henc (fun seed _ => hsafe seed) (fun seq names => by
      refine late_ends hM (N := 2 + N.tensors.length * (stepsOf n bs + 2)) (fun i hi sig => ?_) ht hr hlen
      obtain ⟨ps, hs⟩ := hsafe seeds[i]
      obtain ⟨r, h⟩ := alone_safe (ratio := E.ratio) hs i (World.init Wd.zero seeds.length names : World ℕ V (AState _ InfPart) InfResult PyErr).mem (by simp [World.init, hi]) sig
      have hle := hM _ (List.getElem_mem hi) ps hs.paths
      refine ⟨.ok r, ?_⟩
      have := alone_mono ((N.tensors.length - ps.length) * (stepsOf n bs + 2)) h
      have e : 2 + ps.length * (stepsOf n bs + 2) + (N.tensors.length - ps.length) * (stepsOf n bs + 2) = 2 + N.tensors.length * (stepsOf n bs + 2) := by
        rw [Nat.add_assoc, ← Nat.add_mul, Nat.add_sub_cancel' hle]
      rwa [e] at this)
  refine ⟨sys', rs, ?_⟩
  unfold optimizeInf optimizeInfWith
  simp only [hn, hb, hcm, h]

/-- C84, finite width: the same. -/
theorem C84_finite {W : Type} [AddCommGroup W] [LinearOrder W] [IsOrderedAddMonoid W] (log2W : ℕ → W) (hlog : ∀ n, 0 ≤ log2W n) (maxWidth : W)
    (hmw : 0 ≤ maxWidth) (us : ℤ) (hus : us ≠ 0) (hE : E.Ok N) (hN : N.Plain) (hne : N.tensors ≠ []) (n : Option ℕ) (bs : List ℚ) (cm : PyCM ι)
    (hn : checkSteps nSteps = .ok n) (hb : expandBetas betas n = .ok (bs, true)) (hcm : PyCM.make (some N.sparse) nProjs = .ok cm)
    (hsp : SparseOk N.tsInds N.sparse) (hj : nJobs ≠ 0 ∨ Wd.joblib = false) (hseeds : seeds ≠ [])
    (henc : ∀ c ∈ ['f', 'b', '?'], ∃ bs, Wd.cd.enc c Wd.zero = .ok bs)
    {es : List Event} (ht : seeds.length + 2 ≤ es.count .tick) {rounds : List (List Event)} (hr : ∀ r ∈ rounds, ∀ i < seeds.length, .work i ∈ r)
    (hlen : seeds.length * (2 * N.tensors.length + 4) ≤ rounds.length) :
    ∃ sys' rs, optimizeFw E Wd N log2W maxWidth betas nSteps nProjs us nJobs seeds (es ++ rounds.flatten) sys = (sys', some (.ok rs)) := by
  obtain ⟨rfl, hok⟩ := pyCM_make_ok hcm
  have hsafe : ∀ seed, ∃ ps, (fwAnneal E N ⟨some N.sparse, nProjs⟩ log2W maxWidth us).Safe bs (stepsOf n bs) seed ps := by
    intro seed
    obtain ⟨ps, h1, hP⟩ := randomPaths_parts hE.rng hE.enumN (E.rngSeed seed) N.tsInds hE.fuel
    exact ⟨ps, fw_safe E hN hne hE.enum hok hlog hmw hus hP bs _ seed h1 fun p hp hne => sparse_path hP hsp hp hne⟩
  have hts : N.tsInds.length = N.tensors.length := by simp [NetworkRec.tsInds]
  have hM : ∀ seed ∈ seeds, AtMost (fwAnneal E N ⟨some N.sparse, nProjs⟩ log2W maxWidth us) N.tensors.length (.start seed) := fun seed _ ps h => by
    rw [← hts]; exact randomPaths_count hE.rng hE.enumN _ _ hE.fuel h
  obtain ⟨sys', rs, h⟩ := runAnneal_ended (A := fwAnneal E N ⟨some N.sparse, nProjs⟩ log2W maxWidth us) (cost := FwResultOf.cost) (betas := bs) (nSteps := n)
    (ratio := E.ratio) (sys := sys) (sched := es ++ rounds.flatten) hj hseeds henc (fun seed _ => hsafe seed) (fun seq names => by
      refine late_ends hM (N := 2 + N.tensors.length * (stepsOf n bs + 2)) (fun i hi sig => ?_) ht hr hlen
      obtain ⟨ps, hs⟩ := hsafe seeds[i]
      obtain ⟨r, h⟩ := alone_safe (ratio := E.ratio) hs i (World.init Wd.zero seeds.length names : World ℕ V (AState _ (FwPart ι)) (FwResult ι) PyErr).mem
        (by simp [World.init, hi]) sig
      have hle := hM _ (List.getElem_mem hi) ps hs.paths
      refine ⟨.ok r, ?_⟩
      have := alone_mono ((N.tensors.length - ps.length) * (stepsOf n bs + 2)) h
      have e : 2 + ps.length * (stepsOf n bs + 2) + (N.tensors.length - ps.length) * (stepsOf n bs + 2) = 2 + N.tensors.length * (stepsOf n bs + 2) := by
        rw [Nat.add_assoc, ← Nat.add_mul, Nat.add_sub_cancel' hle]
      rwa [e] at this)
  refine ⟨sys', rs, ?_⟩
  unfold optimizeFw optimizeFwWith
  simp only [hn, hb, hcm, h, if_neg (not_lt.2 hmw)]

/-- C84, infinite memory: if the time is up before the runs begin, the costs are those of the random paths, part by part. -/
theorem C84_random (hE : E.Ok N) (hN : N.Plain) {es es' : List Event} (ht : seeds.length + 2 ≤ es.count .tick) (hw : ∀ i, .work i ∉ es) {rs : List InfResult}
    (h : optimizeInf E Wd N betas nSteps nProjs nJobs seeds (es ++ es') sys = (sys', some (.ok rs))) :
    ∃ rs0, rs.Perm rs0 ∧ List.Forall₂ (fun seed r => ∃ ps, randomPaths E.rng E.enumN E.fuel (E.rngSeed seed) N.tsInds = some (.ok ps) ∧
      r.costs = ps.map (pathCost (N.cost ⟨some N.sparse, nProjs⟩) N.tsInds N.output ∅) ∧ r.cost = r.costs.sum) seeds rs0 := by
  have hsum := fun r hr => (C43_infinite_memory_partial E Wd N betas nSteps nProjs nJobs seeds (es ++ es') sys sys' hE hN rs h r hr).2.2.1
  obtain ⟨n, bs, sized, cm, -, -, hcm, hrun⟩ := optimizeInf_ok E Wd N betas nSteps nProjs nJobs seeds _ sys sys' h
  obtain ⟨rfl, hok⟩ := pyCM_make_ok hcm
  obtain ⟨rs0, rfl, hall⟩ := C84_drawn ht hw hrun
  refine ⟨rs0, sortResults_perm _ _, ?_⟩
  rw [List.forall₂_iff_get] at hall ⊢
  refine ⟨hall.1, fun i h1 h2 => ?_⟩
  have h3 := hall.2 i h1 h2
  obtain ⟨ps, h4, hP⟩ := randomPaths_parts hE.rng hE.enumN (E.rngSeed (seeds.get ⟨i, h1⟩)) N.tsInds hE.fuel
  have h4' : (infAnneal E N ⟨some N.sparse, nProjs⟩).paths (seeds.get ⟨i, h1⟩) = some (.ok ps) := h4
  simp only [Anneal.wrapUp, h4'] at h3
  refine ⟨ps, h4, ?_, hsum _ ((sortResults_perm _ _).mem_iff.2 (List.get_mem _ _))⟩
  simpa using wrapPaths_parts E hN hE.enum hok hP ps [] (fun p hp => hp) h3

/-- C84 (finite width): what comes out if the time is over before the runs begin are random paths, with slices that make them fit, and their
costs. No update has been made: `update_slices = 0` does no harm then. -/
theorem C84_random_width {W : Type} [AddCommGroup W] [LinearOrder W] [IsOrderedAddMonoid W] (log2W : ℕ → W) (hlog : ∀ n, 0 ≤ log2W n) (maxWidth : W)
    (us : ℤ) (hE : E.Ok N) (hN : N.Plain) {es es' : List Event} (ht : seeds.length + 2 ≤ es.count .tick) (hw : ∀ i, .work i ∉ es)
    {rs : List (FwResult ι)} (h : optimizeFw E Wd N log2W maxWidth betas nSteps nProjs us nJobs seeds (es ++ es') sys = (sys', some (.ok rs))) :
    ∃ rs0, rs.Perm rs0 ∧ List.Forall₂ (fun seed r => ∃ ps, randomPaths E.rng E.enumN E.fuel (E.rngSeed seed) N.tsInds = some (.ok ps) ∧
      List.Forall₂ (fun p k => k.cost = pathCost (N.cost ⟨some N.sparse, nProjs⟩) N.tsInds N.output k.slices p ∧
        PathFits (N.width ⟨some N.sparse, nProjs⟩ log2W) maxWidth N.tsInds N.output k.slices p) ps r.pieces ∧ r.cost = r.costs.sum) seeds rs0 := by
  obtain ⟨n, bs, sized, cm, -, -, -, hcm, hrun⟩ := optimizeFw_ok E Wd N betas nSteps nProjs nJobs seeds _ sys sys' h
  obtain ⟨rfl, hok⟩ := pyCM_make_ok hcm
  obtain ⟨rs0, rfl, hall⟩ := C84_drawn ht hw hrun
  refine ⟨rs0, sortResults_perm _ _, hall.imp fun seed r h3 => ?_⟩
  obtain ⟨ps, h4, hP⟩ := randomPaths_parts hE.rng hE.enumN (E.rngSeed seed) N.tsInds hE.fuel
  have h4' : (fwAnneal E N ⟨some N.sparse, nProjs⟩ log2W maxWidth us).paths seed = some (.ok ps) := h4
  simp only [Anneal.wrapUp, h4'] at h3
  obtain ⟨ks, g1, g2, g3⟩ := wrapPaths_pieces E hN hE.enum hok hlog hP ps [] (fun p hp => hp) h3
  refine ⟨ps, h4, ?_, g2⟩
  rw [g1, List.nil_append]
  exact g3

end

/-! ## Examples -/

/-- Three matrices in a row; the order matters. -/
def stripNet : NetworkRec ℕ :=
  ⟨[⟨[0, 1], [2, 8], none⟩, ⟨[1, 2], [8, 2], none⟩, ⟨[2, 3], [2, 8], none⟩], {0, 3}, ∅, [(0, 2), (1, 8), (2, 2), (3, 8)]⟩

/-- What the app returns for two runs with the schedule. -/
def stripRun (nJobs : ℤ) (sched : List Event) : Option (Except (ParErr PyErr) (List InfResult)) :=
  (optimizeInf saEnv saPar stripNet (.pair 0 1) (some 2) none nJobs [1, 2] sched ⟨[], 0, 0⟩).2

-- the hypotheses of `C84_infinite` and `C84_random`
example : saEnv.Ok stripNet ∧ stripNet.Plain ∧ SparseOk stripNet.tsInds stripNet.sparse ∧ (∀ c ∈ ['f', 'b', '?'], ∃ bs, saPar.cd.enc c saPar.zero = .ok bs) := by
  refine ⟨⟨zeroRng_ok, positions_ok, positions_ok, by decide +kernel⟩, ⟨by decide +kernel, ?_⟩, ?_, ?_⟩
  · intro l hl x hx
    have h : ∀ l ∈ stripNet.tsInds, ∀ x ∈ l, dget stripNet.dims x = some 2 ∨ dget stripNet.dims x = some 8 := by decide +kernel
    rcases h l hl x hx with h | h
    · exact ⟨2, by decide, h⟩
    · exact ⟨8, by decide, h⟩
  · intro x hx
    exact absurd hx (Finset.notMem_empty x)
  · intro c _
    exact ⟨_, rfl⟩

-- enough time
example : stripRun 1 (saSched 2 40) = some (.ok [⟨64, [(0, 1), (0, 1)], [64], [[(1, 0), (0, 1)]]⟩, ⟨64, [(0, 1), (0, 1)], [64], [[(1, 0), (0, 1)]]⟩]) := by
  decide +kernel

-- the time is up at once: the random paths
example : stripRun 1 (List.replicate 4 .tick ++ saSched 2 20) =
    some (.ok [⟨256, [(1, 2), (0, 1)], [256], [[(1, 2), (0, 1)]]⟩, ⟨256, [(1, 2), (0, 1)], [256], [[(1, 2), (0, 1)]]⟩]) := by
  decide +kernel

-- the same with finite width: the random path, with an index sliced; `update_slices = 0` is not noticed
example : (optimizeFw saEnv saPar stripNet (fun n => (Nat.log2 n : ℤ)) 5 (.pair 0 1) (some 2) none 0 1 [1] (List.replicate 3 .tick ++ saSched 1 20) ⟨[], 0, 0⟩).2 =
      some (.ok [⟨256, [(1, 2), (0, 1)], [256], [[(1, 2), (0, 1)]], [{1}], {1}⟩]) ∧
    (optimizeFw saEnv saPar stripNet (fun n => (Nat.log2 n : ℤ)) 5 (.pair 0 1) (some 2) none 1 1 [1] (saSched 1 40) ⟨[], 0, 0⟩).2 =
      some (.ok [⟨64, [(0, 1), (0, 1)], [64], [[(1, 0), (0, 1)]], [∅], ∅⟩]) := by
  decide +kernel

-- the time is up when the first of two parallel runs has made its updates
example : stripRun 2 (List.replicate 5 (.work 0) ++ List.replicate 4 .tick ++ saSched 2 20) =
    some (.ok [⟨64, [(0, 1), (0, 1)], [64], [[(1, 0), (0, 1)]]⟩, ⟨256, [(1, 2), (0, 1)], [256], [[(1, 2), (0, 1)]]⟩]) := by
  decide +kernel

-- only the flag of the first run is set, and the second run goes on
example : stripRun 2 (List.replicate 5 (.work 0) ++ List.replicate 2 .tick ++ saSched 2 40) =
    some (.ok [⟨64, [(0, 1), (0, 1)], [64], [[(1, 0), (0, 1)]]⟩, ⟨64, [(0, 1), (0, 1)], [64], [[(1, 0), (0, 1)]]⟩]) := by
  decide +kernel

-- the flags after three steps of the timer: two of four
example : (annealWorld (infAnneal saEnv stripNet ⟨none, none⟩) [] true none saEnv.ratio saPar 2 [1, 2, 3, 4] [.tick, .work 0, .tick, .tick]).mem.stop =
    [true, true, false, false] := C84_order _

-- no temperatures
example : (optimizeInf saEnv saPar stripNet (.sized []) none none 2 [1, 2] (saSched 2 20) ⟨[], 0, 0⟩).2 = stripRun 1 (List.replicate 4 .tick ++ saSched 2 20) := by
  decide +kernel

end TNCO
