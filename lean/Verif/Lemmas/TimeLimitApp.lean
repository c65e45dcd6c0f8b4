import Verif.Lemmas.TimeLimit
import Verif.Props.Anneal

/-! # The apps and the time limit -/

namespace TNCO
section
variable {σ κ ρ V : Type} {A : Anneal σ κ ρ V} {C : Type} [LinearOrder C] {cost : ρ → C} {betas : List ℚ} {sized : Bool} {nSteps : Option ℕ}
  {ratio : ℕ → ℕ → V} {W : ParEnv V} {nJobs : ℤ} {seeds : List ℕ} {sched : List Event} {sys sys' : Sys} {rs : List ρ}

theorem runAnneal_world (h : runAnneal A cost betas sized nSteps ratio W nJobs seeds sched sys = (sys', some (.ok rs))) :
    ∃ rs0, collect (annealWorld A betas sized nSteps ratio W nJobs seeds sched) = some (.ok rs0) ∧ rs = sortResults cost rs0 := by
  unfold runAnneal at h
  split at h
  · next sys1 rs0 hp =>
    cases h
    refine ⟨rs0, ?_, rfl⟩
    unfold parallel at hp
    rw [parallelArgs_seeds] at hp
    dsimp only at hp
    split at hp
    · cases hp
    · next sys2 ids hb =>
      have hids : ids.length = 4 := by rw [(makeBuffers_ok hb).1]; simp
      obtain ⟨a, b, c, d, rfl⟩ : ∃ a b c d, ids = [a, b, c, d] := by
        match ids, hids with
        | [a, b, c, d], _ => exact ⟨a, b, c, d, rfl⟩
      split at hp
      · cases hp
      · split at hp
        · cases hp
        · split at hp
          · cases hp
          · cases hp
          · next rs1 hc =>
            cases hp
            simpa [annealWorld, seedRows, dupdate, dset] using hc
  · next h' => exact (h' _ _ h).elim

theorem world_tasks {rs0 : List ρ} (h : collect (annealWorld A betas sized nSteps ratio W nJobs seeds sched) = some (.ok rs0)) :
    rs0.length = seeds.length ∧ ∀ (i : ℕ) (hi : i < rs0.length), (annealWorld A betas sized nSteps ratio W nJobs seeds sched).tasks[i]? = some (.finished rs0[i]) := by
  obtain ⟨-, ht⟩ := collect_ok h
  have hinv := (runSched_inv (core := annealCore A betas sized nSteps ratio) (seq := !(decide (nJobs ≠ 1) && W.joblib)) sched
    (init_inv (σ := AState σ κ) (ρ := ρ) (ε := PyErr) (seedRows seeds) _ W.zero ["log2_total_cost"])).tasks
  rw [show (seedRows seeds).length = seeds.length by simp [seedRows]] at hinv
  have hlen : (annealWorld A betas sized nSteps ratio W nJobs seeds sched).tasks.length = seeds.length := hinv
  refine ⟨by rw [ht, List.length_map] at hlen; exact hlen, fun i hi => ?_⟩
  rw [ht]
  simp [hi]

/-- The results of the call are those of the runs without further updates after the time limit. -/
theorem late_results {es es' : List Event} (ht : seeds.length + 2 ≤ es.count .tick) {rs0 : List ρ}
    (h : collect (annealWorld A betas sized nSteps ratio W nJobs seeds (es ++ es')) = some (.ok rs0)) :
    rs0.length = seeds.length ∧ ∀ (i : ℕ) (hi : i < seeds.length) (hr : i < rs0.length), ∃ t,
      (annealWorld A betas sized nSteps ratio W nJobs seeds es).tasks[i]? = some t ∧ A.lateResult seeds[i] t = some (.ok rs0[i]) := by
  have hloc := annealCore_local A betas sized nSteps ratio
  obtain ⟨hlen, htasks⟩ := world_tasks h
  refine ⟨hlen, fun i hi hr => ?_⟩
  have hi1 := htasks i hr
  unfold annealWorld at hi1 ⊢
  rw [runSched_append] at hi1
  have hover : (annealWorld A betas sized nSteps ratio W nJobs seeds es).timer = .over :=
    sched_over hloc es (by simp only [ticksLeft, World.init, List.length_replicate]; exact ht)
  have hstop := sched_timerOk hloc (seq := !(decide (nJobs ≠ 1) && W.joblib)) (rows := seedRows seeds) es
    (w := World.init W.zero seeds.length ["log2_total_cost"]) trivial
  have hslen := sched_stop hloc (seq := !(decide (nJobs ≠ 1) && W.joblib)) (rows := seedRows seeds) es (World.init W.zero seeds.length ["log2_total_cost"])
  have htl := (runSched_inv (core := annealCore A betas sized nSteps ratio) (seq := !(decide (nJobs ≠ 1) && W.joblib)) es
    (init_inv (σ := AState σ κ) (ρ := ρ) (ε := PyErr) (seedRows seeds) _ W.zero ["log2_total_cost"])).tasks
  have hrl : (seedRows seeds).length = seeds.length := by simp [seedRows]
  rw [hrl] at htl
  unfold annealWorld at hover
  generalize runSched (annealCore A betas sized nSteps ratio) (!(decide (nJobs ≠ 1) && W.joblib)) (seedRows seeds) es
    (World.init W.zero seeds.length ["log2_total_cost"]) = w at *
  have hall : ∀ b ∈ w.mem.stop, b = true := by
    unfold TimerOk at hstop
    rw [hover] at hstop
    exact hstop
  have hw : w.mem.stop.length = seeds.length := by rw [hslen]; simp [World.init]
  have hiw : i < w.mem.stop.length := by rw [hw]; exact hi
  have hit : i < w.tasks.length := by rw [htl]; exact hi
  refine ⟨w.tasks[i], List.getElem?_eq_getElem hit, ?_⟩
  have hrow : (seedRows seeds)[i]? = some ([], [("seed", seeds[i])]) := by simp [seedRows, hi]
  have := late_alone hloc hover hall hiw hrow (List.getElem?_eq_getElem hit) hi1 rfl
  revert this
  cases hti : w.tasks[i] with
  | pending =>
    rintro ⟨fuel, h⟩
    exact alone_wrap fuel (m := w.mem) hiw (by simpa [annealCore, dget] using h)
  | running s =>
    rintro ⟨fuel, h⟩
    exact alone_wrap fuel hiw h
  | returned r => exact fun h => h
  | finished r => exact fun h => h
  | raised e => exact fun h => h

theorem world_flags (es : List Event) : (annealWorld A betas sized nSteps ratio W nJobs seeds es).mem.stop =
    (List.range seeds.length).map (fun i => decide (i + 2 ≤ es.count .tick)) := by
  have h0 : FlagsAt seeds.length 0 (World.init (A := ℕ) (σ := AState σ κ) (ρ := ρ) (ε := PyErr) W.zero seeds.length ["log2_total_cost"]) := by
    refine ⟨?_, rfl⟩
    simp only [World.init]
    apply List.ext_getElem?
    intro j
    by_cases hj : j < seeds.length
    · simp [hj]
    · simp [hj]
  have := (sched_flagsAt (annealCore_local A betas sized nSteps ratio) (seq := !(decide (nJobs ≠ 1) && W.joblib)) (rows := seedRows seeds) es h0).1
  rw [Nat.zero_add] at this
  exact this

/-- The result of a run is that of the run without further updates after its flag is set. -/
theorem late_run {es es' : List Event} {rs0 : List ρ}
    (h : collect (annealWorld A betas sized nSteps ratio W nJobs seeds (es ++ es')) = some (.ok rs0)) :
    rs0.length = seeds.length ∧ ∀ (i : ℕ) (hi : i < seeds.length) (hr : i < rs0.length), i + 2 ≤ es.count .tick → ∃ t,
      (annealWorld A betas sized nSteps ratio W nJobs seeds es).tasks[i]? = some t ∧ A.lateResult seeds[i] t = some (.ok rs0[i]) := by
  have hloc := annealCore_local A betas sized nSteps ratio
  obtain ⟨hlen, htasks⟩ := world_tasks h
  refine ⟨hlen, fun i hi hr hti => ?_⟩
  have hi1 := htasks i hr
  have hb : (annealWorld A betas sized nSteps ratio W nJobs seeds es).mem.stop[i]? = some true := by
    rw [world_flags]; simp [hi, hti]
  unfold annealWorld at hi1 hb ⊢
  rw [runSched_append] at hi1
  have htl := (runSched_inv (core := annealCore A betas sized nSteps ratio) (seq := !(decide (nJobs ≠ 1) && W.joblib)) es
    (init_inv (σ := AState σ κ) (ρ := ρ) (ε := PyErr) (seedRows seeds) _ W.zero ["log2_total_cost"])).tasks
  have hrl : (seedRows seeds).length = seeds.length := by simp [seedRows]
  rw [hrl] at htl
  generalize runSched (annealCore A betas sized nSteps ratio) (!(decide (nJobs ≠ 1) && W.joblib)) (seedRows seeds) es
    (World.init W.zero seeds.length ["log2_total_cost"]) = w at *
  have hiw : i < w.mem.stop.length := (List.getElem?_eq_some_iff.1 hb).1
  have hit : i < w.tasks.length := by rw [htl]; exact hi
  refine ⟨w.tasks[i], List.getElem?_eq_getElem hit, ?_⟩
  have hrow : (seedRows seeds)[i]? = some ([], [("seed", seeds[i])]) := by simp [seedRows, hi]
  have := late_one hloc hb hrow (List.getElem?_eq_getElem hit) hi1 rfl
  revert this
  cases hti : w.tasks[i] with
  | pending =>
    rintro ⟨fuel, h⟩
    exact alone_wrap fuel (m := w.mem) hiw (by simpa [annealCore, dget] using h)
  | running s =>
    rintro ⟨fuel, h⟩
    exact alone_wrap fuel hiw h
  | returned r => exact fun h => h
  | finished r => exact fun h => h
  | raised e => exact fun h => h

theorem pending_of_no_work {core : Core ℕ V (AState σ κ) ρ PyErr} {seq : Bool} {rows : List (List ℕ × List (String × ℕ))} :
    ∀ (es : List Event) {w : World ℕ V (AState σ κ) ρ PyErr}, (∀ i, .work i ∉ es) → (runSched core seq rows es w).tasks = w.tasks
  | [], _, _ => rfl
  | .tick :: es, w, h => by
    rw [runSched, pending_of_no_work es (fun i hi => h i (List.mem_cons_of_mem _ hi)), (tickStep_spec w).1]
  | .work i :: _, _, h => absurd List.mem_cons_self (h i)

end

section
variable {ι τ σ P V : Type} [DecidableEq ι] [LinearOrder P]

/-- There are not more parts than tensors. -/
theorem randomPaths_count {σ : Type} {g : PyRng σ} (hg : g.Ok) {enum : Finset ℕ → List ℕ} (he : EnumOk enum) (s : σ)
    (tsInds : List (List ι)) {fuel : ℕ} (hf : tsInds.length + (uniqueEverseen tsInds.flatten).length < fuel) {ps : List (List (ℕ × ℕ))}
    (h : randomPaths g enum fuel s tsInds = some (.ok ps)) : ps.length ≤ tsInds.length := by
  obtain ⟨paths, h1, -, -, -, -, comp, -, h2, h3, -⟩ := C27_paths g hg enum he s tsInds
  rw [h1 fuel hf] at h
  obtain rfl : paths = ps := by simpa using h
  have : ∀ k : Fin paths.length, ∃ j : Fin tsInds.length, ∃ x ∈ tsInds[j], comp x = k := by
    intro k
    obtain ⟨x, hx, hk⟩ := h3 k k.2
    obtain ⟨xs, hxs, hxx⟩ := List.mem_flatten.1 hx
    obtain ⟨j, hj, rfl⟩ := List.getElem_of_mem hxs
    exact ⟨⟨j, hj⟩, x, hxx, hk⟩
  choose f hf' using this
  have hinj : Function.Injective f := by
    intro a b hab
    obtain ⟨x, hx, hxa⟩ := hf' a
    obtain ⟨y, hy, hyb⟩ := hf' b
    rw [hab] at hx
    have hmem : tsInds[f b] ∈ tsInds := List.getElem_mem _
    have := (h2 x (List.mem_flatten.2 ⟨_, hmem, hx⟩) y (List.mem_flatten.2 ⟨_, hmem, hy⟩)).2 (.rel _ _ ⟨_, hmem, hx, hy⟩)
    exact Fin.ext (by omega)
  simpa using Fintype.card_le_of_injective f hinj

/-- An optimizer that has not made any update has the cost of the path it was made from. -/
theorem inf_drawn (E : SaEnv ι τ σ P V) {N : NetworkRec ι} {cm : PyCM ι} (hN : N.Plain) (he : EnumOk E.enum) (hcm : cm.Ok)
    {paths : List (List (ℕ × ℕ))} (hP : PartPaths N.tsInds paths) {p : List (ℕ × ℕ)} (hp : p ∈ paths) {seed : ℕ} {k : InfPart}
    (h : (infAnneal E N cm).asDrawn seed p = some (.ok k)) :
    k.cost = pathCost (N.cost cm) N.tsInds N.output ∅ p := by
  cases p with
  | nil => simp only [Anneal.asDrawn, Option.some.injEq, Except.ok.injEq] at h; subst h; rfl
  | cons a p =>
  have hne : a :: p ≠ [] := by simp
  generalize hq : a :: p = q at *
  have hmake : ∃ o, (infAnneal E N cm).make seed q = some (.ok o) ∧ (infAnneal E N cm).finish o = some (.ok k) := by
    rw [← hq] at h ⊢
    rw [Anneal.asDrawn] at h
    split at h
    · cases h
    · cases h
    · next o ho => exact ⟨o, ho, h⟩
  obtain ⟨o, hmk, hfin⟩ := hmake
  obtain ⟨pt, T, F, u, hpt, hc, ho, hti, hv, hd, hF, hu, hTu, htch, hord⟩ := part_tree hN he hP hp hne
  simp only [infAnnealWith, hpt] at hmk
  split at hmk
  · cases hmk
  next m hm =>
  unfold PyInf.make at hmk
  simp only [Option.map_none] at hmk
  cases hoc : InfOpt.make m pt.core (E.prngSeed seed) false none with
  | none => rw [hoc] at hmk; simp [ShipErr.toPy] at hmk
  | some r =>
  cases r with
  | error e => rw [hoc] at hmk; simp [ShipErr.toPy] at hmk
  | ok oc =>
  rw [hoc] at hmk
  simp only [Option.some.injEq, Except.ok.injEq] at hmk
  subst hmk
  have hini : oc.totalCost = pathCost (N.cost cm) N.tsInds N.output ∅ q := by
    have := over_cost hc hd hm ho (S := ∅) (fun q => by rw [hti.len]; exact hti.clean.inds_lt q) (by simp) hF hu (hTu ▸ Term.same_rfl u)
    simp only [Finset.union_empty] at this
    have e := (C14_total_cost_exact E.prng.toPrng m pt.core (E.prngSeed seed) false none oc oc [] ⟨T, ho.wf⟩ hoc rfl).1 T
      (by rw [(make_inv ho.wf hoc (out? := none) (by simp)).2.1]; exact ho.wf)
    rw [e, (make_inv ho.wf hoc (out? := none) (by simp)).2.1]
    rw [this]
    simp [nameSet]
  obtain ⟨hmin, hmt, -⟩ := C15_min_is_best E.prng.toPrng m pt.core (E.prngSeed seed) false none oc oc [] ⟨T, ho.wf⟩ hoc rfl
  have hmc : oc.minCtree = oc.ctree := by
    rcases hmin with h | ⟨p1, p2, o1, hne1, hpp, -⟩
    · rw [h, (make_inv ho.wf hoc (out? := none) (by simp)).2.1]; rfl
    · exact absurd (List.append_eq_nil_iff.1 hpp.symm).1 hne1
  have hmin' : oc.minTotal = oc.totalCost := by
    have h1 := (C14_total_cost_exact E.prng.toPrng m pt.core (E.prngSeed seed) false none oc oc [] ⟨T, ho.wf⟩ hoc rfl).2.1
    rw [hmc, h1] at hmt
    exact (Option.some.inj hmt).symm
  simp only [infAnnealWith] at hfin
  split at hfin
  · cases hfin
  · rw [Option.map_eq_some_iff] at hfin
    obtain ⟨path, -, h2⟩ := hfin
    cases h2
    show oc.minTotal = _
    rw [hmin', hini]

theorem wrapPaths_parts (E : SaEnv ι τ σ P V) {N : NetworkRec ι} {cm : PyCM ι} (hN : N.Plain) (he : EnumOk E.enum) (hcm : cm.Ok)
    {paths : List (List (ℕ × ℕ))} (hP : PartPaths N.tsInds paths) {seed : ℕ} {r : InfResult} :
    ∀ (ps : List (List (ℕ × ℕ))) (done : List InfPart), (∀ p ∈ ps, p ∈ paths) → (infAnneal E N cm).wrapPaths seed ps done = some (.ok r) →
      r.costs = done.map InfPartOf.cost ++ ps.map (pathCost (N.cost cm) N.tsInds N.output ∅)
  | [], done, _, h => by
    simp only [Anneal.wrapPaths, infAnnealWith, Option.some.injEq, infTotalWith] at h
    split at h
    · cases h
    · cases h; simp
  | p :: ps, done, hsub, h => by
    rw [Anneal.wrapPaths] at h
    split at h
    · cases h
    · cases h
    · next k hk =>
      rw [wrapPaths_parts E hN he hcm hP ps _ (fun q hq => hsub q (List.mem_cons_of_mem _ hq)) h]
      simp [inf_drawn E hN he hcm hP (hsub p List.mem_cons_self) hk]

end

section
variable {ι τ σ P V : Type} [DecidableEq ι] [LinearOrder P] {W : Type} [AddCommGroup W] [LinearOrder W] [IsOrderedAddMonoid W]

/-- A finite-width optimizer that has not made any update has the cost of the path it was made from, with its first slices, and these make it fit. -/
theorem fw_drawn (E : SaEnv ι τ σ P V) {N : NetworkRec ι} {cm : PyCM ι} (hN : N.Plain) (he : EnumOk E.enum) (hcm : cm.Ok)
    {log2W : ℕ → W} (hlog : ∀ n, 0 ≤ log2W n) {maxWidth : W} {us : ℤ}
    {paths : List (List (ℕ × ℕ))} (hP : PartPaths N.tsInds paths) {p : List (ℕ × ℕ)} (hp : p ∈ paths) {seed : ℕ} {k : FwPart ι}
    (h : (fwAnneal E N cm log2W maxWidth us).asDrawn seed p = some (.ok k)) :
    k.cost = pathCost (N.cost cm) N.tsInds N.output k.slices p ∧ PathFits (N.width cm log2W) maxWidth N.tsInds N.output k.slices p := by
  cases p with
  | nil =>
    simp only [Anneal.asDrawn, Option.some.injEq, Except.ok.injEq] at h
    subst h
    refine ⟨rfl, ?_⟩
    intro a b hab; cases hab
  | cons a p =>
  have hne : a :: p ≠ [] := by simp
  generalize hq : a :: p = q at *
  have hmake : ∃ o, (fwAnneal E N cm log2W maxWidth us).make seed q = some (.ok o) ∧ (fwAnneal E N cm log2W maxWidth us).finish o = some (.ok k) := by
    rw [← hq] at h ⊢
    rw [Anneal.asDrawn] at h
    split at h
    · cases h
    · cases h
    · next o ho => exact ⟨o, ho, h⟩
  obtain ⟨o, hmk, hfin⟩ := hmake
  obtain ⟨pt, T, F, u, hpt, hc, ho, hti, hv, hd, hF, hu, hTu, htch, hord⟩ := part_tree hN he hP hp hne
  simp only [fwAnnealWith, hpt] at hmk
  split at hmk
  rotate_left
  · cases hmk
  · cases hmk
  next m wm hm hwm =>
  obtain ⟨hmw, hoff, hw⟩ := widthCore_get hwm hc.order hd
  have htb : toBits pt.indsOrder (∅ : Finset ι) = some ∅ := by simp [toBits]
  simp only [PyFw.make, htb, Option.mapM_none, Option.map_none, pure] at hmk
  cases hoc : FwOpt.pyMake E.prng m wm pt.core 0 (E.prngSeed seed) false ∅ none none none with
  | none => rw [hoc] at hmk; simp [ShipErr.toPy] at hmk
  | some r =>
  cases r with
  | error e => rw [hoc] at hmk; simp [ShipErr.toPy] at hmk
  | ok oc =>
  rw [hoc] at hmk
  simp only [Option.some.injEq, Except.ok.injEq] at hmk
  subst hmk
  have hpos := fun s hs => inf_pos hN hcm hc hd (fun x hx => (hord x).1 hx |>.imp fun k h => h.2) hm (s := s) hs
  have hoff' : OfferedWidth log2W pt.core.dims wm := hoff
  have hoc0 := (pyMake_inv (offered_lawful hlog hoff').1 ho.wf (by simp) hoc (out? := none) (by simp)).2.1
  obtain ⟨cl, -, -, -, -, -, hni, -⟩ := fw_state hlog hoff' hti ho.wf ho.exact hpos hoc (show oc.run E.prng m wm [] = .ok oc from rfl)
  obtain ⟨T1, wf, -, -, -, -, -, tc, hval, -⟩ := C24_caches_exact E.prng m log2W hlog wm pt.core 0 (E.prngSeed seed) false ∅ none none none
    oc oc [] T _ hoff' ho.wf ho.exact (by simp) hoc rfl
  obtain ⟨hmin, hmt, -⟩ := C24_min E.prng m log2W hlog wm pt.core 0 (E.prngSeed seed) false ∅ none none none oc oc [] T _ hoff' ho.wf ho.exact
    (by simp) hoc rfl
  have hmodel : (∃ mw, simpleWidthModel log2W pt.core.dims mw = some wm) ∨
      ∃ mw sparse nProjs, sparseWidthModel log2W pt.core.dims mw sparse nProjs = some wm ∧ (0 = 0 ∨ sparse ⊆ ∅) :=
    hoff.imp id fun ⟨mw, sp, n, h⟩ => ⟨mw, sp, n, h, Or.inl rfl⟩
  have hfit := (C22_width_limit_partial E.prng m log2W hlog wm pt.core 0 (E.prngSeed seed) false ∅ none none none oc oc []
    ⟨T, ho.wf⟩ (by simp) hoc rfl hmodel).1
  obtain ⟨hmc, hms⟩ : oc.inf.minCtree = oc.inf.ctree ∧ oc.minSlices = oc.slices := by
    rcases hmin with ⟨h, h'⟩ | ⟨p1, p2, o1, hne1, hpp, -⟩
    · exact ⟨by rw [h, hoc0]; rfl, h'⟩
    · exact absurd (List.append_eq_nil_iff.1 hpp.symm).1 hne1
  have hlen : pt.core.nInds = pt.indsOrder.length := hc.nInds
  have hs0 : oc.slices ⊆ Finset.range pt.indsOrder.length := by rw [← hlen, ← hni]; exact cl.slices_lt
  have hin0 : ∀ q, pt.core.inds q ⊆ Finset.range pt.indsOrder.length := fun q => by rw [hti.len]; exact hti.clean.inds_lt q
  have hTT : T1 = T := wf.tree_eq (by rw [hoc0]; exact ho.wf)
  rw [hTT, hoc0] at tc
  have hini := over_cost hc hd hm ho hin0 hs0 hF hu (hTu ▸ Term.same_rfl u)
  have hsl : ofBits pt.cache.indsOrder oc.inf.ctree.nInds oc.minSlices = some (nameSet pt.indsOrder oc.slices) := by
    rw [hms]
    exact ofBits_names (by rw [hni, hlen]; rfl) _
  have hmin' : oc.inf.minTotal = oc.inf.totalCost := by
    rw [hmc, hms, hval] at hmt
    exact (Option.some.inj hmt).symm
  simp only [fwAnnealWith, hsl] at hfin
  split at hfin
  · cases hfin
  · rw [Option.map_eq_some_iff] at hfin
    obtain ⟨path, -, h2⟩ := hfin
    cases h2
    refine ⟨?_, ?_⟩
    · show oc.inf.minTotal = _
      rw [hmin', tc, hini]
    · rw [← hmw]
      refine over_fits hc ho hin0 hw ?_ hF hu (hTu ▸ Term.same_rfl u)
      rw [hoc0] at hfit
      exact hfit

theorem fwTotal_pieces {n : ℕ} {ks : List (FwPart ι)} {r : FwResult ι} (h : fwTotalWith exactPrinter n ks = .ok r) :
    r.pieces = ks ∧ r.cost = r.costs.sum := by
  unfold fwTotalWith at h
  simp only at h
  split at h
  · cases h
  · split at h
    · cases h
    · next s ss hs =>
      cases h
      refine ⟨?_, by simp [exactPrinter]⟩
      unfold FwResult.pieces
      dsimp only
      cases ks with
      | nil => rfl
      | cons k ks =>
        simp only [List.isEmpty_cons, Bool.false_eq_true, if_false]
        generalize k :: ks = l
        induction l with
        | nil => rfl
        | cons a l ih => simp only [List.map_cons, List.zip_cons_cons, ih]

theorem wrapPaths_pieces (E : SaEnv ι τ σ P V) {N : NetworkRec ι} {cm : PyCM ι} (hN : N.Plain) (he : EnumOk E.enum) (hcm : cm.Ok)
    {log2W : ℕ → W} (hlog : ∀ n, 0 ≤ log2W n) {maxWidth : W} {us : ℤ}
    {paths : List (List (ℕ × ℕ))} (hP : PartPaths N.tsInds paths) {seed : ℕ} {r : FwResult ι} :
    ∀ (ps : List (List (ℕ × ℕ))) (done : List (FwPart ι)), (∀ p ∈ ps, p ∈ paths) →
      (fwAnneal E N cm log2W maxWidth us).wrapPaths seed ps done = some (.ok r) →
      ∃ ks, r.pieces = done ++ ks ∧ r.cost = r.costs.sum ∧ List.Forall₂ (fun p k => k.cost = pathCost (N.cost cm) N.tsInds N.output k.slices p ∧
        PathFits (N.width cm log2W) maxWidth N.tsInds N.output k.slices p) ps ks
  | [], done, _, h => by
    simp only [Anneal.wrapPaths, Option.some.injEq] at h
    have h' : fwTotalWith exactPrinter N.tensors.length done = .ok r := h
    exact ⟨[], by rw [(fwTotal_pieces h').1, List.append_nil], (fwTotal_pieces h').2, .nil⟩
  | p :: ps, done, hsub, h => by
    rw [Anneal.wrapPaths] at h
    split at h
    · cases h
    · cases h
    · next k hk =>
      obtain ⟨ks, h1, h2, h3⟩ := wrapPaths_pieces E hN he hcm hlog hP ps _ (fun q hq => hsub q (List.mem_cons_of_mem _ hq)) h
      exact ⟨k :: ks, by rw [h1, List.append_assoc]; rfl, h2, .cons (fw_drawn E hN he hcm hlog hP (hsub p List.mem_cons_self) hk) h3⟩
end
end TNCO
