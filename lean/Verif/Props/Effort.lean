import Verif.Lemmas.Effort
import Verif.Props.Anneal
import Verif.Props.Prob

/-! # C82: more effort does not make the results worse -/

namespace TNCO
variable {ι τ σ P V C γ : Type} [DecidableEq ι] [LinearOrder P] [LinearOrder C]

/-- The temperatures of a call that has checked its arguments. -/
theorem usedBetas_of {betas : Betas} {nSteps n : Option ℕ} {bs : List ℚ} {sized : Bool} (h1 : checkSteps (nSteps.map fun k : ℕ => (k : ℚ)) = .ok n)
    (h2 : expandBetas betas n = .ok (bs, sized)) : bs.take (stepsOf n bs) = usedBetas betas nSteps := by
  obtain ⟨rfl, hpos⟩ := checkSteps_nat h1
  rcases betas with ⟨b0, b1⟩ | l | l
  · rcases n with _ | k
    · simp [expandBetas] at h2
    · by_cases hb : b0 = b1
      · simp [expandBetas, hb] at h2
      · rw [C44_betas b0 b1 k hb (hpos k rfl)] at h2
        cases h2
        simp [stepsOf, usedBetas]
  · cases h2
    rcases n with _ | k <;> simp [stepsOf, usedBetas, ← List.take_take]
  · cases h2
    rcases n with _ | k <;> simp [stepsOf, usedBetas, ← List.take_take]

section
variable {pr : Printer C} {E : SaEnv ι τ σ P V} {Wd Wd' : ParEnv V} {N : NetworkRec ι} {betas betas' : Betas} {nSteps nSteps' : Option ℕ} {nProjs : Option ℤ}
  {nJobs nJobs' : ℤ} {seeds seeds' : List ℕ} {sched sched' : List Event} {sys sys' s1 s2 : Sys}

/-- What a call of the infinite-memory app consists of. -/
theorem inf_runs {rs : List (InfResultOf C)}
    (h : optimizeInfWith pr E Wd N betas (nSteps.map fun k : ℕ => (k : ℚ)) nProjs nJobs seeds sched sys = (s1, some (.ok rs))) :
    ∃ bs L rs0, bs.take L = usedBetas betas nSteps ∧ rs = sortResults InfResultOf.cost rs0 ∧
      List.Forall₂ (RunOk (infAnnealWith pr E N ⟨some N.sparse, nProjs⟩) bs L (.tick ∉ sched)) seeds rs0 := by
  unfold optimizeInfWith at h
  split at h
  · cases h
  next n hn =>
  split at h
  · cases h
  next bs sized hb =>
  split at h
  · cases h
  next cm hcm =>
  obtain ⟨rfl, -⟩ := pyCM_make_ok hcm
  obtain ⟨rs0, g1, g2⟩ := runAnneal_results h
  exact ⟨bs, _, rs0, usedBetas_of hn hb, g1, g2⟩

/-- What a call of the finite-width app consists of. -/
theorem fw_runs {W : Type} [AddCommGroup W] [LinearOrder W] {log2W : ℕ → W} {maxWidth : W} {us : ℤ} {rs : List (FwResultOf C ι)}
    (h : optimizeFwWith pr E Wd N log2W maxWidth betas (nSteps.map fun k : ℕ => (k : ℚ)) nProjs us nJobs seeds sched sys = (s1, some (.ok rs))) :
    ∃ bs L rs0, bs.take L = usedBetas betas nSteps ∧ rs = sortResults FwResultOf.cost rs0 ∧
      List.Forall₂ (RunOk (fwAnnealWith pr E N ⟨some N.sparse, nProjs⟩ log2W maxWidth us) bs L (.tick ∉ sched)) seeds rs0 := by
  unfold optimizeFwWith at h
  split at h
  · cases h
  next n hn =>
  split at h
  · cases h
  next bs sized hb =>
  split at h
  · cases h
  split at h
  · cases h
  next cm hcm =>
  obtain ⟨rfl, -⟩ := pyCM_make_ok hcm
  obtain ⟨rs0, g1, g2⟩ := runAnneal_results h
  exact ⟨bs, _, rs0, usedBetas_of hn hb, g1, g2⟩

theorem forall2_join {α β δ : Type} {R : α → β → Prop} {S : α → δ → Prop} {T : β → δ → Prop} (hT : ∀ a b d, R a b → S a d → T b d) {l : List α} {m : List β}
    {k : List δ} (h : List.Forall₂ R l m) (h' : List.Forall₂ S l k) : List.Forall₂ T m k := by
  induction h generalizing k with
  | nil => cases h'; exact .nil
  | cons h _ ih => cases h' with | cons c1 c2 => exact .cons (hT _ _ _ h c1) (ih c2)

/-- C82, steps (infinite memory, partial): a call whose runs have further temperatures after the same ones, and which is not stopped by the time limit, gives results that are
not worse, place by place in the sorted lists; this includes the call with the same temperatures, compared with one that was stopped. There is no
condition on the network, the generators, the acceptance, the number of processes or the schedules. Missing: schedules given by two numbers, where more steps
change all temperatures (`C82_violated`). -/
theorem C82_steps_partial (hpr : pr.Mono) {rs rs' : List (InfResultOf C)}
    (h : optimizeInfWith pr E Wd N betas (nSteps.map fun k : ℕ => (k : ℚ)) nProjs nJobs seeds sched sys = (s1, some (.ok rs)))
    (h' : optimizeInfWith pr E Wd' N betas' (nSteps'.map fun k : ℕ => (k : ℚ)) nProjs nJobs' seeds sched' sys' = (s2, some (.ok rs')))
    (hpre : usedBetas betas nSteps <+: usedBetas betas' nSteps') (hq : Event.tick ∉ sched') :
    List.Forall₂ (fun r r' => r'.cost ≤ r.cost) rs rs' := by
  obtain ⟨bs, L, rs0, h1, rfl, h2⟩ := inf_runs h
  obtain ⟨bs', L', rs0', g1, rfl, g2⟩ := inf_runs h'
  rw [← h1, ← g1] at hpre
  refine sort_dominated (forall2_join (fun seed r r' k k' => ?_) h2 g2)
  exact run_dominated (inf_improves hpr E N _) (inf_total_mono hpr _) hpre hq k k'

/-- C82, steps (finite width, partial): the same; the slices are looked for in the same turns. -/
theorem C82_steps_width_partial {W : Type} [AddCommGroup W] [LinearOrder W] (log2W : ℕ → W) (maxWidth : W) (us : ℤ) (hpr : pr.Mono) {rs rs' : List (FwResultOf C ι)}
    (h : optimizeFwWith pr E Wd N log2W maxWidth betas (nSteps.map fun k : ℕ => (k : ℚ)) nProjs us nJobs seeds sched sys = (s1, some (.ok rs)))
    (h' : optimizeFwWith pr E Wd' N log2W maxWidth betas' (nSteps'.map fun k : ℕ => (k : ℚ)) nProjs us nJobs' seeds sched' sys' = (s2, some (.ok rs')))
    (hpre : usedBetas betas nSteps <+: usedBetas betas' nSteps') (hq : Event.tick ∉ sched') :
    List.Forall₂ (fun r r' => r'.cost ≤ r.cost) rs rs' := by
  obtain ⟨bs, L, rs0, h1, rfl, h2⟩ := fw_runs h
  obtain ⟨bs', L', rs0', g1, rfl, g2⟩ := fw_runs h'
  rw [← h1, ← g1] at hpre
  refine sort_dominated (forall2_join (fun seed r r' k k' => ?_) h2 g2)
  exact run_dominated (fw_improves hpr E N _ log2W maxWidth us) (fw_total_mono hpr _) hpre hq k k'

/-- C82, runs (infinite memory): calls that are not stopped, with the same temperatures. If all seeds of the first are among those of the second (as often), all
results of the first are among those of the second; with the same seeds in any order, the results are the same up to the order of those of equal cost. The number of
processes, the schedules and the state of the system do not matter. -/
theorem C82_runs {rs rs' : List (InfResultOf C)}
    (h : optimizeInfWith pr E Wd N betas (nSteps.map fun k : ℕ => (k : ℚ)) nProjs nJobs seeds sched sys = (s1, some (.ok rs)))
    (h' : optimizeInfWith pr E Wd' N betas' (nSteps'.map fun k : ℕ => (k : ℚ)) nProjs nJobs' seeds' sched' sys' = (s2, some (.ok rs')))
    (heq : usedBetas betas nSteps = usedBetas betas' nSteps') (hq : Event.tick ∉ sched) (hq' : Event.tick ∉ sched') :
    (seeds.Subperm seeds' → rs.Subperm rs') ∧ (seeds.Perm seeds' → rs.Perm rs' ∧ rs.map InfResultOf.cost = rs'.map InfResultOf.cost) ∧ (seeds = seeds' → rs = rs') := by
  obtain ⟨bs, L, rs0, h1, rfl, h2⟩ := inf_runs h
  obtain ⟨bs', L', rs0', g1, rfl, g2⟩ := inf_runs h'
  rw [← h1, ← g1] at heq
  have hu := fun a b b' (k : RunOk (infAnnealWith pr E N ⟨some N.sparse, nProjs⟩) bs L (.tick ∉ sched) a b)
    (k' : RunOk (infAnnealWith pr E N ⟨some N.sparse, nProjs⟩) bs' L' (.tick ∉ sched') a b') => run_unique heq hq hq' k k'
  have hp : ∀ rs0 : List (InfResultOf C), (sortResults InfResultOf.cost rs0).Perm rs0 := fun rs0 => sortResults_perm _ rs0
  refine ⟨fun hs => ?_, fun hs => ?_, ?_⟩
  · exact (hp rs0).subperm.trans ((forall2_subperm hu hs h2 g2).trans (hp rs0').symm.subperm)
  · have : (sortResults InfResultOf.cost rs0).Perm (sortResults InfResultOf.cost rs0') := (hp rs0).trans ((forall2_perm hu hs h2 g2).trans (hp rs0').symm)
    refine ⟨this, (this.map _).eq_of_pairwise (fun a b _ _ h1 h2 => le_antisymm h1 h2) ?_ ?_⟩
    · exact List.pairwise_map.2 (sortResults_sorted _ _)
    · exact List.pairwise_map.2 (sortResults_sorted _ _)
  · rintro rfl
    have e := forall2_join hu h2 g2
    rw [List.forall₂_eq_eq_eq] at e
    rw [e]

/-- C82, runs (finite width). -/
theorem C82_runs_width {W : Type} [AddCommGroup W] [LinearOrder W] (log2W : ℕ → W) (maxWidth : W) (us : ℤ) {rs rs' : List (FwResultOf C ι)}
    (h : optimizeFwWith pr E Wd N log2W maxWidth betas (nSteps.map fun k : ℕ => (k : ℚ)) nProjs us nJobs seeds sched sys = (s1, some (.ok rs)))
    (h' : optimizeFwWith pr E Wd' N log2W maxWidth betas' (nSteps'.map fun k : ℕ => (k : ℚ)) nProjs us nJobs' seeds' sched' sys' = (s2, some (.ok rs')))
    (heq : usedBetas betas nSteps = usedBetas betas' nSteps') (hq : Event.tick ∉ sched) (hq' : Event.tick ∉ sched') :
    (seeds.Subperm seeds' → rs.Subperm rs') ∧ (seeds.Perm seeds' → rs.Perm rs' ∧ rs.map FwResultOf.cost = rs'.map FwResultOf.cost) ∧ (seeds = seeds' → rs = rs') := by
  obtain ⟨bs, L, rs0, h1, rfl, h2⟩ := fw_runs h
  obtain ⟨bs', L', rs0', g1, rfl, g2⟩ := fw_runs h'
  rw [← h1, ← g1] at heq
  have hu := fun a b b' (k : RunOk (fwAnnealWith pr E N ⟨some N.sparse, nProjs⟩ log2W maxWidth us) bs L (.tick ∉ sched) a b)
    (k' : RunOk (fwAnnealWith pr E N ⟨some N.sparse, nProjs⟩ log2W maxWidth us) bs' L' (.tick ∉ sched') a b') => run_unique heq hq hq' k k'
  have hp : ∀ rs0 : List (FwResultOf C ι), (sortResults FwResultOf.cost rs0).Perm rs0 := fun rs0 => sortResults_perm _ rs0
  refine ⟨fun hs => ?_, fun hs => ?_, ?_⟩
  · exact (hp rs0).subperm.trans ((forall2_subperm hu hs h2 g2).trans (hp rs0').symm.subperm)
  · have : (sortResults FwResultOf.cost rs0).Perm (sortResults FwResultOf.cost rs0') := (hp rs0).trans ((forall2_perm hu hs h2 g2).trans (hp rs0').symm)
    refine ⟨this, (this.map _).eq_of_pairwise (fun a b _ _ h1 h2 => le_antisymm h1 h2) ?_ ?_⟩
    · exact List.pairwise_map.2 (sortResults_sorted _ _)
    · exact List.pairwise_map.2 (sortResults_sorted _ _)
  · rintro rfl
    have e := forall2_join hu h2 g2
    rw [List.forall₂_eq_eq_eq] at e
    rw [e]

end

/-- C82: costs as they are, and as the apps report them, are in the right order. -/
theorem C82_printers (fixed : Bool) : exactPrinter.Mono ∧ (costPrinter fixed).Mono := ⟨exactPrinter_mono, costPrinter_mono fixed⟩

/-! ## Several calls -/

section
variable {pr : Printer C} {random : γ → ℚ × γ} {E : SaEnv ι τ σ P V} {Wd Wd' Wd'' : ParEnv V} {N : NetworkRec ι} {betas : Betas} {nSteps : Option ℕ} {nProjs : Option ℤ}
  {nJobs nJobs' nJobs'' : ℤ} {sched sched' sched'' : List Event} {sys sys' sys'' : Sys}

theorem callInf_ok {n : ℕ} {s : γ} {rs : List (InfResultOf C)}
    (h : (callInf pr random E Wd N betas (nSteps.map fun k : ℕ => (k : ℚ)) nProjs nJobs n sched s sys).value = some (.ok rs)) :
    (callInf pr random E Wd N betas (nSteps.map fun k : ℕ => (k : ℚ)) nProjs nJobs n sched s sys).rng = (choices random (2 ^ 32) n s).2 ∧
    ∃ s1, optimizeInfWith pr E Wd N betas (nSteps.map fun k : ℕ => (k : ℚ)) nProjs nJobs (choices random (2 ^ 32) n s).1 sched sys = (s1, some (.ok rs)) := by
  unfold callInf at h ⊢
  split
  · next h' => rw [h'] at h; cases h
  next m hm =>
  rw [hm] at h
  dsimp only at h
  split
  · next h' => rw [h'] at h; cases h
  next b hb =>
  rw [hb] at h
  dsimp only at h
  split
  · next h' => rw [h'] at h; cases h
  next c hc =>
  rw [hc] at h
  exact ⟨rfl, _, Prod.ext rfl h⟩

theorem callFw_ok {W : Type} [AddCommGroup W] [LinearOrder W] {log2W : ℕ → W} {maxWidth : W} {us : ℤ} {n : ℕ} {s : γ} {rs : List (FwResultOf C ι)}
    (h : (callFw pr random E Wd N log2W maxWidth betas (nSteps.map fun k : ℕ => (k : ℚ)) nProjs us nJobs n sched s sys).value = some (.ok rs)) :
    (callFw pr random E Wd N log2W maxWidth betas (nSteps.map fun k : ℕ => (k : ℚ)) nProjs us nJobs n sched s sys).rng = (choices random (2 ^ 32) n s).2 ∧
    ∃ s1, optimizeFwWith pr E Wd N log2W maxWidth betas (nSteps.map fun k : ℕ => (k : ℚ)) nProjs us nJobs (choices random (2 ^ 32) n s).1 sched sys =
      (s1, some (.ok rs)) := by
  unfold callFw at h ⊢
  split
  · next h' => rw [h'] at h; cases h
  next m hm =>
  rw [hm] at h
  dsimp only at h
  split
  · next h' => rw [h'] at h; cases h
  next b hb =>
  rw [hb] at h
  dsimp only at h
  by_cases hw : maxWidth < 0
  · rw [if_pos hw] at h; cases h
  rw [if_neg hw] at h ⊢
  split
  · next h' => rw [h'] at h; cases h
  next c hc =>
  rw [hc] at h
  exact ⟨rfl, _, Prod.ext rfl h⟩

/-- C82, calls (infinite memory): two calls on one optimizer, with `a` and `b` runs, that are not stopped, give together the results of one call with `a + b` runs, and
leave the generator of the seeds in the same state. -/
theorem C82_calls {a b : ℕ} {s : γ} {rs1 rs2 rs : List (InfResultOf C)}
    (h1 : (callInf pr random E Wd N betas (nSteps.map fun k : ℕ => (k : ℚ)) nProjs nJobs a sched s sys).value = some (.ok rs1))
    (h2 : (callInf pr random E Wd' N betas (nSteps.map fun k : ℕ => (k : ℚ)) nProjs nJobs' b sched'
      (callInf pr random E Wd N betas (nSteps.map fun k : ℕ => (k : ℚ)) nProjs nJobs a sched s sys).rng sys').value = some (.ok rs2))
    (h : (callInf pr random E Wd'' N betas (nSteps.map fun k : ℕ => (k : ℚ)) nProjs nJobs'' (a + b : ℕ) sched'' s sys'').value = some (.ok rs))
    (hq1 : Event.tick ∉ sched) (hq2 : Event.tick ∉ sched') (hq : Event.tick ∉ sched'') :
    rs.Perm (rs1 ++ rs2) ∧
    (callInf pr random E Wd'' N betas (nSteps.map fun k : ℕ => (k : ℚ)) nProjs nJobs'' (a + b : ℕ) sched'' s sys'').rng =
      (callInf pr random E Wd' N betas (nSteps.map fun k : ℕ => (k : ℚ)) nProjs nJobs' b sched'
        (callInf pr random E Wd N betas (nSteps.map fun k : ℕ => (k : ℚ)) nProjs nJobs a sched s sys).rng sys').rng := by
  obtain ⟨e1, t1, k1⟩ := callInf_ok h1
  rw [e1] at h2 ⊢
  obtain ⟨e2, t2, k2⟩ := callInf_ok h2
  obtain ⟨e3, t3, k3⟩ := callInf_ok h
  rw [choices_add] at e3 k3
  refine ⟨?_, by rw [e2, e3]⟩
  obtain ⟨bs1, L1, r1, u1, rfl, f1⟩ := inf_runs k1
  obtain ⟨bs2, L2, r2, u2, rfl, f2⟩ := inf_runs k2
  obtain ⟨bs3, L3, r3, u3, rfl, f3⟩ := inf_runs k3
  have f1' := f1.imp fun seed r k => (⟨bs1, L1, _, hq1, u1, k⟩ : ∃ bs L, ∃ q : Prop, q ∧ bs.take L = usedBetas betas nSteps ∧
    RunOk (infAnnealWith pr E N ⟨some N.sparse, nProjs⟩) bs L q seed r)
  have f2' := f2.imp fun seed r k => (⟨bs2, L2, _, hq2, u2, k⟩ : ∃ bs L, ∃ q : Prop, q ∧ bs.take L = usedBetas betas nSteps ∧
    RunOk (infAnnealWith pr E N ⟨some N.sparse, nProjs⟩) bs L q seed r)
  have := forall2_perm (fun seed r r' k ⟨bs, L, q, hq', u, k'⟩ => run_unique (u3.trans u.symm) hq hq' k k') (List.Perm.refl _) f3 (List.rel_append f1' f2')
  exact (sortResults_perm _ _).trans (this.trans ((sortResults_perm _ _).symm.append (sortResults_perm _ _).symm))

/-- C82, calls (finite width). -/
theorem C82_calls_width {W : Type} [AddCommGroup W] [LinearOrder W] (log2W : ℕ → W) (maxWidth : W) (us : ℤ) {a b : ℕ} {s : γ} {rs1 rs2 rs : List (FwResultOf C ι)}
    (h1 : (callFw pr random E Wd N log2W maxWidth betas (nSteps.map fun k : ℕ => (k : ℚ)) nProjs us nJobs a sched s sys).value = some (.ok rs1))
    (h2 : (callFw pr random E Wd' N log2W maxWidth betas (nSteps.map fun k : ℕ => (k : ℚ)) nProjs us nJobs' b sched'
      (callFw pr random E Wd N log2W maxWidth betas (nSteps.map fun k : ℕ => (k : ℚ)) nProjs us nJobs a sched s sys).rng sys').value = some (.ok rs2))
    (h : (callFw pr random E Wd'' N log2W maxWidth betas (nSteps.map fun k : ℕ => (k : ℚ)) nProjs us nJobs'' (a + b : ℕ) sched'' s sys'').value = some (.ok rs))
    (hq1 : Event.tick ∉ sched) (hq2 : Event.tick ∉ sched') (hq : Event.tick ∉ sched'') :
    rs.Perm (rs1 ++ rs2) ∧
    (callFw pr random E Wd'' N log2W maxWidth betas (nSteps.map fun k : ℕ => (k : ℚ)) nProjs us nJobs'' (a + b : ℕ) sched'' s sys'').rng =
      (callFw pr random E Wd' N log2W maxWidth betas (nSteps.map fun k : ℕ => (k : ℚ)) nProjs us nJobs' b sched'
        (callFw pr random E Wd N log2W maxWidth betas (nSteps.map fun k : ℕ => (k : ℚ)) nProjs us nJobs a sched s sys).rng sys').rng := by
  obtain ⟨e1, t1, k1⟩ := callFw_ok h1
  rw [e1] at h2 ⊢
  obtain ⟨e2, t2, k2⟩ := callFw_ok h2
  obtain ⟨e3, t3, k3⟩ := callFw_ok h
  rw [choices_add] at e3 k3
  refine ⟨?_, by rw [e2, e3]⟩
  obtain ⟨bs1, L1, r1, u1, rfl, f1⟩ := fw_runs k1
  obtain ⟨bs2, L2, r2, u2, rfl, f2⟩ := fw_runs k2
  obtain ⟨bs3, L3, r3, u3, rfl, f3⟩ := fw_runs k3
  have f1' := f1.imp fun seed r k => (⟨bs1, L1, _, hq1, u1, k⟩ : ∃ bs L, ∃ q : Prop, q ∧ bs.take L = usedBetas betas nSteps ∧
    RunOk (fwAnnealWith pr E N ⟨some N.sparse, nProjs⟩ log2W maxWidth us) bs L q seed r)
  have f2' := f2.imp fun seed r k => (⟨bs2, L2, _, hq2, u2, k⟩ : ∃ bs L, ∃ q : Prop, q ∧ bs.take L = usedBetas betas nSteps ∧
    RunOk (fwAnnealWith pr E N ⟨some N.sparse, nProjs⟩ log2W maxWidth us) bs L q seed r)
  have := forall2_perm (fun seed r r' k ⟨bs, L, q, hq', u, k'⟩ => run_unique (u3.trans u.symm) hq hq' k k') (List.Perm.refl _) f3 (List.rel_append f1' f2')
  exact (sortResults_perm _ _).trans (this.trans ((sortResults_perm _ _).symm.append (sortResults_perm _ _).symm))

/-- C82, seeds: a call draws as many seeds as it has runs, all below 2^32 if `random` gives numbers from 0 up to but not including 1. -/
theorem C82_seeds (hr : ∀ s, 0 ≤ (random s).1 ∧ (random s).1 < 1) : ∀ (n : ℕ) (s : γ),
    (choices random (2 ^ 32) n s).1.length = n ∧ ∀ x ∈ (choices random (2 ^ 32) n s).1, x < 2 ^ 32
  | 0, s => by simp [choices]
  | n + 1, s => by
    obtain ⟨h1, h2⟩ := C82_seeds hr n (random s).2
    simp only [choices, List.length_cons, h1, List.mem_cons, true_and]
    rintro x (rfl | hx)
    · obtain ⟨g1, g2⟩ := hr s
      have : ((random s).1 * ((2 ^ 32 : ℕ) : ℚ)).floor < 2 ^ 32 := by
        rw [Rat.floor_lt_iff]
        push_cast
        linarith
      omega
    · exact h2 x hx

end

/-! ## More steps between two given temperatures -/

/-- The acceptance of Metropolis and Hastings, to the sixth power, where `6 * b` is a natural number. -/
def prob6 (b : ℚ) (d o : ℤ) : ℚ := if d ≤ 0 then 1 else ((o : ℚ) / (o + d)) ^ (6 * b).floor.toNat

/-- A draw is accepted if its sixth power is at most `prob6`. -/
theorem prob6_iff (b : ℚ) (k : ℕ) (hb : 6 * b = k) (d o : ℤ) (ho : 0 < o) (u : ℚ) (hu : 0 ≤ u) :
    (u : ℝ) ≤ probMH b d o ↔ u ^ 6 ≤ prob6 b d o := by
  unfold probMH prob6
  have hu' : (0 : ℝ) ≤ u := by exact_mod_cast hu
  by_cases hd : d ≤ 0
  · have : (d : ℝ) ≤ 0 := by exact_mod_cast hd
    rw [if_pos this, if_pos hd]
    constructor
    · intro h
      have : u ≤ 1 := by exact_mod_cast h
      exact pow_le_one₀ hu this
    · intro h
      have : u ≤ 1 := by
        by_contra hc
        exact absurd h (not_le.2 (one_lt_pow₀ (not_le.1 hc) (by norm_num)))
      exact_mod_cast this
  · have : ¬ (d : ℝ) ≤ 0 := by exact_mod_cast hd
    rw [if_neg this, if_neg hd]
    have ho' : (0 : ℝ) < o := by exact_mod_cast ho
    have hd' : (0 : ℝ) < d := not_le.1 this
    have hx : (1 : ℝ) + d / o = ((o : ℝ) / (o + d))⁻¹ := by
      field_simp
    have hx0 : (0 : ℝ) ≤ (o : ℝ) / (o + d) := by positivity
    have hfl : (6 * b).floor.toNat = k := by
      rw [hb]
      have : ((k : ℕ) : ℚ).floor = k := by simpa using Rat.floor_intCast (k : ℤ)
      rw [this]; simp
    rw [hfl, hx, Real.inv_rpow hx0, Real.rpow_neg hx0, inv_inv]
    have h6 : (((o : ℝ) / (o + d)) ^ (b : ℝ)) ^ 6 = ((o : ℝ) / (o + d)) ^ k := by
      rw [← Real.rpow_natCast, ← Real.rpow_mul hx0, ← Real.rpow_natCast]
      congr 1
      have : (6 : ℝ) * b = k := by exact_mod_cast hb
      rw [← this]; push_cast; ring
    have hy : (0 : ℝ) ≤ ((o : ℝ) / (o + d)) ^ (b : ℝ) := Real.rpow_nonneg hx0 _
    rw [← pow_le_pow_iff_left₀ hu' hy (by norm_num : (6 : ℕ) ≠ 0), h6]
    exact_mod_cast Iff.rfl

/-- A generator whose numbers are 0, 2, 4, … and whose draws are all 3/4 (to the sixth power). -/
def evenPrng : FwPrng ℕ ℚ := ⟨⟨fun s => (2 * s, s + 1), fun s => ((3 / 4) ^ 6, s + 1)⟩, fun s l => (l, s), fun _ l => .refl l⟩

def evenEnv : SaEnv ℕ Unit ℕ ℚ ℕ := { saEnv with prng := evenPrng, prngSeed := fun _ => 0, prob := prob6 }

/-- Four matrices in a row. -/
def rowNet : NetworkRec ℕ :=
  ⟨[⟨[0, 1], [2, 8], none⟩, ⟨[1, 2], [8, 2], none⟩, ⟨[2, 3], [2, 4], none⟩, ⟨[3, 4], [4, 2], none⟩], {0, 4}, ∅, [(0, 2), (1, 8), (2, 2), (3, 4), (4, 2)]⟩

/-- C82, the negation: between the inverse temperatures 0 and 1, with the acceptance of Metropolis and Hastings and one seed, two steps lead to a path of cost 56 and
three steps to one of cost 80. (The temperatures are 0, 1/2 and 0, 1/3, 2/3.) With the temperatures given one by one, the first two and a third one, the cost stays 56. -/
theorem C82_violated :
    (optimizeInf evenEnv saPar rowNet (.pair 0 1) (some 2) none 1 [1] (saSched 1 40) ⟨[], 0, 0⟩).2 =
      some (.ok [⟨56, [(2, 3), (0, 1), (0, 1)], [56], [[(2, 3), (1, 0), (0, 1)]]⟩]) ∧
    (optimizeInf evenEnv saPar rowNet (.pair 0 1) (some 3) none 1 [1] (saSched 1 40) ⟨[], 0, 0⟩).2 =
      some (.ok [⟨80, [(2, 3), (1, 2), (0, 1)], [80], [[(2, 3), (1, 2), (0, 1)]]⟩]) ∧
    (optimizeInf evenEnv saPar rowNet (.sized [0, 1 / 2, 2 / 3]) none none 1 [1] (saSched 1 40) ⟨[], 0, 0⟩).2 =
      some (.ok [⟨56, [(2, 3), (0, 1), (0, 1)], [56], [[(2, 3), (1, 0), (0, 1)]]⟩]) := by
  decide +kernel

/-- One step, and a stopped call, against the same temperatures and one more: 80, 80 and 56. -/
example :
    (optimizeInf evenEnv saPar rowNet (.sized [0]) none none 1 [1] (saSched 1 40) ⟨[], 0, 0⟩).2 =
      some (.ok [⟨80, [(2, 3), (1, 2), (0, 1)], [80], [[(2, 3), (1, 2), (0, 1)]]⟩]) ∧
    (optimizeInf evenEnv saPar rowNet (.sized [0, 1 / 2]) none none 1 [1] ([.tick, .tick] ++ saSched 1 40) ⟨[], 0, 0⟩).2 =
      some (.ok [⟨80, [(2, 3), (1, 2), (0, 1)], [80], [[(2, 3), (1, 2), (0, 1)]]⟩]) ∧
    (optimizeInf evenEnv saPar rowNet (.sized [0, 1 / 2]) none none 1 [1] (saSched 1 40) ⟨[], 0, 0⟩).2 =
      some (.ok [⟨56, [(2, 3), (0, 1), (0, 1)], [56], [[(2, 3), (1, 0), (0, 1)]]⟩]) ∧
    usedBetas (.sized [0]) none <+: usedBetas (.sized [0, 1 / 2]) none ∧ Event.tick ∉ saSched 1 40 := by
  refine ⟨by decide +kernel, by decide +kernel, by decide +kernel, by decide +kernel, by decide +kernel⟩

/-- A generator that counts in eighths. -/
def eighths (s : ℕ) : ℚ × ℕ := ((s % 8 : ℕ) / 8, s + 1)

/-- The generator of a run now depends on the seed. -/
def seededEnv : SaEnv ℕ Unit ℕ ℚ ℕ := { evenEnv with prngSeed := fun s => s / 2 ^ 29 }

def callRows (n : ℕ) (s : ℕ) : CallEnd ℕ (List InfResult) :=
  callInf exactPrinter eighths seededEnv saPar rowNet (.sized [0, 1 / 2]) ((none : Option ℕ).map fun k : ℕ => (k : ℚ)) none 1 n (saSched n 40) s ⟨[], 0, 0⟩

example : (∀ s, 0 ≤ (eighths s).1 ∧ (eighths s).1 < 1) ∧ (choices eighths (2 ^ 32) 2 1).1 = [2 ^ 29, 2 ^ 30] ∧
    (callRows 1 1).value = some (.ok [⟨80, [(2, 3), (1, 2), (0, 1)], [80], [[(2, 3), (1, 2), (0, 1)]]⟩]) ∧ (callRows 1 1).rng = 2 ∧
    (callRows 1 2).value = some (.ok [⟨56, [(2, 3), (0, 1), (0, 1)], [56], [[(2, 3), (1, 0), (0, 1)]]⟩]) ∧
    (callRows 2 1).value = some (.ok [⟨56, [(2, 3), (0, 1), (0, 1)], [56], [[(2, 3), (1, 0), (0, 1)]]⟩, ⟨80, [(2, 3), (1, 2), (0, 1)], [80], [[(2, 3), (1, 2), (0, 1)]]⟩]) ∧
    (callRows 2 1).rng = 3 := by
  refine ⟨fun s => ?_, by decide +kernel, by decide +kernel, by decide +kernel, by decide +kernel, by decide +kernel, by decide +kernel⟩
  have h : s % 8 < 8 := Nat.mod_lt _ (by norm_num)
  have h' : ((s % 8 : ℕ) : ℚ) < 8 := by exact_mod_cast h
  have h0 : (0 : ℚ) ≤ ((s % 8 : ℕ) : ℚ) := by positivity
  unfold eighths
  constructor
  · simp only; linarith
  · simp only; linarith

end TNCO
