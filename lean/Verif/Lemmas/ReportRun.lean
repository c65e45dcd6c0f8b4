import Verif.Lemmas.ParallelMap
import Verif.Lemmas.Report

/-! The apps with reported costs and with exact costs. -/

namespace TNCO
variable {ι τ σ P V C : Type} [DecidableEq ι] [LinearOrder P]

/-- How a printer shows a part and a result. -/
def InfPartOf.show (pr : Printer C) (k : InfPart) : InfPartOf C := ⟨pr.shown k.cost, k.path⟩
def InfResultOf.show (pr : Printer C) (r : InfResult) : InfResultOf C := ⟨pr.total (r.costs.map pr.shown), r.path, r.costs.map pr.shown, r.paths⟩
def FwPartOf.show (pr : Printer C) (k : FwPart ι) : FwPartOf C ι := ⟨pr.shown k.cost, k.path, k.slices⟩
def FwResultOf.show (pr : Printer C) (r : FwResult ι) : FwResultOf C ι :=
  ⟨pr.total (r.costs.map pr.shown), r.path, r.costs.map pr.shown, r.paths, r.slicesList, r.slices⟩

omit [DecidableEq ι] [LinearOrder P] in
theorem infTotal_show (pr : Printer C) (n : ℕ) (l : List InfPart) :
    infTotalWith pr n (l.map (InfPartOf.show pr)) = (infTotalWith exactPrinter n l).map (InfResultOf.show pr) := by
  unfold infTotalWith
  have e1 : (l.map (InfPartOf.show pr)).map InfPartOf.path = l.map InfPartOf.path := by
    rw [List.map_map]; rfl
  have e2 : (l.map (InfPartOf.show pr)).map InfPartOf.cost = (l.map InfPartOf.cost).map pr.shown := by
    rw [List.map_map, List.map_map]; rfl
  have e3 : (l.map (InfPartOf.show pr)).isEmpty = l.isEmpty := by cases l <;> rfl
  simp only [e1, e2, e3]
  cases mergePaths n (if l.isEmpty = true then List.replicate n [] else l.map InfPartOf.path) true <;> rfl

omit [LinearOrder P] in
theorem fwTotal_show (pr : Printer C) (n : ℕ) (l : List (FwPart ι)) :
    fwTotalWith pr n (l.map (FwPartOf.show pr)) = (fwTotalWith exactPrinter n l).map (FwResultOf.show pr) := by
  unfold fwTotalWith
  have e1 : (l.map (FwPartOf.show pr)).map FwPartOf.path = l.map FwPartOf.path := by
    rw [List.map_map]; rfl
  have e2 : (l.map (FwPartOf.show pr)).map FwPartOf.cost = (l.map FwPartOf.cost).map pr.shown := by
    rw [List.map_map, List.map_map]; rfl
  have e3 : (l.map (FwPartOf.show pr)).isEmpty = l.isEmpty := by cases l <;> rfl
  have e4 : (l.map (FwPartOf.show pr)).map FwPartOf.slices = l.map FwPartOf.slices := by
    rw [List.map_map]; rfl
  simp only [e1, e2, e3, e4]
  cases mergePaths n (if l.isEmpty = true then List.replicate n [] else l.map FwPartOf.path) true with
  | error e => rfl
  | ok path => rcases (if l.isEmpty = true then List.replicate n ∅ else l.map FwPartOf.slices) with _ | ⟨s, ss⟩ <;> rfl

variable (pr : Printer C) (hz : pr.shown 0 = pr.zero)

include hz in
theorem inf_sim (E : SaEnv ι τ σ P V) (N : NetworkRec ι) (cm : PyCM ι) :
    Anneal.Sim (InfPartOf.show pr) (InfResultOf.show pr) (infAnnealWith exactPrinter E N cm) (infAnnealWith pr E N cm) where
  paths _ := rfl
  make _ _ := rfl
  update _ _ _ := rfl
  log2 _ := rfl
  finish o := by
    simp only [infAnnealWith]
    rcases getCtree o.1.cache o.1.core.minCtree with e | t
    · rfl
    · simp only
      rcases t.path with _ | p <;> rfl
  trivial := by simp only [infAnnealWith, InfPartOf.show, exactPrinter, hz]
  total l := infTotal_show pr _ l

include hz in
theorem fw_sim {W : Type} [AddCommGroup W] [LinearOrder W] (E : SaEnv ι τ σ P V) (N : NetworkRec ι) (cm : PyCM ι) (log2W : ℕ → W) (maxWidth : W) (us : ℤ) :
    Anneal.Sim (FwPartOf.show pr) (FwResultOf.show pr) (fwAnnealWith exactPrinter E N cm log2W maxWidth us) (fwAnnealWith pr E N cm log2W maxWidth us) where
  paths _ := rfl
  make _ _ := rfl
  update _ _ _ := rfl
  log2 _ := rfl
  finish o := by
    simp only [fwAnnealWith]
    rcases getCtree o.opt.cache o.opt.core.inf.minCtree with e | t
    · rfl
    · simp only
      rcases ofBits o.opt.cache.indsOrder o.opt.core.inf.ctree.nInds o.opt.core.minSlices with _ | sl
      · rfl
      · simp only
        rcases t.path with _ | p <;> rfl
  trivial := by simp only [fwAnnealWith, FwPartOf.show, exactPrinter, hz]
  total l := fwTotal_show pr _ l

section
variable [LinearOrder C] (E : SaEnv ι τ σ P V) (Wd : ParEnv V) (N : NetworkRec ι) (betas : Betas) (nSteps : Option ℚ) (nProjs : Option ℤ) (nJobs : ℤ)
  (seeds : List ℕ) (sched : List Event) (sys : Sys)

include hz in
/-- Both runs come from the same list of exact results. -/
theorem optimizeInf_show : ∃ out : Sys × Option (Except (ParErr PyErr) (List InfResult)),
    optimizeInf E Wd N betas nSteps nProjs nJobs seeds sched sys = sortOutcome InfResultOf.cost out ∧
      optimizeInfWith pr E Wd N betas nSteps nProjs nJobs seeds sched sys = sortOutcome InfResultOf.cost (mapOutcome (InfResultOf.show pr) out) := by
  unfold optimizeInf optimizeInfWith
  cases checkSteps nSteps with
  | error e => exact ⟨(sys, some (.error (.lib e))), rfl, rfl⟩
  | ok n =>
    simp only
    rcases expandBetas betas n with e | ⟨bs, sized⟩
    · exact ⟨(sys, some (.error (.lib e))), rfl, rfl⟩
    simp only
    rcases PyCM.make (some N.sparse) nProjs with e | cm
    · exact ⟨(sys, some (.error (.lib e))), rfl, rfl⟩
    simp only
    exact ⟨_, runAnneal_raw _ _, by rw [runAnneal_raw, rawAnneal_map (inf_sim pr hz E N cm)]⟩

include hz in
theorem optimizeFw_show {W : Type} [AddCommGroup W] [LinearOrder W] (log2W : ℕ → W) (maxWidth : W) (us : ℤ) :
    ∃ out : Sys × Option (Except (ParErr PyErr) (List (FwResult ι))),
    optimizeFw E Wd N log2W maxWidth betas nSteps nProjs us nJobs seeds sched sys = sortOutcome FwResultOf.cost out ∧
      optimizeFwWith pr E Wd N log2W maxWidth betas nSteps nProjs us nJobs seeds sched sys = sortOutcome FwResultOf.cost (mapOutcome (FwResultOf.show pr) out) := by
  unfold optimizeFw optimizeFwWith
  cases checkSteps nSteps with
  | error e => exact ⟨(sys, some (.error (.lib e))), rfl, rfl⟩
  | ok n =>
    simp only
    rcases expandBetas betas n with e | ⟨bs, sized⟩
    · exact ⟨(sys, some (.error (.lib e))), rfl, rfl⟩
    simp only
    split
    · exact ⟨(sys, some (.error (.lib .valueError))), rfl, rfl⟩
    rcases PyCM.make (some N.sparse) nProjs with e | cm
    · exact ⟨(sys, some (.error (.lib e))), rfl, rfl⟩
    simp only
    exact ⟨_, runAnneal_raw _ _, by rw [runAnneal_raw, rawAnneal_map (fw_sim pr hz E N cm log2W maxWidth us)]⟩

end

section
variable {ρ ρ' D : Type} [LinearOrder C] [LinearOrder D]

/-- What the two lists of results have in common. -/
theorem outcomes_ok {out : Sys × Option (Except (ParErr PyErr) (List ρ))} {cost : ρ → C} {cost' : ρ' → D} {f : ρ → ρ'} {sys' : Sys} {rs' : List ρ'}
    (h : sortOutcome cost' (mapOutcome f out) = (sys', some (.ok rs'))) :
    ∃ rs rs0 : List ρ, sortOutcome cost out = (sys', some (.ok rs)) ∧ rs0.Perm rs ∧ rs' = rs0.map f ∧ rs'.Pairwise fun a b => cost' a ≤ cost' b := by
  obtain ⟨s, o⟩ := out
  rcases o with _ | e | l
  · simp [sortOutcome, mapOutcome] at h
  · simp [sortOutcome, mapOutcome, Except.map] at h
  · simp only [sortOutcome, mapOutcome, Except.map, Option.map_some, Prod.mk.injEq, Option.some.injEq, Except.ok.injEq] at h
    obtain ⟨rfl, rfl⟩ := h
    refine ⟨sortResults cost l, sortResults (fun r => cost' (f r)) l, rfl, ?_, ?_, sortResults_sorted _ _⟩
    · exact (sortResults_perm _ l).trans (sortResults_perm cost l).symm
    · unfold sortResults
      rw [List.map_insertionSort (r := fun a b => cost' (f a) ≤ cost' (f b)) (s := fun a b => cost' a ≤ cost' b)]
      intro a _ b _
      exact Iff.rfl

theorem outcomes_not_ok {out : Sys × Option (Except (ParErr PyErr) (List ρ))} {cost : ρ → C} {cost' : ρ' → D} {f : ρ → ρ'} {sys' : Sys} :
    (sortOutcome cost' (mapOutcome f out) = (sys', none) ↔ sortOutcome cost out = (sys', none)) ∧
      (∀ e, sortOutcome cost' (mapOutcome f out) = (sys', some (.error e)) ↔ sortOutcome cost out = (sys', some (.error e))) ∧
      ((∃ rs, sortOutcome cost' (mapOutcome f out) = (sys', some (.ok rs))) ↔ ∃ rs, sortOutcome cost out = (sys', some (.ok rs))) := by
  obtain ⟨s, o⟩ := out
  rcases o with _ | e | l
  · simp [sortOutcome, mapOutcome]
  · simp [sortOutcome, mapOutcome, Except.map]
  · simp [sortOutcome, mapOutcome, Except.map]

end

theorem inf_reported (fixed : Bool) (r : InfResult) : InfReported fixed r (InfResultOf.show (costPrinter fixed) r) := ⟨rfl, rfl, rfl, rfl⟩

omit [DecidableEq ι] in
theorem fw_reported (fixed : Bool) (r : FwResult ι) : FwReported fixed r (FwResultOf.show (costPrinter fixed) r) := ⟨rfl, rfl, rfl, rfl, rfl, rfl⟩

theorem costPrinter_zero (fixed : Bool) : (costPrinter fixed).shown 0 = (costPrinter fixed).zero := shownCost_zero fixed

theorem forall₂_of_map {α β : Type} {R : α → β → Prop} {f : α → β} (h : ∀ a, R a (f a)) (l : List α) : List.Forall₂ R l (l.map f) := by
  induction l with
  | nil => exact .nil
  | cons a l ih => exact .cons (h a) ih

section
variable (fixed : Bool) (E : SaEnv ι τ σ P V) (Wd : ParEnv V) (N : NetworkRec ι) (betas : Betas) (nSteps : Option ℚ) (nProjs : Option ℤ) (nJobs : ℤ)
  (seeds : List ℕ) (sched : List Event) (sys sys' : Sys)

/-- The results of the app are exact results, reported and sorted. -/
theorem reportedInf_ok {rs' : List (InfResultOf ℚ)}
    (h : optimizeInfWith (costPrinter fixed) E Wd N betas nSteps nProjs nJobs seeds sched sys = (sys', some (.ok rs'))) :
    ∃ rs rs0 : List InfResult, optimizeInf E Wd N betas nSteps nProjs nJobs seeds sched sys = (sys', some (.ok rs)) ∧ rs0.Perm rs ∧
      List.Forall₂ (InfReported fixed) rs0 rs' ∧ rs'.Pairwise fun a b => a.cost ≤ b.cost := by
  obtain ⟨out, h1, h2⟩ := optimizeInf_show (costPrinter fixed) (costPrinter_zero fixed) E Wd N betas nSteps nProjs nJobs seeds sched sys
  rw [h2] at h
  obtain ⟨rs, rs0, g1, g2, rfl, g4⟩ := outcomes_ok (cost := InfResultOf.cost) h
  exact ⟨rs, rs0, h1.trans g1, g2, forall₂_of_map (inf_reported fixed) _, g4⟩

theorem reportedFw_ok {W : Type} [AddCommGroup W] [LinearOrder W] {log2W : ℕ → W} {maxWidth : W} {us : ℤ} {rs' : List (FwResultOf ℚ ι)}
    (h : optimizeFwWith (costPrinter fixed) E Wd N log2W maxWidth betas nSteps nProjs us nJobs seeds sched sys = (sys', some (.ok rs'))) :
    ∃ rs rs0 : List (FwResult ι), optimizeFw E Wd N log2W maxWidth betas nSteps nProjs us nJobs seeds sched sys = (sys', some (.ok rs)) ∧ rs0.Perm rs ∧
      List.Forall₂ (FwReported fixed) rs0 rs' ∧ rs'.Pairwise fun a b => a.cost ≤ b.cost := by
  obtain ⟨out, h1, h2⟩ := optimizeFw_show (costPrinter fixed) (costPrinter_zero fixed) E Wd N betas nSteps nProjs nJobs seeds sched sys log2W maxWidth us
  rw [h2] at h
  obtain ⟨rs, rs0, g1, g2, rfl, g4⟩ := outcomes_ok (cost := FwResultOf.cost) h
  exact ⟨rs, rs0, h1.trans g1, g2, forall₂_of_map (fw_reported fixed) _, g4⟩

theorem reportedInf_same :
    (optimizeInfWith (costPrinter fixed) E Wd N betas nSteps nProjs nJobs seeds sched sys = (sys', none) ↔
      optimizeInf E Wd N betas nSteps nProjs nJobs seeds sched sys = (sys', none)) ∧
    (∀ e, optimizeInfWith (costPrinter fixed) E Wd N betas nSteps nProjs nJobs seeds sched sys = (sys', some (.error e)) ↔
      optimizeInf E Wd N betas nSteps nProjs nJobs seeds sched sys = (sys', some (.error e))) ∧
    ((∃ rs, optimizeInfWith (costPrinter fixed) E Wd N betas nSteps nProjs nJobs seeds sched sys = (sys', some (.ok rs))) ↔
      ∃ rs, optimizeInf E Wd N betas nSteps nProjs nJobs seeds sched sys = (sys', some (.ok rs))) := by
  obtain ⟨out, h1, h2⟩ := optimizeInf_show (costPrinter fixed) (costPrinter_zero fixed) E Wd N betas nSteps nProjs nJobs seeds sched sys
  rw [h1, h2]
  exact outcomes_not_ok

theorem reportedFw_same {W : Type} [AddCommGroup W] [LinearOrder W] (log2W : ℕ → W) (maxWidth : W) (us : ℤ) :
    (optimizeFwWith (costPrinter fixed) E Wd N log2W maxWidth betas nSteps nProjs us nJobs seeds sched sys = (sys', none) ↔
      optimizeFw E Wd N log2W maxWidth betas nSteps nProjs us nJobs seeds sched sys = (sys', none)) ∧
    (∀ e, optimizeFwWith (costPrinter fixed) E Wd N log2W maxWidth betas nSteps nProjs us nJobs seeds sched sys = (sys', some (.error e)) ↔
      optimizeFw E Wd N log2W maxWidth betas nSteps nProjs us nJobs seeds sched sys = (sys', some (.error e))) ∧
    ((∃ rs, optimizeFwWith (costPrinter fixed) E Wd N log2W maxWidth betas nSteps nProjs us nJobs seeds sched sys = (sys', some (.ok rs))) ↔
      ∃ rs, optimizeFw E Wd N log2W maxWidth betas nSteps nProjs us nJobs seeds sched sys = (sys', some (.ok rs))) := by
  obtain ⟨out, h1, h2⟩ := optimizeFw_show (costPrinter fixed) (costPrinter_zero fixed) E Wd N betas nSteps nProjs nJobs seeds sched sys log2W maxWidth us
  rw [h1, h2]
  exact outcomes_not_ok

end

end TNCO
