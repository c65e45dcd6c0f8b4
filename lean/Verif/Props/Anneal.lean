import Verif.Lemmas.AnnealConn
import Verif.Props.Parallel
import Mathlib.Tactic.Linarith
import Mathlib.Tactic.FieldSimp
import Mathlib.Tactic.Ring

/-!
# C43, C44: the results of the simulated-annealing apps

The path of a result is compared with `pathCost`, `PathFits` (Spec/PathCost.lean), which know nothing of trees and optimizers.
-/

namespace TNCO
variable {ι τ σ P V : Type} [DecidableEq ι] [LinearOrder P]

/-- The random numbers are in range, the sets are enumerated without repetition, and the loop of the random path has enough fuel. -/
structure SaEnv.Ok (E : SaEnv ι τ σ P V) (N : NetworkRec ι) : Prop where
  rng : E.rng.Ok
  enumN : EnumOk E.enumN
  enum : EnumOk E.enum
  fuel : N.tsInds.length + (uniqueEverseen N.tsInds.flatten).length < E.fuel

/-- What a run of the infinite-memory app with one seed returns. -/
def InfRunOk (E : SaEnv ι τ σ P V) (N : NetworkRec ι) (cm : PyCM ι) (seed : ℕ) (r : InfResult) : Prop :=
  ∃ ps, randomPaths E.rng E.enumN E.fuel (E.rngSeed seed) N.tsInds = some (.ok ps) ∧ PartPaths N.tsInds ps ∧
    InfTotalOk (N.cost cm) N.tsInds N.output ps r

/-- What a run of the finite-width app with one seed returns. -/
def FwRunOk {W : Type} [AddCommMonoid W] [LinearOrder W] (E : SaEnv ι τ σ P V) (N : NetworkRec ι) (cm : PyCM ι) (log2 : ℕ → W) (maxWidth : W)
    (seed : ℕ) (r : FwResult ι) : Prop :=
  ∃ ps, randomPaths E.rng E.enumN E.fuel (E.rngSeed seed) N.tsInds = some (.ok ps) ∧ PartPaths N.tsInds ps ∧
    FwTotalOk (N.cost cm) (N.width cm log2) maxWidth N.tsInds N.output ps r

section
variable (E : SaEnv ι τ σ P V) (Wd : ParEnv V) (N : NetworkRec ι) (betas : Betas) (nSteps : Option ℚ) (nProjs : Option ℤ) (nJobs : ℤ)
  (seeds : List ℕ) (sched : List Event) (sys sys' : Sys)

theorem optimizeInf_ok {rs : List InfResult} (h : optimizeInf E Wd N betas nSteps nProjs nJobs seeds sched sys = (sys', some (.ok rs))) :
    ∃ n bs sized cm, checkSteps nSteps = .ok n ∧ expandBetas betas n = .ok (bs, sized) ∧ PyCM.make (some N.sparse) nProjs = .ok cm ∧
      runAnneal (infAnneal E N cm) InfResultOf.cost bs sized n E.ratio Wd nJobs seeds sched sys = (sys', some (.ok rs)) := by
  unfold optimizeInf optimizeInfWith at h
  split at h
  · cases h
  next n hn =>
  split at h
  · cases h
  next bs sized hb =>
  split at h
  · cases h
  next cm hcm => exact ⟨n, bs, sized, cm, hn, hb, hcm, h⟩

theorem optimizeFw_ok {W : Type} [AddCommGroup W] [LinearOrder W] {log2W : ℕ → W} {maxWidth : W} {us : ℤ} {rs : List (FwResult ι)}
    (h : optimizeFw E Wd N log2W maxWidth betas nSteps nProjs us nJobs seeds sched sys = (sys', some (.ok rs))) :
    ∃ n bs sized cm, checkSteps nSteps = .ok n ∧ expandBetas betas n = .ok (bs, sized) ∧ 0 ≤ maxWidth ∧ PyCM.make (some N.sparse) nProjs = .ok cm ∧
      runAnneal (fwAnneal E N cm log2W maxWidth us) FwResultOf.cost bs sized n E.ratio Wd nJobs seeds sched sys = (sys', some (.ok rs)) := by
  unfold optimizeFw optimizeFwWith at h
  split at h
  · cases h
  next n hn =>
  split at h
  · cases h
  next bs sized hb =>
  split at h
  · cases h
  next hmw =>
  split at h
  · cases h
  next cm hcm => exact ⟨n, bs, sized, cm, hn, hb, not_lt.1 hmw, hcm, h⟩

theorem infRun_ok {E : SaEnv ι τ σ P V} {N : NetworkRec ι} (hE : E.Ok N) (hN : N.Plain) {cm : PyCM ι} (hcm : cm.Ok) {bs : List ℚ} {L : ℕ} {quiet : Prop} {seed : ℕ} {r : InfResult}
    (h : RunOk (infAnneal E N cm) bs L quiet seed r) : InfRunOk E N cm seed r := by
  obtain ⟨B, ps, ks, -, h2, h3, h4⟩ := h
  obtain ⟨ps', g1, g2⟩ := randomPaths_parts hE.rng hE.enumN (E.rngSeed seed) N.tsInds hE.fuel
  have : ps' = ps := by
    have h2' : randomPaths E.rng E.enumN E.fuel (E.rngSeed seed) N.tsInds = some (.ok ps) := h2
    rw [g1] at h2'
    cases h2'; rfl
  subst this
  obtain ⟨r', hr, hok⟩ := inf_total g2 (inf_pieces E hN hE.enum hcm g2 (fun p hp => hp) h3.any)
  have : N.tsInds.length = N.tensors.length := by simp [NetworkRec.tsInds]
  rw [this] at hr
  have h4' : infTotalWith exactPrinter N.tensors.length ks = .ok r := h4
  rw [hr] at h4'
  cases h4'
  exact ⟨ps', g1, g2, hok⟩

theorem fwRun_ok {W : Type} [AddCommGroup W] [LinearOrder W] [IsOrderedAddMonoid W] {log2W : ℕ → W} (hlog : ∀ n, 0 ≤ log2W n) {maxWidth : W} {us : ℤ}
    (hus : us ≠ 0) {E : SaEnv ι τ σ P V} {N : NetworkRec ι} (hE : E.Ok N) (hN : N.Plain) {cm : PyCM ι} (hcm : cm.Ok) {bs : List ℚ} {L : ℕ} {quiet : Prop} {seed : ℕ}
    {r : FwResult ι} (h : RunOk (fwAnneal E N cm log2W maxWidth us) bs L quiet seed r) : FwRunOk E N cm log2W maxWidth seed r := by
  obtain ⟨B, ps, ks, -, h2, h3, h4⟩ := h
  obtain ⟨ps', g1, g2⟩ := randomPaths_parts hE.rng hE.enumN (E.rngSeed seed) N.tsInds hE.fuel
  have : ps' = ps := by
    have h2' : randomPaths E.rng E.enumN E.fuel (E.rngSeed seed) N.tsInds = some (.ok ps) := h2
    rw [g1] at h2'
    cases h2'; rfl
  subst this
  have h4' : fwTotalWith exactPrinter N.tensors.length ks = .ok r := h4
  have hne : ks = [] → N.tsInds ≠ [] := by
    rintro rfl e
    have hl : N.tensors.length = 0 := by
      have : N.tsInds.length = 0 := by rw [e]; rfl
      simpa [NetworkRec.tsInds] using this
    rw [hl] at h4'
    cases h4'
  obtain ⟨r', hr, hok⟩ := fw_total (fun s t h => nameWidth_mono hlog h) g2 hne (fw_pieces E hN hE.enum hcm hlog hus g2 (fun p hp => hp) h3.any)
  have : N.tsInds.length = N.tensors.length := by simp [NetworkRec.tsInds]
  rw [this] at hr
  rw [hr] at h4'
  cases h4'
  exact ⟨ps', g1, g2, hok⟩

theorem inf_exact {N : NetworkRec ι} {cm : PyCM ι} (hN : N.Plain) (hcm : cm.Ok) {ps : List (List (ℕ × ℕ))} (hP : PartPaths N.tsInds ps) {r : InfResult}
    (h : InfTotalOk (N.cost cm) N.tsInds N.output ps r) :
    r.cost = (r.paths.map (pathCost (N.cost cm) N.tsInds N.output ∅)).sum ∧ r.cost ≤ pathCost (N.cost cm) N.tsInds N.output ∅ r.path ∧
      (r.cost = pathCost (N.cost cm) N.tsInds N.output ∅ r.path ↔ AllConnected N.tsInds) := by
  obtain ⟨pre, rest, h1, h2, h3, h4, h5, h6⟩ := h.path
  have hv : ValidPath N.tsInds.length r.path := by
    by_cases hn : 0 < N.tsInds.length
    · obtain ⟨u, hu⟩ := h4 hn
      exact ⟨_, hu⟩
    · have : r.path = [] := List.length_eq_zero_iff.1 (by omega)
      rw [this]
      exact ⟨_, rfl⟩
  have hle := pathCost_append (out := N.output) (extra := ∅) (cost := N.cost cm) (fun s hs => network_cost_pos hN hcm fun x hx => (hs x hx).resolve_left (by simp))
    h2 (h1 ▸ hv)
  rw [← h1, h6] at hle
  refine ⟨by rw [← h6]; exact pathCost_merged h5, by omega, ?_⟩
  rw [← rest_nil_iff hP (fun hne => ?_) (fun e => (h.none e).2) h2 (h1 ▸ h3) h5]
  · constructor
    · intro e
      have : rest.length = 0 := by omega
      exact List.length_eq_zero_iff.1 this
    · rintro rfl
      rw [h1, List.append_nil, h6]
  · obtain ⟨g1, g2⟩ := h.pieces hne
    have := g1.imp fun _ _ h => h.same
    rw [← List.forall₂_map_right_iff (f := InfPartOf.path)] at this
    rw [List.map_map] at this
    have e : (r.costs.zip r.paths).map (InfPartOf.path ∘ fun x => ⟨x.1, x.2⟩) = r.paths := by
      change (r.costs.zip r.paths).map Prod.snd = _
      exact List.map_snd_zip (by omega)
    rwa [e] at this

/-- C43 (infinite memory, partial): every result has a complete contraction path; its cost is the sum of the costs of the paths of the
connected parts, computed from the names of the indices alone. It never exceeds the cost of the whole path and is equal to it exactly if the
network is connected. Missing: networks that are not connected, for which the statement is false, see `C43_violated`. -/
theorem C43_infinite_memory_partial (hE : E.Ok N) (hN : N.Plain) (rs : List InfResult)
    (h : optimizeInf E Wd N betas nSteps nProjs nJobs seeds sched sys = (sys', some (.ok rs))) :
    ∀ r ∈ rs, r.path.length = N.tsInds.length - 1 ∧ (0 < N.tsInds.length → ∃ u, replay (initTerms N.tsInds.length) r.path = some [u]) ∧
      r.cost = r.costs.sum ∧
      r.cost = (r.paths.map (pathCost (N.cost ⟨some N.sparse, nProjs⟩) N.tsInds N.output ∅)).sum ∧
      r.cost ≤ pathCost (N.cost ⟨some N.sparse, nProjs⟩) N.tsInds N.output ∅ r.path ∧
      (r.cost = pathCost (N.cost ⟨some N.sparse, nProjs⟩) N.tsInds N.output ∅ r.path ↔ AllConnected N.tsInds) := by
  intro r hr
  obtain ⟨n, bs, sized, cm, -, -, hcm, hrun⟩ := optimizeInf_ok E Wd N betas nSteps nProjs nJobs seeds sched sys sys' h
  obtain ⟨rfl, hok⟩ := pyCM_make_ok hcm
  obtain ⟨rs0, rfl, hall⟩ := runAnneal_results hrun
  obtain ⟨seed, -, hs⟩ := forall₂_mem_right hall ((sortResults_perm _ _).mem_iff.1 hr)
  obtain ⟨ps, -, hP, ht⟩ := infRun_ok hE hN hok hs
  obtain ⟨g1, g2, g3⟩ := inf_exact hN hok hP ht
  obtain ⟨pre, rest, h1, h2, h3, h4, -⟩ := ht.path
  exact ⟨h3, h4, ht.sum, g1, g2, g3⟩

theorem fw_one {cost : Finset ι → ℤ} {W : Type} [LinearOrder W] {width : Finset ι → W} {mw : W} {tsInds : List (List ι)} {out : Finset ι} {ps : List (List (ℕ × ℕ))}
    {ks : List (FwPart ι)} (h : List.Forall₂ (FwPiece cost width mw tsInds out) ps ks) (hd : Disconnected tsInds.length ps) {k0 : ℕ}
    (h0 : ∀ p ∈ ps, p ≠ [] → Touches tsInds.length p k0) {S : Finset ι} (hS : ∀ x, x ∈ S ↔ ∃ k ∈ ks, x ∈ k.slices) :
    (ks.map FwPartOf.cost).sum = (ks.map fun k => pathCost cost tsInds out S k.path).sum := by
  induction h generalizing S with
  | nil => rfl
  | @cons p k ps ks h1 h2 ih =>
    unfold Disconnected at hd
    obtain ⟨hd1, hd2⟩ := List.pairwise_cons.1 hd
    by_cases hp : p = []
    · have hk := h1.none hp
      subst hk
      simp only [List.map_cons, List.sum_cons, pathCost_nil]
      rw [ih hd2 (fun p hp => h0 p (List.mem_cons_of_mem _ hp))]
      intro x
      rw [hS]
      simp
    · have htriv : ∀ k' ∈ ks, k' = ⟨0, [], ∅⟩ := by
        intro k' hk'
        obtain ⟨p', hp', h'⟩ := forall₂_mem_right h2 hk'
        refine h'.none ?_
        by_contra hne
        exact hd1 p' hp' k0 ⟨h0 p List.mem_cons_self hp, h0 p' (List.mem_cons_of_mem _ hp') hne⟩
      have hSk : S = k.slices := by
        ext x
        rw [hS]
        constructor
        · rintro ⟨k', hk', hx⟩
          rcases List.mem_cons.1 hk' with rfl | hk'
          · exact hx
          · rw [htriv k' hk'] at hx; simp at hx
        · intro hx; exact ⟨k, List.mem_cons_self, hx⟩
      rw [List.map_cons, List.map_cons, List.sum_cons, List.sum_cons, h1.exact, hSk]
      congr 1
      congr 1
      refine List.map_congr_left fun k' hk' => ?_
      rw [htriv k' hk']
      rfl

/-- C43 (finite width, partial): every result has a complete contraction path; its slices are those of its parts; the cost is the sum
of the costs of the parts, each with its own slices, and all tensors of a part fit in the maximum width with the slices of the part. If the
network is connected, the cost is that of the whole path with the reported slices, and all its tensors fit. Missing: networks that are
not connected, see `C43_violated_width`. -/
theorem C43_finite_width_partial {W : Type} [AddCommGroup W] [LinearOrder W] [IsOrderedAddMonoid W] (log2W : ℕ → W) (hlog : ∀ n, 0 ≤ log2W n) (maxWidth : W)
    (us : ℤ) (hus : us ≠ 0) (hE : E.Ok N) (hN : N.Plain) (rs : List (FwResult ι))
    (h : optimizeFw E Wd N log2W maxWidth betas nSteps nProjs us nJobs seeds sched sys = (sys', some (.ok rs))) :
    ∀ r ∈ rs, r.path.length = N.tsInds.length - 1 ∧ (0 < N.tsInds.length → ∃ u, replay (initTerms N.tsInds.length) r.path = some [u]) ∧
      r.cost = r.costs.sum ∧ (∀ x, x ∈ r.slices ↔ ∃ s ∈ r.slicesList, x ∈ s) ∧
      (∀ k ∈ r.pieces, k.cost = pathCost (N.cost ⟨some N.sparse, nProjs⟩) N.tsInds N.output k.slices k.path ∧
        PathFits (N.width ⟨some N.sparse, nProjs⟩ log2W) maxWidth N.tsInds N.output k.slices k.path) ∧
      (AllConnected N.tsInds → r.cost = pathCost (N.cost ⟨some N.sparse, nProjs⟩) N.tsInds N.output r.slices r.path ∧
        PathFits (N.width ⟨some N.sparse, nProjs⟩ log2W) maxWidth N.tsInds N.output r.slices r.path) := by
  intro r hr
  obtain ⟨n, bs, sized, cm, -, -, -, hcm, hrun⟩ := optimizeFw_ok E Wd N betas nSteps nProjs nJobs seeds sched sys sys' h
  obtain ⟨rfl, hok⟩ := pyCM_make_ok hcm
  obtain ⟨rs0, rfl, hall⟩ := runAnneal_results hrun
  obtain ⟨seed, -, hs⟩ := forall₂_mem_right hall ((sortResults_perm _ _).mem_iff.1 hr)
  obtain ⟨ps, -, hP, ht⟩ := fwRun_ok hlog hus hE hN hok hs
  obtain ⟨pre, rest, h1, h2, h3, h4, h5, h6⟩ := ht.path
  refine ⟨h3, h4, ht.sum, ht.slices, ?_, ?_⟩
  · intro k hk
    by_cases hps : ps = []
    · obtain ⟨e1, -, -⟩ := ht.none hps
      simp [FwResult.pieces, e1] at hk
    · obtain ⟨p, -, hpk⟩ := forall₂_mem_right (ht.pieces hps).1 hk
      exact ⟨hpk.exact, hpk.fits⟩
  · intro hc
    have hpath : ps ≠ [] → r.pieces.map FwPartOf.path = r.paths ∧ r.pieces.map FwPartOf.cost = r.costs ∧ r.pieces.map FwPartOf.slices = r.slicesList := by
      intro hps
      obtain ⟨-, g2, g3⟩ := ht.pieces hps
      unfold FwResult.pieces
      refine ⟨?_, ?_, ?_⟩
      · rw [List.map_map]
        change (r.costs.zip (r.paths.zip r.slicesList)).map (Prod.fst ∘ Prod.snd) = _
        rw [← List.map_map, List.map_snd_zip (by simp; omega), List.map_fst_zip (by omega)]
      · rw [List.map_map]
        change (r.costs.zip (r.paths.zip r.slicesList)).map Prod.fst = _
        exact List.map_fst_zip (by simp; omega)
      · rw [List.map_map]
        change (r.costs.zip (r.paths.zip r.slicesList)).map (Prod.snd ∘ Prod.snd) = _
        rw [← List.map_map, List.map_snd_zip (by simp; omega), List.map_snd_zip (by omega)]
    have hrest : rest = [] := by
      refine (rest_nil_iff hP (fun hne => ?_) (fun e => (ht.none e).2.1) h2 (h1 ▸ h3) h5).2 hc
      have := (ht.pieces hne).1.imp fun _ _ h => h.same
      rw [← List.forall₂_map_right_iff (f := FwPartOf.path), (hpath hne).1] at this
      exact this
    subst hrest
    rw [List.append_nil] at h1
    refine ⟨?_, h1 ▸ h6⟩
    rw [h1, pathCost_merged h5, ht.sum]
    by_cases hps : ps = []
    · obtain ⟨e1, e2, -⟩ := ht.none hps
      rw [e1, e2]
      simp [pathCost_nil]
    · obtain ⟨g1, g2, g3⟩ := hpath hps
      rw [← g1, ← g2, List.map_map]
      by_cases hn : 2 ≤ N.tsInds.length
      · obtain ⟨p0, hp0, hall0⟩ := connected_one hP hc hn
        refine fw_one (ht.pieces hps).1 hP.disc (k0 := 0) (fun p hp hne => ?_) fun x => ?_
        · obtain ⟨F, u, hF, hu⟩ := hP.single p hp hne
          obtain ⟨k, hkn, hk'⟩ := touches_some hF hne
          rw [disconnected_eq hP.disc hp hp0 hk' (hall0 k hkn)]
          exact hall0 0 (by omega)
        · rw [ht.slices, ← g3]
          simp
      · -- at most one tensor: all paths are empty
        have hnil : ∀ p ∈ ps, p = [] := by
          intro p hp
          by_contra hne
          obtain ⟨F, u, hF, hu⟩ := hP.single p hp hne
          have h1 := (Linear.replay_length hF)
          have h2 : (initTerms N.tsInds.length).length = N.tsInds.length := by simp [initTerms]
          have h3 := List.length_pos_iff.2 hne
          have h4 := List.length_pos_iff.2 (h1.2 hne)
          omega
        have : ∀ k ∈ r.pieces, k = ⟨0, [], ∅⟩ := by
          intro k hk
          obtain ⟨p, hp, hpk⟩ := forall₂_mem_right (ht.pieces hps).1 hk
          exact hpk.none (hnil p hp)
        congr 1
        refine List.map_congr_left fun k hk => ?_
        rw [this k hk]
        rfl

/-- C43 (slices): a part of a result only cuts indices of the tensors contracted in that part, so a result only cuts indices of the network. -/
theorem C43_slices {W : Type} [AddCommGroup W] [LinearOrder W] [IsOrderedAddMonoid W] (log2W : ℕ → W) (hlog : ∀ n, 0 ≤ log2W n) (maxWidth : W)
    (us : ℤ) (hus : us ≠ 0) (hE : E.Ok N) (hN : N.Plain) (rs : List (FwResult ι))
    (h : optimizeFw E Wd N log2W maxWidth betas nSteps nProjs us nJobs seeds sched sys = (sys', some (.ok rs))) :
    ∀ r ∈ rs, (∀ k ∈ r.pieces, ∀ x ∈ k.slices, ∃ i, Touches N.tsInds.length k.path i ∧ x ∈ N.tsInds.getD i []) ∧
      ∀ x ∈ r.slices, x ∈ N.tsInds.flatten := by
  intro r hr
  obtain ⟨n, bs, sized, cm, -, -, -, hcm, hrun⟩ := optimizeFw_ok E Wd N betas nSteps nProjs nJobs seeds sched sys sys' h
  obtain ⟨rfl, hok⟩ := pyCM_make_ok hcm
  obtain ⟨rs0, rfl, hall⟩ := runAnneal_results hrun
  obtain ⟨seed, -, hs⟩ := forall₂_mem_right hall ((sortResults_perm _ _).mem_iff.1 hr)
  obtain ⟨ps, -, hP, ht⟩ := fwRun_ok hlog hus hE hN hok hs
  have hk : ∀ k ∈ r.pieces, ∀ x ∈ k.slices, ∃ i, Touches N.tsInds.length k.path i ∧ x ∈ N.tsInds.getD i [] := by
    intro k hk
    by_cases hps : ps = []
    · obtain ⟨e1, -, -⟩ := ht.none hps
      simp [FwResult.pieces, e1] at hk
    · obtain ⟨p, -, hpk⟩ := forall₂_mem_right (ht.pieces hps).1 hk
      exact hpk.sub
  refine ⟨hk, fun x hx => ?_⟩
  obtain ⟨s, hs, hxs⟩ := (ht.slices x).1 hx
  by_cases hps : ps = []
  · rw [(ht.none hps).2.2] at hs
    rw [(List.mem_replicate.1 hs).2] at hxs
    cases hxs
  · obtain ⟨-, g2, g3⟩ := ht.pieces hps
    obtain ⟨j, hj, rfl⟩ := List.mem_iff_getElem.1 hs
    obtain ⟨i, -, hi⟩ := hk ⟨r.costs[j]'(by omega), r.paths[j]'(by omega), r.slicesList[j]⟩ (by
      unfold FwResult.pieces
      refine List.mem_map.2 ⟨(r.costs[j]'(by omega), r.paths[j]'(by omega), r.slicesList[j]), ?_, rfl⟩
      rw [List.mem_iff_getElem]
      exact ⟨j, by simp; omega, by simp⟩) x hxs
    by_cases hin : i < N.tsInds.length
    · rw [List.getD_eq_getElem _ _ hin] at hi
      exact List.mem_flatten.2 ⟨_, List.getElem_mem hin, hi⟩
    · rw [List.getD_eq_default _ _ (by omega)] at hi
      cases hi

/-- C44 (infinite memory, partial: exact costs; see `C72_violated_order` for the reported ones): there is one result for each seed; they are sorted by cost; no cost exceeds the cost of the random path that the run
with this seed starts from, part by part and in total. -/
theorem C44_infinite_memory_partial (hE : E.Ok N) (hN : N.Plain) (rs : List InfResult)
    (h : optimizeInf E Wd N betas nSteps nProjs nJobs seeds sched sys = (sys', some (.ok rs))) :
    (rs.Pairwise fun a b => a.cost ≤ b.cost) ∧ ∃ rs0, rs.Perm rs0 ∧ List.Forall₂ (fun seed r => ∃ ps,
      randomPaths E.rng E.enumN E.fuel (E.rngSeed seed) N.tsInds = some (.ok ps) ∧
      (ps ≠ [] → List.Forall₂ (fun p c => c ≤ pathCost (N.cost ⟨some N.sparse, nProjs⟩) N.tsInds N.output ∅ p) ps r.costs) ∧
      r.cost ≤ (ps.map (pathCost (N.cost ⟨some N.sparse, nProjs⟩) N.tsInds N.output ∅)).sum) seeds rs0 := by
  obtain ⟨n, bs, sized, cm, -, -, hcm, hrun⟩ := optimizeInf_ok E Wd N betas nSteps nProjs nJobs seeds sched sys sys' h
  obtain ⟨rfl, hok⟩ := pyCM_make_ok hcm
  obtain ⟨rs0, rfl, hall⟩ := runAnneal_results hrun
  refine ⟨sortResults_sorted _ _, rs0, sortResults_perm _ _, hall.imp fun seed r hs => ?_⟩
  obtain ⟨ps, h1, hP, ht⟩ := infRun_ok hE hN hok hs
  have hcosts : ps ≠ [] → List.Forall₂ (fun p c => c ≤ pathCost (N.cost ⟨some N.sparse, nProjs⟩) N.tsInds N.output ∅ p) ps r.costs := by
    intro hne
    obtain ⟨g1, g2⟩ := ht.pieces hne
    have := g1.imp fun _ _ h => h.best
    rw [← List.forall₂_map_right_iff (f := InfPartOf.cost) (R := fun p c => c ≤ pathCost (N.cost ⟨some N.sparse, nProjs⟩) N.tsInds N.output ∅ p), List.map_map] at this
    have e : (r.costs.zip r.paths).map (InfPartOf.cost ∘ fun x => ⟨x.1, x.2⟩) = r.costs := by
      change (r.costs.zip r.paths).map Prod.fst = _
      exact List.map_fst_zip (by omega)
    rwa [e] at this
  refine ⟨ps, h1, hcosts, ?_⟩
  rw [ht.sum]
  by_cases hps : ps = []
  · rw [(ht.none hps).1, hps]; simp
  · have := hcosts hps
    generalize r.costs = cs at this
    clear hP ht h1 hcosts hps
    induction this with
    | nil => simp
    | cons h _ ih => simp only [List.map_cons, List.sum_cons]; omega

/-- C44 (finite width, partial): the same; the cost of a part is compared with that of the random path with some slices that make it fit. -/
theorem C44_finite_width_partial {W : Type} [AddCommGroup W] [LinearOrder W] [IsOrderedAddMonoid W] (log2W : ℕ → W) (hlog : ∀ n, 0 ≤ log2W n) (maxWidth : W)
    (us : ℤ) (hus : us ≠ 0) (hE : E.Ok N) (hN : N.Plain) (rs : List (FwResult ι))
    (h : optimizeFw E Wd N log2W maxWidth betas nSteps nProjs us nJobs seeds sched sys = (sys', some (.ok rs))) :
    (rs.Pairwise fun a b => a.cost ≤ b.cost) ∧ ∃ rs0, rs.Perm rs0 ∧ List.Forall₂ (fun seed r => ∃ ps,
      randomPaths E.rng E.enumN E.fuel (E.rngSeed seed) N.tsInds = some (.ok ps) ∧
      (ps ≠ [] → List.Forall₂ (fun p c => ∃ S, PathFits (N.width ⟨some N.sparse, nProjs⟩ log2W) maxWidth N.tsInds N.output S p ∧
        c ≤ pathCost (N.cost ⟨some N.sparse, nProjs⟩) N.tsInds N.output S p) ps r.costs)) seeds rs0 := by
  obtain ⟨n, bs, sized, cm, -, -, -, hcm, hrun⟩ := optimizeFw_ok E Wd N betas nSteps nProjs nJobs seeds sched sys sys' h
  obtain ⟨rfl, hok⟩ := pyCM_make_ok hcm
  obtain ⟨rs0, rfl, hall⟩ := runAnneal_results hrun
  refine ⟨sortResults_sorted _ _, rs0, sortResults_perm _ _, hall.imp fun seed r hs => ?_⟩
  obtain ⟨ps, h1, hP, ht⟩ := fwRun_ok hlog hus hE hN hok hs
  refine ⟨ps, h1, fun hne => ?_⟩
  obtain ⟨g1, g2, g3⟩ := ht.pieces hne
  have := g1.imp fun _ _ h => h.best
  rw [← List.forall₂_map_right_iff (f := FwPartOf.cost) (R := fun p c => ∃ S, PathFits (N.width ⟨some N.sparse, nProjs⟩ log2W) maxWidth N.tsInds N.output S p ∧
        c ≤ pathCost (N.cost ⟨some N.sparse, nProjs⟩) N.tsInds N.output S p)] at this
  have e : r.pieces.map FwPartOf.cost = r.costs := by
    unfold FwResult.pieces
    rw [List.map_map]
    change (r.costs.zip (r.paths.zip r.slicesList)).map Prod.fst = _
    exact List.map_fst_zip (by simp; omega)
  rwa [e] at this

/-- C44: the updates of a run. For each seed, the parts of the result come from histories with the first temperatures of the list: as many as
`min (n_steps, len(betas))` for each part, or, if the time limit has passed during the run, fewer: all the parts together then have a number `B`
of updates, used up in order. -/
theorem C44_updates (rs : List InfResult) (h : optimizeInf E Wd N betas nSteps nProjs nJobs seeds sched sys = (sys', some (.ok rs))) :
    ∃ n bs sized rs0, checkSteps nSteps = .ok n ∧ expandBetas betas n = .ok (bs, sized) ∧ rs.Perm rs0 ∧
      List.Forall₂ (fun seed r => ∃ B ps ks, (Event.tick ∉ sched → B = none) ∧
        (infAnneal E N ⟨some N.sparse, nProjs⟩).paths seed = some (.ok ps) ∧
        Parts (infAnneal E N ⟨some N.sparse, nProjs⟩) bs (stepsOf n bs) seed B ps ks ∧ infTotalWith exactPrinter N.tensors.length ks = .ok r) seeds rs0 := by
  obtain ⟨n, bs, sized, cm, h1, h2, hcm, hrun⟩ := optimizeInf_ok E Wd N betas nSteps nProjs nJobs seeds sched sys sys' h
  obtain ⟨rfl, hok⟩ := pyCM_make_ok hcm
  obtain ⟨rs0, rfl, hall⟩ := runAnneal_results hrun
  exact ⟨n, bs, sized, rs0, h1, h2, sortResults_perm _ _, hall⟩

/-- C44: the same for finite width. -/
theorem C44_updates_width {W : Type} [AddCommGroup W] [LinearOrder W] (log2W : ℕ → W) (maxWidth : W) (us : ℤ) (rs : List (FwResult ι))
    (h : optimizeFw E Wd N log2W maxWidth betas nSteps nProjs us nJobs seeds sched sys = (sys', some (.ok rs))) :
    ∃ n bs sized rs0, checkSteps nSteps = .ok n ∧ expandBetas betas n = .ok (bs, sized) ∧ rs.Perm rs0 ∧
      List.Forall₂ (fun seed r => ∃ B ps ks, (Event.tick ∉ sched → B = none) ∧
        (fwAnneal E N ⟨some N.sparse, nProjs⟩ log2W maxWidth us).paths seed = some (.ok ps) ∧
        Parts (fwAnneal E N ⟨some N.sparse, nProjs⟩ log2W maxWidth us) bs (stepsOf n bs) seed B ps ks ∧ fwTotalWith exactPrinter N.tensors.length ks = .ok r) seeds rs0 := by
  obtain ⟨n, bs, sized, cm, h1, h2, -, hcm, hrun⟩ := optimizeFw_ok E Wd N betas nSteps nProjs nJobs seeds sched sys sys' h
  obtain ⟨rfl, hok⟩ := pyCM_make_ok hcm
  obtain ⟨rs0, rfl, hall⟩ := runAnneal_results hrun
  exact ⟨n, bs, sized, rs0, h1, h2, sortResults_perm _ _, hall⟩

theorem rat_floor_nat (k : ℕ) : (k : ℚ).floor = k := by
  have := Rat.floor_intCast (k : ℤ)
  rwa [Int.cast_natCast] at this

/-- C44: `n_steps` must be a positive integer. -/
theorem C44_steps : (∀ n : Option ℕ, checkSteps nSteps = .ok n ↔ (nSteps = none ∧ n = none) ∨ ∃ k : ℕ, 0 < k ∧ nSteps = some (k : ℚ) ∧ n = some k) ∧
    ((∀ n, checkSteps nSteps ≠ .ok n) → checkSteps nSteps = .error .valueError) := by
  cases nSteps with
  | none => simp [checkSteps, eq_comm]
  | some q =>
    simp only [checkSteps]
    split
    · next hq =>
      simp only [reduceCtorEq, false_and, Option.some.injEq, false_or, false_iff, not_exists, not_and, ne_eq, not_false_eq_true, implies_true, and_true]
      rintro n k hk rfl
      exfalso
      rcases hq with hq | hq
      · simp [rat_floor_nat] at hq
      · have : (0 : ℚ) < k := by exact_mod_cast hk
        linarith
    · next hq =>
      push Not at hq
      obtain ⟨h1, h2⟩ := hq
      have h0 : 0 < q.floor := by
        have : (0 : ℚ) < (q.floor : ℚ) := by rw [h1]; exact h2
        exact_mod_cast this
      have hc : ((q.floor.toNat : ℕ) : ℚ) = q := by
        rw [← h1]
        have : ((q.floor.toNat : ℕ) : ℤ) = q.floor := by omega
        rw [h1]
        nth_rewrite 2 [← h1]
        exact_mod_cast this
      refine ⟨fun n => ⟨fun h => ?_, fun h => ?_⟩, fun h => ?_⟩
      · simp only [Except.ok.injEq] at h
        subst h
        exact Or.inr ⟨_, by omega, by rw [hc], rfl⟩
      · rcases h with ⟨h, -⟩ | ⟨k, hk, h, rfl⟩
        · cases h
        · simp only [Option.some.injEq] at h
          rw [h, rat_floor_nat]
          simp
      · exact (h _ rfl).elim

/-- C44: a numeric range has the numbers `start + k * step` that are before `stop`, and only these. -/
theorem C44_range (start stop step x : ℚ) (hs : step ≠ 0) :
    x ∈ numericRange start stop step ↔ ∃ k : ℕ, x = start + k * step ∧ (0 < step ∧ x < stop ∨ step < 0 ∧ stop < x) := by
  have key : ∀ d st : ℚ, 0 < st → ∀ k : ℕ, k < (if d ≤ 0 then 0 else (d / st).floor.toNat + (if d / st = (d / st).floor then 0 else 1)) ↔ (k : ℚ) * st < d := by
    intro d st hst k
    by_cases hd : d ≤ 0
    · rw [if_pos hd]
      have : 0 ≤ (k : ℚ) * st := mul_nonneg (Nat.cast_nonneg k) hst.le
      constructor
      · intro h; omega
      · intro h; linarith
    · rw [if_neg hd, ← lt_div_iff₀ hst]
      have h0 : 0 < d / st := div_pos (not_le.1 hd) hst
      generalize d / st = q at h0 ⊢
      have h1 : (q.floor : ℚ) ≤ q := Rat.floor_le q
      have h2 : q < q.floor + 1 := by exact_mod_cast Rat.lt_floor_add_one q
      have h3 : 0 ≤ q.floor := Rat.le_floor_iff.2 (by simpa using h0.le)
      obtain ⟨m, hm⟩ := Int.eq_ofNat_of_zero_le h3
      rw [hm] at h1 h2 ⊢
      simp only [Int.toNat_natCast, Int.cast_natCast] at h1 h2 ⊢
      split
      · next h => rw [h, Nat.add_zero]; exact_mod_cast Iff.rfl
      · next h =>
        have h1' : (m : ℚ) < q := lt_of_le_of_ne h1 (Ne.symm h)
        constructor
        · intro hk
          have : (k : ℚ) ≤ m := by exact_mod_cast Nat.lt_succ_iff.1 hk
          linarith
        · intro hk
          have : (k : ℚ) < ((m + 1 : ℕ) : ℚ) := by push_cast; linarith
          exact_mod_cast this
  simp only [numericRange, List.mem_map, List.mem_range]
  rcases lt_or_gt_of_ne hs with hn | hp
  · rw [if_neg (not_lt.2 hn.le), if_neg (not_lt.2 hn.le)]
    constructor
    · rintro ⟨k, hk, rfl⟩
      have := (key _ _ (neg_pos.2 hn) k).1 hk
      exact ⟨k, rfl, Or.inr ⟨hn, by linarith⟩⟩
    · rintro ⟨k, rfl, ⟨h, -⟩ | ⟨-, h⟩⟩
      · linarith
      · exact ⟨k, (key _ _ (neg_pos.2 hn) k).2 (by linarith), rfl⟩
  · rw [if_pos hp, if_pos hp]
    constructor
    · rintro ⟨k, hk, rfl⟩
      have := (key _ _ hp k).1 hk
      exact ⟨k, rfl, Or.inl ⟨hp, by linarith⟩⟩
    · rintro ⟨k, rfl, ⟨-, h⟩ | ⟨h, -⟩⟩
      · exact ⟨k, (key _ _ hp k).2 (by linarith), rfl⟩
      · linarith

/-- C44: the slices are updated in the steps that are multiples of `update_slices`. -/
theorem C44_slice_turn (n : ℕ) (us : ℤ) : sliceTurn n us = true ↔ us ∣ n := by
  unfold sliceTurn
  rw [decide_eq_true_eq, Int.dvd_iff_emod_eq_zero]

/-- C44: two different numbers as `betas` stand for `n_steps` equally spaced ones, from the first one on; the second one is not reached. -/
theorem C44_betas (b0 b1 : ℚ) (k : ℕ) (hb : b0 ≠ b1) (hk : 0 < k) :
    expandBetas (.pair b0 b1) (some k) = .ok ((List.range k).map fun j : ℕ => b0 + j * ((b1 - b0) / k), true) := by
  have hk' : (0 : ℚ) < k := by exact_mod_cast hk
  have hne : b1 - b0 ≠ 0 := sub_ne_zero.2 (Ne.symm hb)
  have key : ∀ d st : ℚ, 0 < d → st = d / k → d / st = k := by
    rintro d st hd rfl
    field_simp
  simp only [expandBetas, if_neg hb, numericRange, Except.ok.injEq, Prod.mk.injEq, and_true]
  by_cases hs : 0 < (b1 - b0) / k
  · have hd : 0 < b1 - b0 := by
      by_contra h
      have : (b1 - b0) / k ≤ 0 := div_nonpos_of_nonpos_of_nonneg (not_lt.1 h) hk'.le
      linarith
    simp only [hs, if_true, not_le.2 hd, if_false, key _ _ hd rfl, rat_floor_nat, Int.cast_natCast, Int.toNat_natCast, add_zero]
  · have hd : 0 < b0 - b1 := by
      by_contra h
      have h1 : 0 < b1 - b0 := lt_of_le_of_ne (by linarith) (Ne.symm hne)
      exact hs (div_pos h1 hk')
    have e : -((b1 - b0) / k) = (b0 - b1) / k := by ring
    simp only [hs, if_false, if_true, not_le.2 hd, e, key _ _ hd rfl, rat_floor_nat, Int.cast_natCast, Int.toNat_natCast, add_zero]

/-- C44: the wrong arguments that are rejected before anything runs. -/
theorem C44_rejects (b0 b1 : ℚ) : expandBetas (.pair b0 b1) none = .error .valueError ∧ (∀ n, b0 = b1 → expandBetas (.pair b0 b1) n = .error .valueError) ∧
    (∀ k, PyCM.make (some N.sparse) (some k) = .error .valueError ↔ k < 1) ∧
    (PyCM.make (some N.sparse) none = .error .valueError ↔ N.sparse ≠ ∅) := by
  refine ⟨rfl, fun n h => ?_, fun k => ?_, ?_⟩
  · cases n with
    | none => rfl
    | some n => simp [expandBetas, h]
  · unfold PyCM.make
    by_cases hk : k < 1 <;> simp [hk]
  · unfold PyCM.make
    by_cases hk : N.sparse = ∅ <;> simp [hk]

/-- C55: the infinite-memory app returns results if its arguments are valid, the sparse indices are in every connected part of the network with more than
one tensor, and the workers get enough turns; the time limit makes no difference. -/
theorem C55_infinite_memory (hE : E.Ok N) (hN : N.Plain) (n : Option ℕ) (bs : List ℚ) (cm : PyCM ι) (hn : checkSteps nSteps = .ok n)
    (hb : expandBetas betas n = .ok (bs, true)) (hcm : PyCM.make (some N.sparse) nProjs = .ok cm) (hsp : SparseOk N.tsInds N.sparse)
    (hj : nJobs ≠ 0 ∨ Wd.joblib = false) (hseeds : seeds ≠ []) (henc : ∀ c ∈ ['f', 'b', '?'], ∃ bs, Wd.cd.enc c Wd.zero = .ok bs) :
    ∃ K, ∀ rounds : List (List Event), (∀ r ∈ rounds, ∀ i < seeds.length, .work i ∈ r) → K ≤ rounds.length →
      ∃ sys' rs, optimizeInf E Wd N betas nSteps nProjs nJobs seeds rounds.flatten sys = (sys', some (.ok rs)) := by
  obtain ⟨rfl, hok⟩ := pyCM_make_ok hcm
  have hsafe : ∀ seed, ∃ ps, (infAnneal E N ⟨some N.sparse, nProjs⟩).Safe bs (stepsOf n bs) seed ps := by
    intro seed
    obtain ⟨ps, h1, hP⟩ := randomPaths_parts hE.rng hE.enumN (E.rngSeed seed) N.tsInds hE.fuel
    exact ⟨ps, inf_safe E hN hE.enum hok hP bs _ seed h1 fun p hp hne => sparse_path hP hsp hp hne⟩
  choose f hf using hsafe
  obtain ⟨M, hM⟩ : ∃ M, ∀ seed ∈ seeds, (f seed).length ≤ M :=
    ⟨(seeds.map fun s => (f s).length).sum, fun seed h => List.le_sum_of_mem (List.mem_map_of_mem h)⟩
  refine ⟨seeds.length * (2 + M * (stepsOf n bs + 2) + 2), fun rounds hr hlen => ?_⟩
  obtain ⟨sys', rs, h⟩ := runAnneal_returns (A := infAnneal E N ⟨some N.sparse, nProjs⟩) (cost := InfResultOf.cost) (betas := bs) (nSteps := n) (ratio := E.ratio)
    (sys := sys) hj hseeds henc (fun seed hs => ⟨f seed, hf seed, hM seed hs⟩) hr hlen
  refine ⟨sys', rs, ?_⟩
  unfold optimizeInf optimizeInfWith
  simp only [hn, hb, hcm, h]

/-- C55: the finite-width app, for a network with at least one tensor, `max_width` not negative and `update_slices` not zero. -/
theorem C55_finite_width {W : Type} [AddCommGroup W] [LinearOrder W] [IsOrderedAddMonoid W] (log2W : ℕ → W) (hlog : ∀ n, 0 ≤ log2W n) (maxWidth : W)
    (hmw : 0 ≤ maxWidth) (us : ℤ) (hus : us ≠ 0) (hE : E.Ok N) (hN : N.Plain) (hne : N.tensors ≠ []) (n : Option ℕ) (bs : List ℚ) (cm : PyCM ι)
    (hn : checkSteps nSteps = .ok n) (hb : expandBetas betas n = .ok (bs, true)) (hcm : PyCM.make (some N.sparse) nProjs = .ok cm)
    (hsp : SparseOk N.tsInds N.sparse) (hj : nJobs ≠ 0 ∨ Wd.joblib = false) (hseeds : seeds ≠ [])
    (henc : ∀ c ∈ ['f', 'b', '?'], ∃ bs, Wd.cd.enc c Wd.zero = .ok bs) :
    ∃ K, ∀ rounds : List (List Event), (∀ r ∈ rounds, ∀ i < seeds.length, .work i ∈ r) → K ≤ rounds.length →
      ∃ sys' rs, optimizeFw E Wd N log2W maxWidth betas nSteps nProjs us nJobs seeds rounds.flatten sys = (sys', some (.ok rs)) := by
  obtain ⟨rfl, hok⟩ := pyCM_make_ok hcm
  have hsafe : ∀ seed, ∃ ps, (fwAnneal E N ⟨some N.sparse, nProjs⟩ log2W maxWidth us).Safe bs (stepsOf n bs) seed ps := by
    intro seed
    obtain ⟨ps, h1, hP⟩ := randomPaths_parts hE.rng hE.enumN (E.rngSeed seed) N.tsInds hE.fuel
    exact ⟨ps, fw_safe E hN hne hE.enum hok hlog hmw hus hP bs _ seed h1 fun p hp hne => sparse_path hP hsp hp hne⟩
  choose f hf using hsafe
  obtain ⟨M, hM⟩ : ∃ M, ∀ seed ∈ seeds, (f seed).length ≤ M :=
    ⟨(seeds.map fun s => (f s).length).sum, fun seed h => List.le_sum_of_mem (List.mem_map_of_mem h)⟩
  refine ⟨seeds.length * (2 + M * (stepsOf n bs + 2) + 2), fun rounds hr hlen => ?_⟩
  obtain ⟨sys', rs, h⟩ := runAnneal_returns (A := fwAnneal E N ⟨some N.sparse, nProjs⟩ log2W maxWidth us) (cost := FwResultOf.cost) (betas := bs) (nSteps := n)
    (ratio := E.ratio) (sys := sys) hj hseeds henc (fun seed hs => ⟨f seed, hf seed, hM seed hs⟩) hr hlen
  refine ⟨sys', rs, ?_⟩
  unfold optimizeFw optimizeFwWith
  simp only [hn, hb, hcm, h, not_lt.2 hmw, if_false]

/-- C55, the converse: without the sparse indices in every part with more than one tensor, there are no results. -/
theorem C55_sparse_needed (hE : E.Ok N) (hN : N.Plain) (hseeds : seeds ≠ []) (hsp : ¬ SparseOk N.tsInds N.sparse) (rs : List InfResult) :
    optimizeInf E Wd N betas nSteps nProjs nJobs seeds sched sys ≠ (sys', some (.ok rs)) := by
  intro h
  apply hsp
  obtain ⟨n, bs, sized, cm, h1, h2, hcm, hrun⟩ := optimizeInf_ok E Wd N betas nSteps nProjs nJobs seeds sched sys sys' h
  obtain ⟨rfl, hok⟩ := pyCM_make_ok hcm
  obtain ⟨rs0, rfl, hall⟩ := runAnneal_results hrun
  obtain ⟨seed, ss, rfl⟩ := List.exists_cons_of_ne_nil hseeds
  obtain ⟨r, -, B, ps, ks, -, hps, hpa, -⟩ := forall₂_mem_left hall List.mem_cons_self
  obtain ⟨ps', g1, hP⟩ := randomPaths_parts hE.rng hE.enumN (E.rngSeed seed) N.tsInds hE.fuel
  have : ps' = ps := by
    have h2' : randomPaths E.rng E.enumN E.fuel (E.rngSeed seed) N.tsInds = some (.ok ps) := hps
    rw [g1] at h2'
    cases h2'; rfl
  subst this
  refine sparseOk_of_make hN hE.enum hP (cm := ⟨some N.sparse, nProjs⟩) fun p hp hne pt hpt => ?_
  obtain ⟨o, ho⟩ := hpa.make p hp hne
  simp only [infAnnealWith, hpt] at ho
  split at ho
  · cases ho
  · next m hm => exact ⟨m, hm⟩

end
/-! ## Concrete networks -/

theorem positions_ok : EnumOk ISet.positions := by
  intro s
  refine ⟨List.nodup_range.filter _, fun x => ?_⟩
  simp only [ISet.positions, List.mem_filter, List.mem_range, decide_eq_true_eq, and_iff_right_iff_imp]
  intro hx
  exact Nat.lt_succ_of_le (Finset.le_sup (f := id) hx)

def saPrng : FwPrng ℕ ℚ := ⟨⟨fun s => (s, s + 1), fun s => (1 / 2, s + 1)⟩, fun s l => (l, s), fun _ l => .refl l⟩

def saEnv : SaEnv ℕ Unit ℕ ℚ ℕ where
  rng := zeroRng
  rngSeed _ := ()
  enumN := ISet.positions
  enum := ISet.positions
  prng := saPrng
  prngSeed s := s
  prob b x y := if x ≤ y then 1 else 1 - b
  log2 _ := 0
  ratio n _ := n
  fuel := 20

def saPar : ParEnv ℕ := ⟨byteCodec, id, 0, true⟩

def saSched (n k : ℕ) : List Event := (List.replicate k ((List.range n).map Event.work)).flatten

/-- Two tensors with one open index each. -/
def twoNet : NetworkRec ℕ := ⟨[⟨[0], [4], none⟩, ⟨[1], [4], none⟩], {0, 1}, ∅, [(0, 4), (1, 4)]⟩

/-- Three matrices in a row. -/
def chainNet : NetworkRec ℕ :=
  ⟨[⟨[0, 1], [4, 4], none⟩, ⟨[1, 2], [4, 4], none⟩, ⟨[2, 3], [4, 4], none⟩], {0, 3}, ∅, [(0, 4), (1, 4), (2, 4), (3, 4)]⟩

/-- Two pairs of tensors; a sparse index in the first one. -/
def sparseNet : NetworkRec ℕ :=
  ⟨[⟨[0, 1], [4, 4], none⟩, ⟨[1], [4], none⟩, ⟨[2], [4], none⟩, ⟨[2], [4], none⟩], {0}, {0}, [(0, 4), (1, 4), (2, 4)]⟩

example : saEnv.Ok chainNet ∧ chainNet.Plain ∧ AllConnected chainNet.tsInds ∧ SparseOk chainNet.tsInds chainNet.sparse ∧
    (optimizeInf saEnv saPar chainNet (.pair 0 1) (some 2) none 1 [1, 2] (saSched 2 40) ⟨[], 0, 0⟩).2 =
      some (.ok [⟨128, [(1, 2), (0, 1)], [128], [[(1, 2), (0, 1)]]⟩, ⟨128, [(1, 2), (0, 1)], [128], [[(1, 2), (0, 1)]]⟩]) := by
  refine ⟨⟨zeroRng_ok, positions_ok, positions_ok, by decide +kernel⟩, ⟨by decide +kernel, ?_⟩, ?_, ?_, by decide +kernel⟩
  · intro l hl x hx
    have h : ∀ l ∈ chainNet.tsInds, ∀ x ∈ l, dget chainNet.dims x = some 4 := by decide +kernel
    exact ⟨4, by decide, h l hl x hx⟩
  · have h01 : ConnectedPos chainNet.tsInds 0 1 := .single ⟨[0, 1], [1, 2], 1, rfl, rfl, by decide, by decide⟩
    have h12 : ConnectedPos chainNet.tsInds 1 2 := .single ⟨[1, 2], [2, 3], 2, rfl, rfl, by decide, by decide⟩
    have h10 : ConnectedPos chainNet.tsInds 1 0 := .single ⟨[1, 2], [0, 1], 1, rfl, rfl, by decide, by decide⟩
    have h21 : ConnectedPos chainNet.tsInds 2 1 := .single ⟨[2, 3], [1, 2], 2, rfl, rfl, by decide, by decide⟩
    intro i hi j hj
    have hi : i < 3 := hi
    have hj : j < 3 := hj
    obtain rfl | rfl | rfl : i = 0 ∨ i = 1 ∨ i = 2 := by omega
    all_goals obtain rfl | rfl | rfl : j = 0 ∨ j = 1 ∨ j = 2 := by omega
    all_goals first | exact .refl | assumption | exact h01.trans h12 | exact h21.trans h10
  · intro x hx; exact absurd hx (Finset.notMem_empty x)

example : saEnv.Ok chainNet ∧
    (optimizeFw saEnv saPar chainNet (fun n => (Nat.log2 n : ℤ)) 3 (.pair 0 1) (some 2) none 1 1 [1, 2] (saSched 2 40) ⟨[], 0, 0⟩).2 =
      some (.ok (List.replicate 2 ⟨128, [(1, 2), (0, 1)], [128], [[(1, 2), (0, 1)]], [{1, 3}], {1, 3}⟩)) := by
  refine ⟨⟨zeroRng_ok, positions_ok, positions_ok, by decide +kernel⟩, by decide +kernel⟩

/-- The hypotheses of C55 for the chain of three matrices: two runs, one worker. -/
example : checkSteps (some 2) = .ok (some 2) ∧ expandBetas (.pair 0 1) (some 2) = .ok ([0, 1 / 2], true) ∧
    PyCM.make (some chainNet.sparse) none = .ok ⟨some chainNet.sparse, none⟩ ∧
    (∀ c ∈ ['f', 'b', '?'], ∃ bs, saPar.cd.enc c saPar.zero = .ok bs) := by
  refine ⟨by decide +kernel, by decide +kernel, rfl, ?_⟩
  intro c hc
  exact ⟨_, rfl⟩

/-- C43, the negation: for two separate tensors with open indices, the reported cost is 0 although the path contracts them, which costs 16. -/
theorem C43_violated : (optimizeInf saEnv saPar twoNet (.pair 0 1) (some 2) none 1 [1] (saSched 1 40) ⟨[], 0, 0⟩).2 =
      some (.ok [⟨0, [(0, 1)], [0, 0], [[], []]⟩]) ∧
    pathCost (twoNet.cost ⟨some twoNet.sparse, none⟩) twoNet.tsInds twoNet.output ∅ [(0, 1)] = 16 := by
  decide +kernel

/-- C43, the negation for finite width: the result of the path has width 4, although `max_width` is 3 and no index is sliced. -/
theorem C43_violated_width :
    (optimizeFw saEnv saPar twoNet (fun n => (Nat.log2 n : ℤ)) 3 (.pair 0 1) (some 2) none 1 1 [1] (saSched 1 40) ⟨[], 0, 0⟩).2 =
      some (.ok [⟨0, [(0, 1)], [0, 0], [[], []], [∅, ∅], ∅⟩]) ∧
    twoNet.width ⟨some twoNet.sparse, none⟩ (fun n => (Nat.log2 n : ℤ)) (termInds twoNet.tsInds twoNet.output (.pair (.tensor 0) (.tensor 1)) \ ∅) = 4 ∧
    ¬ PathFits (twoNet.width ⟨some twoNet.sparse, none⟩ fun n => (Nat.log2 n : ℤ)) 3 twoNet.tsInds twoNet.output ∅ [(0, 1)] := by
  have h4 : twoNet.width ⟨some twoNet.sparse, none⟩ (fun n => (Nat.log2 n : ℤ))
    (termInds twoNet.tsInds twoNet.output (.pair (.tensor 0) (.tensor 1)) \ ∅) = 4 := by decide +kernel
  refine ⟨by decide +kernel, h4, fun h => ?_⟩
  have := (h (.tensor 0) (.tensor 1) (by decide +kernel)).2.2
  rw [h4] at this
  exact absurd this (by decide)

/-- C55: a sparse index in only one of two parts is an error: the app raises `ValueError`. -/
theorem C55_sparse_error : (optimizeInf saEnv saPar sparseNet (.pair 0 1) (some 2) (some 1) 1 [1] (saSched 1 40) ⟨[], 0, 0⟩).2 =
    some (.error (.task .valueError)) := by
  decide +kernel

/-- C55: a list of inverse temperatures without length is accepted, but the first update is followed by a `TypeError`. -/
theorem C55_unsized_error : (optimizeInf saEnv saPar chainNet (.unsized [0, 1]) none none 1 [1] (saSched 1 40) ⟨[], 0, 0⟩).2 =
    some (.error (.task .typeError)) := by
  decide +kernel

/-- C55: `update_slices=0` is accepted, but the first update raises `ZeroDivisionError`; a network without tensors is a `TypeError` in the
finite-width app and has a result in the other one. -/
theorem C55_width_errors :
    (optimizeFw saEnv saPar chainNet (fun n => (Nat.log2 n : ℤ)) 3 (.pair 0 1) (some 2) none 0 1 [1] (saSched 1 40) ⟨[], 0, 0⟩).2 =
      some (.error (.task .zeroDivision)) ∧
    (optimizeFw saEnv saPar ⟨[], ∅, ∅, []⟩ (fun n => (Nat.log2 n : ℤ)) 3 (.pair 0 1) (some 2) none 1 1 [1] (saSched 1 40) ⟨[], 0, 0⟩).2 =
      some (.error (.task .typeError)) ∧
    (optimizeInf saEnv saPar ⟨[], ∅, ∅, []⟩ (.pair 0 1) (some 2) none 1 [1] (saSched 1 40) ⟨[], 0, 0⟩).2 = some (.ok [⟨0, [], [], []⟩]) := by
  decide +kernel

end TNCO
