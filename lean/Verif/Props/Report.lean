import Verif.Lemmas.ReportRun
import Verif.Props.EndToEnd
import Verif.Props.Sampler

/-!
# C72: the costs that the apps report

Python gets a cost as text with six significant digits (`float1024`: all digits), and adds up `Decimal`s with 28 digits.
-/

namespace TNCO

/-! ## Rounding -/

/-- C72, digits: rounding gives a nearest number with `p` digits, changes nothing about those that have no more, and preserves the order; the relative
error is at most half a unit of the last digit. -/
theorem C72_digits (p : ℕ) (hp : 1 ≤ p) :
    (∀ x, NearestDec p x (roundSig p x)) ∧ (∀ x, IsDec p x → roundSig p x = x) ∧ (∀ x y, x ≤ y → roundSig p x ≤ roundSig p y) ∧
      (∀ x, |roundSig p x - x| ≤ 5 / 10 ^ p * |x|) ∧ ∀ n : ℤ, |n| < 10 ^ p → roundSig p n = n :=
  ⟨fun x => ⟨roundSig_isDec hp x, fun _ hz => roundSig_best hp x hz⟩, fun _ h => roundSig_dec hp h, fun _ _ h => roundSig_mono hp h, roundSig_near,
    fun _ h => roundSig_dec hp (isDec_int h)⟩

/-- Ties go to the even digit. -/
example : roundSig 6 1000005 = 1000000 ∧ roundSig 6 1000015 = 1000020 ∧ roundSig 6 (-1000015) = -1000020 ∧ roundSig 6 9999996 = 10000000 ∧
    roundSig 6 123456 = 123456 ∧ roundSig 2 (1 / 3) = 33 / 100 ∧ IsDec 6 1000020 := by
  refine ⟨by decide +kernel, by decide +kernel, by decide +kernel, by decide +kernel, by decide +kernel, by decide +kernel, 100002, 1, by norm_num, by norm_num⟩

/-- C72, ties: a number half-way between two neighbours with `p` digits goes to the one with the even last digit. -/
theorem C72_ties (p : ℕ) (hp : 1 ≤ p) (m k : ℤ) (h1 : 10 ^ (p - 1) ≤ m) (h2 : m < 10 ^ p) :
    roundSig p ((m + 1 / 2) * (10 : ℚ) ^ k) = (if m % 2 = 0 then (m : ℚ) else m + 1) * (10 : ℚ) ^ k := by
  have hm0 : (0 : ℤ) < m := lt_of_lt_of_le (by positivity) h1
  have hm : (0 : ℚ) < m := by exact_mod_cast hm0
  have hk := ten_zpow_pos k
  have hx : (0 : ℚ) < (m + 1 / 2) * (10 : ℚ) ^ k := by positivity
  have hlog : Int.log 10 |((m : ℚ) + 1 / 2) * (10 : ℚ) ^ k| = k + p - 1 := by
    rw [abs_of_pos hx]
    apply le_antisymm
    · rw [← Int.lt_add_one_iff, ← Int.lt_zpow_iff_log_lt (by norm_num) hx]
      have h3 : (m : ℚ) + 1 ≤ 10 ^ p := by exact_mod_cast h2
      have e : ((10 : ℕ) : ℚ) ^ (k + p - 1 + 1) = 10 ^ p * (10 : ℚ) ^ k := by
        push_cast
        rw [← zpow_natCast, ← zpow_add₀ (by norm_num)]
        congr 1; ring
      rw [e]
      exact mul_lt_mul_of_pos_right (by linarith) hk
    · rw [← Int.zpow_le_iff_le_log (by norm_num) hx]
      have h3 : (10 : ℚ) ^ (p - 1) ≤ m := by exact_mod_cast h1
      have e : ((10 : ℕ) : ℚ) ^ (k + p - 1) = 10 ^ (p - 1) * (10 : ℚ) ^ k := by
        push_cast
        rw [← zpow_natCast, ← zpow_add₀ (by norm_num)]
        congr 1; omega
      rw [e]
      exact mul_le_mul_of_nonneg_right (by linarith) hk.le
  unfold roundSig
  rw [if_neg hx.ne', hlog]
  have e : k + p - 1 + 1 - p = k := by ring
  rw [e, mul_div_assoc, div_self hk.ne', mul_one]
  congr 1
  have hf : ⌊(m : ℚ) + 1 / 2⌋ = m := by
    rw [Int.floor_eq_iff]; constructor <;> linarith
  unfold roundEven
  rw [hf]
  have e2 : (m : ℚ) + 1 / 2 - m = 1 / 2 := by ring
  rw [e2, if_neg (lt_irrefl _), if_neg (lt_irrefl _)]
  split <;> push_cast <;> rfl

example : (10 : ℤ) ^ (6 - 1) ≤ 123457 ∧ (123457 : ℤ) < 10 ^ 6 := by norm_num

/-- C72, one cost: `float32`, `float64` and `float128` show six digits, `float1024` all of them. Zero stays zero. -/
theorem C72_shown (c : ℤ) :
    NearestDec 6 c (shownCost false c) ∧ shownCost true c = c ∧ (∀ fixed, |c| < 10 ^ 6 → shownCost fixed c = c) ∧
      ∀ fixed d, c ≤ d → shownCost fixed c ≤ shownCost fixed d :=
  ⟨(C72_digits 6 (by norm_num)).1 c, shownCost_fixed c, fun fixed h => shownCost_small h fixed, fun fixed _ h => shownCost_mono fixed h⟩

/-- C72, totals: the sum of the reported costs of `k` parts is the exact sum up to `k` roundings to 28 digits, and that of the parts to six digits; it is
exact if the sum is less than `10^28` and (except for `float1024`) each part less than `10^6`. -/
theorem C72_total (fixed : Bool) (l : List ℤ) (hl : ∀ c ∈ l, 0 ≤ c) :
    (1 - shownErr fixed) * (1 - 5 / 10 ^ 28) ^ l.length * (l.sum : ℤ) ≤ decimalSum (l.map (shownCost fixed)) ∧
      decimalSum (l.map (shownCost fixed)) ≤ (1 + shownErr fixed) * (1 + 5 / 10 ^ 28) ^ l.length * (l.sum : ℤ) ∧
      (l.sum < 10 ^ 28 → (fixed = true ∨ ∀ c ∈ l, c < 10 ^ 6) → decimalSum (l.map (shownCost fixed)) = (l.sum : ℤ)) ∧
      shownErr true = 0 ∧ shownErr false = 5 / 10 ^ 6 :=
  ⟨(total_bounds fixed hl).1, (total_bounds fixed hl).2, fun h1 h2 => total_exact fixed hl h2 h1, rfl, rfl⟩

example : decimalSum ([1000003, 999999, 5].map (shownCost false)) = 2000004 ∧ decimalSum ([1000003, 999999, 5].map (shownCost true)) = 2000007 := by
  refine ⟨by decide +kernel, ?_⟩
  exact ((C72_total true [1000003, 999999, 5] (by decide)).2.2.1 (by decide) (Or.inl rfl)).trans (by decide +kernel)

/-! ## The apps -/

theorem pairwise_of_forall₂ {α : Type} {ps : List (List α)} {cs : List ℤ} (h : List.Forall₂ (fun p c => 0 ≤ c ∧ (p = [] → c = 0)) ps cs)
    (hp : ps.Pairwise fun p q => p = [] ∨ q = []) : cs.Pairwise fun a b => a = 0 ∨ b = 0 := by
  induction h with
  | nil => exact .nil
  | @cons p c ps cs h1 h2 ih =>
    obtain ⟨g1, g2⟩ := List.pairwise_cons.1 hp
    refine List.pairwise_cons.2 ⟨fun b hb => ?_, ih g2⟩
    obtain ⟨q, hq, hqb⟩ := forall₂_mem_right h2 hb
    exact (g1 q hq).imp h1.2 hqb.2

variable {ι τ σ P V : Type} [DecidableEq ι] [LinearOrder P]

section
variable (fixed : Bool) (E : SaEnv ι τ σ P V) (Wd : ParEnv V) (N : NetworkRec ι) (betas : Betas) (nSteps : Option ℚ) (nProjs : Option ℤ) (nJobs : ℤ)
  (seeds : List ℕ) (sched : List Event) (sys sys' : Sys)

/-- C72, infinite memory: what is returned are the results of the app with exact costs, each reported, and sorted by the reported costs; exceptions, and runs
that do not end, are the same. -/
theorem C72_infinite_memory :
    (∀ rs', optimizeInfWith (costPrinter fixed) E Wd N betas nSteps nProjs nJobs seeds sched sys = (sys', some (.ok rs')) →
      ∃ rs rs0, optimizeInf E Wd N betas nSteps nProjs nJobs seeds sched sys = (sys', some (.ok rs)) ∧ rs0.Perm rs ∧
        List.Forall₂ (InfReported fixed) rs0 rs' ∧ rs'.Pairwise fun a b => a.cost ≤ b.cost) ∧
    (∀ rs, optimizeInf E Wd N betas nSteps nProjs nJobs seeds sched sys = (sys', some (.ok rs)) →
      ∃ rs', optimizeInfWith (costPrinter fixed) E Wd N betas nSteps nProjs nJobs seeds sched sys = (sys', some (.ok rs'))) ∧
    (∀ e, optimizeInfWith (costPrinter fixed) E Wd N betas nSteps nProjs nJobs seeds sched sys = (sys', some (.error e)) ↔
      optimizeInf E Wd N betas nSteps nProjs nJobs seeds sched sys = (sys', some (.error e))) ∧
    (optimizeInfWith (costPrinter fixed) E Wd N betas nSteps nProjs nJobs seeds sched sys = (sys', none) ↔
      optimizeInf E Wd N betas nSteps nProjs nJobs seeds sched sys = (sys', none)) := by
  obtain ⟨h1, h2, h3⟩ := reportedInf_same fixed E Wd N betas nSteps nProjs nJobs seeds sched sys sys'
  exact ⟨fun rs' h => reportedInf_ok fixed E Wd N betas nSteps nProjs nJobs seeds sched sys sys' h, fun rs h => h3.2 ⟨rs, h⟩, h2, h1⟩

/-- C72, finite width: the same. -/
theorem C72_finite_width {W : Type} [AddCommGroup W] [LinearOrder W] (log2W : ℕ → W) (maxWidth : W) (us : ℤ) :
    (∀ rs', optimizeFwWith (costPrinter fixed) E Wd N log2W maxWidth betas nSteps nProjs us nJobs seeds sched sys = (sys', some (.ok rs')) →
      ∃ rs rs0, optimizeFw E Wd N log2W maxWidth betas nSteps nProjs us nJobs seeds sched sys = (sys', some (.ok rs)) ∧ rs0.Perm rs ∧
        List.Forall₂ (FwReported fixed) rs0 rs' ∧ rs'.Pairwise fun a b => a.cost ≤ b.cost) ∧
    (∀ rs, optimizeFw E Wd N log2W maxWidth betas nSteps nProjs us nJobs seeds sched sys = (sys', some (.ok rs)) →
      ∃ rs', optimizeFwWith (costPrinter fixed) E Wd N log2W maxWidth betas nSteps nProjs us nJobs seeds sched sys = (sys', some (.ok rs'))) ∧
    (∀ e, optimizeFwWith (costPrinter fixed) E Wd N log2W maxWidth betas nSteps nProjs us nJobs seeds sched sys = (sys', some (.error e)) ↔
      optimizeFw E Wd N log2W maxWidth betas nSteps nProjs us nJobs seeds sched sys = (sys', some (.error e))) ∧
    (optimizeFwWith (costPrinter fixed) E Wd N log2W maxWidth betas nSteps nProjs us nJobs seeds sched sys = (sys', none) ↔
      optimizeFw E Wd N log2W maxWidth betas nSteps nProjs us nJobs seeds sched sys = (sys', none)) := by
  obtain ⟨h1, h2, h3⟩ := reportedFw_same fixed E Wd N betas nSteps nProjs nJobs seeds sched sys sys' log2W maxWidth us
  exact ⟨fun rs' h => reportedFw_ok fixed E Wd N betas nSteps nProjs nJobs seeds sched sys sys' h, fun rs h => h3.2 ⟨rs, h⟩, h2, h1⟩

omit [LinearOrder P] in
theorem cost_nonneg (N : NetworkRec ι) (cm : PyCM ι) (s : Finset ι) : 0 ≤ N.cost cm s := by
  unfold NetworkRec.cost nameCost
  split <;> exact Int.natCast_nonneg _

omit [LinearOrder P] in
theorem pathCost_nonneg (N : NetworkRec ι) (cm : PyCM ι) (S : Finset ι) (path : List (ℕ × ℕ)) : 0 ≤ pathCost (N.cost cm) N.tsInds N.output S path := by
  unfold pathCost
  refine List.sum_nonneg fun x hx => ?_
  obtain ⟨t, -, rfl⟩ := List.mem_map.1 hx
  cases t with
  | tensor k => exact le_rfl
  | pair a b => exact cost_nonneg N cm _

omit [LinearOrder P] in
/-- Only one path of a connected network has contractions. -/
theorem connected_paths {tsInds : List (List ι)} {ps : List (List (ℕ × ℕ))} (hP : PartPaths tsInds ps) (hc : AllConnected tsInds) :
    ps.Pairwise fun p q => p = [] ∨ q = [] := by
  refine hP.disc.imp_of_mem fun {p q} hp hq hd => ?_
  by_contra h
  rw [not_or] at h
  obtain ⟨F, u, hF, -⟩ := hP.single p hp h.1
  obtain ⟨G, v, hG, -⟩ := hP.single q hq h.2
  obtain ⟨k, hk, hk'⟩ := touches_some hF h.1
  obtain ⟨l, hl, hl'⟩ := touches_some hG h.2
  by_cases hn : 2 ≤ tsInds.length
  · obtain ⟨p0, hp0, hall0⟩ := connected_one hP hc hn
    have e1 := disconnected_eq hP.disc hp hp0 hk' (hall0 k hk)
    have e2 := disconnected_eq hP.disc hq hp0 hl' (hall0 l hl)
    subst e1
    subst e2
    exact hd k ⟨hk', hk'⟩
  · have : k = l := by omega
    subst this
    exact hd k ⟨hk', hl'⟩

/-- What is known of the costs of the parts of an exact result. -/
theorem inf_costs (hE : E.Ok N) (hN : N.Plain) {rs : List InfResult}
    (h : optimizeInf E Wd N betas nSteps nProjs nJobs seeds sched sys = (sys', some (.ok rs))) {r : InfResult} (hr : r ∈ rs) :
    r.cost = r.costs.sum ∧ (∀ c ∈ r.costs, 0 ≤ c) ∧ (AllConnected N.tsInds → r.costs.Pairwise fun a b => a = 0 ∨ b = 0) := by
  obtain ⟨n, bs, sized, cm, -, -, hcm, hrun⟩ := optimizeInf_ok E Wd N betas nSteps nProjs nJobs seeds sched sys sys' h
  obtain ⟨rfl, hok⟩ := pyCM_make_ok hcm
  obtain ⟨rs0, rfl, hall⟩ := runAnneal_results hrun
  obtain ⟨seed, -, hs⟩ := forall₂_mem_right hall ((sortResults_perm _ _).mem_iff.1 hr)
  obtain ⟨ps, -, hP, ht⟩ := infRun_ok hE hN hok hs
  refine ⟨ht.sum, ?_⟩
  by_cases hps : ps = []
  · rw [(ht.none hps).1]
    simp
  · obtain ⟨g1, g2⟩ := ht.pieces hps
    have hf : List.Forall₂ (fun p c => 0 ≤ c ∧ (p = [] → c = 0)) ps r.costs := by
      have := g1.imp (S := fun p (k : InfPart) => 0 ≤ k.cost ∧ (p = [] → k.cost = 0)) fun p k hk => by
        have h0 : 0 ≤ k.cost := by rw [hk.exact]; exact pathCost_nonneg N _ _ _
        refine ⟨h0, ?_⟩
        rintro rfl
        have := hk.best
        rw [pathCost_nil] at this
        omega
      rw [← List.forall₂_map_right_iff (f := InfPartOf.cost) (R := fun p c => 0 ≤ c ∧ (p = [] → c = 0)), List.map_map] at this
      have e : (r.costs.zip r.paths).map (InfPartOf.cost ∘ fun x => ⟨x.1, x.2⟩) = r.costs := by
        change (r.costs.zip r.paths).map Prod.fst = _
        exact List.map_fst_zip (by omega)
      rwa [e] at this
    refine ⟨fun c hc => ?_, fun hc => ?_⟩
    · obtain ⟨p, -, hp⟩ := forall₂_mem_right hf hc
      exact hp.1
    · exact pairwise_of_forall₂ hf (connected_paths hP hc)

theorem inf_cost_path (hE : E.Ok N) (hN : N.Plain) {rs : List InfResult}
    (h : optimizeInf E Wd N betas nSteps nProjs nJobs seeds sched sys = (sys', some (.ok rs))) {r : InfResult} (hr : r ∈ rs) :
    ∀ c ∈ r.costs, ∃ p ∈ r.paths, pathCost (N.cost ⟨some N.sparse, nProjs⟩) N.tsInds N.output ∅ p = c := by
  obtain ⟨n, bs, sized, cm, -, -, hcm, hrun⟩ := optimizeInf_ok E Wd N betas nSteps nProjs nJobs seeds sched sys sys' h
  obtain ⟨rfl, hok⟩ := pyCM_make_ok hcm
  obtain ⟨rs0, rfl, hall⟩ := runAnneal_results hrun
  obtain ⟨seed, -, hs⟩ := forall₂_mem_right hall ((sortResults_perm _ _).mem_iff.1 hr)
  obtain ⟨ps, -, hP, ht⟩ := infRun_ok hE hN hok hs
  intro c hc
  by_cases hps : ps = []
  · rw [(ht.none hps).1] at hc; cases hc
  · obtain ⟨g1, g2⟩ := ht.pieces hps
    obtain ⟨i, hi, rfl⟩ := List.getElem_of_mem hc
    have hi' : i < r.paths.length := g2 ▸ hi
    have hm : (⟨r.costs[i], r.paths[i]⟩ : InfPart) ∈ (r.costs.zip r.paths).map fun x => (⟨x.1, x.2⟩ : InfPart) := by
      refine List.mem_map.2 ⟨(r.costs[i], r.paths[i]), ?_, rfl⟩
      have : i < (r.costs.zip r.paths).length := by simp; omega
      rw [← List.getElem_zip (h := this)]
      exact List.getElem_mem _
    obtain ⟨p, -, hp⟩ := forall₂_mem_right g1 hm
    exact ⟨_, List.getElem_mem hi', hp.exact.symm⟩

theorem fw_costs {W : Type} [AddCommGroup W] [LinearOrder W] [IsOrderedAddMonoid W] {log2W : ℕ → W} (hlog : ∀ n, 0 ≤ log2W n) {maxWidth : W}
    {us : ℤ} (hus : us ≠ 0) (hE : E.Ok N) (hN : N.Plain) {rs : List (FwResult ι)}
    (h : optimizeFw E Wd N log2W maxWidth betas nSteps nProjs us nJobs seeds sched sys = (sys', some (.ok rs))) {r : FwResult ι} (hr : r ∈ rs) :
    r.cost = r.costs.sum ∧ (∀ c ∈ r.costs, 0 ≤ c) ∧ (AllConnected N.tsInds → r.costs.Pairwise fun a b => a = 0 ∨ b = 0) := by
  obtain ⟨n, bs, sized, cm, -, -, -, hcm, hrun⟩ := optimizeFw_ok E Wd N betas nSteps nProjs nJobs seeds sched sys sys' h
  obtain ⟨rfl, hok⟩ := pyCM_make_ok hcm
  obtain ⟨rs0, rfl, hall⟩ := runAnneal_results hrun
  obtain ⟨seed, -, hs⟩ := forall₂_mem_right hall ((sortResults_perm _ _).mem_iff.1 hr)
  obtain ⟨ps, -, hP, ht⟩ := fwRun_ok hlog hus hE hN hok hs
  refine ⟨ht.sum, ?_⟩
  by_cases hps : ps = []
  · rw [(ht.none hps).1]
    simp
  · obtain ⟨g1, g2, g3⟩ := ht.pieces hps
    have hf : List.Forall₂ (fun p c => 0 ≤ c ∧ (p = [] → c = 0)) ps r.costs := by
      have := g1.imp (S := fun p (k : FwPart ι) => 0 ≤ k.cost ∧ (p = [] → k.cost = 0)) fun p k hk =>
        ⟨by rw [hk.exact]; exact pathCost_nonneg N _ _ _, fun hp => by rw [hk.none hp]⟩
      rw [← List.forall₂_map_right_iff (f := FwPartOf.cost) (R := fun p c => 0 ≤ c ∧ (p = [] → c = 0))] at this
      have e : r.pieces.map FwPartOf.cost = r.costs := by
        unfold FwResult.pieces
        rw [List.map_map]
        change (r.costs.zip (r.paths.zip r.slicesList)).map Prod.fst = _
        exact List.map_fst_zip (by simp; omega)
      rwa [e] at this
    refine ⟨fun c hc => ?_, fun hc => ?_⟩
    · obtain ⟨p, -, hp⟩ := forall₂_mem_right hf hc
      exact hp.1
    · exact pairwise_of_forall₂ hf (connected_paths hP hc)

/-- C72, costs: the path of a result is complete, and the reported cost is the cost of its parts, up to the digits that are not printed; for a connected network,
it is a nearest number to the cost of the path with six digits (28 for `float1024`). -/
theorem C72_cost (hE : E.Ok N) (hN : N.Plain) (rs : List (InfResultOf ℚ))
    (h : optimizeInfWith (costPrinter fixed) E Wd N betas nSteps nProjs nJobs seeds sched sys = (sys', some (.ok rs))) :
    ∀ r ∈ rs, r.path.length = N.tsInds.length - 1 ∧ (0 < N.tsInds.length → ∃ u, replay (initTerms N.tsInds.length) r.path = some [u]) ∧
      (1 - shownErr fixed) * (1 - 5 / 10 ^ 28) ^ r.costs.length *
        ((r.paths.map (pathCost (N.cost ⟨some N.sparse, nProjs⟩) N.tsInds N.output ∅)).sum : ℤ) ≤ r.cost ∧
      r.cost ≤ (1 + shownErr fixed) * (1 + 5 / 10 ^ 28) ^ r.costs.length *
        ((r.paths.map (pathCost (N.cost ⟨some N.sparse, nProjs⟩) N.tsInds N.output ∅)).sum : ℤ) ∧
      (AllConnected N.tsInds →
        NearestDec (reportDigits fixed) (pathCost (N.cost ⟨some N.sparse, nProjs⟩) N.tsInds N.output ∅ r.path : ℤ) r.cost) := by
  obtain ⟨rs1, rs0, h1, h2, h3, -⟩ := reportedInf_ok fixed E Wd N betas nSteps nProjs nJobs seeds sched sys sys' h
  intro r hr
  obtain ⟨r0, hr0, hrep⟩ := forall₂_mem_right h3 hr
  have hm := h2.mem_iff.1 hr0
  obtain ⟨g1, g2, g3, g4, -, g6⟩ := C43_infinite_memory_partial E Wd N betas nSteps nProjs nJobs seeds sched sys sys' hE hN rs1 h1 r0 hm
  obtain ⟨-, k2, k3⟩ := inf_costs E Wd N betas nSteps nProjs nJobs seeds sched sys sys' hE hN h1 hm
  rw [hrep.path, hrep.paths]
  have hb := total_bounds fixed k2
  rw [← g4, g3, hrep.cost, hrep.costs, List.length_map]
  refine ⟨g1, g2, hb.1, hb.2, fun hc => ?_⟩
  rw [← g6.2 hc, g3, total_one fixed (k3 hc)]
  exact (C72_digits _ (by cases fixed <;> decide)).1 _

/-- C72, costs for finite width: the same; each part with its own slices. -/
theorem C72_cost_width {W : Type} [AddCommGroup W] [LinearOrder W] [IsOrderedAddMonoid W] (log2W : ℕ → W) (hlog : ∀ n, 0 ≤ log2W n) (maxWidth : W)
    (us : ℤ) (hus : us ≠ 0) (hE : E.Ok N) (hN : N.Plain) (rs : List (FwResultOf ℚ ι))
    (h : optimizeFwWith (costPrinter fixed) E Wd N log2W maxWidth betas nSteps nProjs us nJobs seeds sched sys = (sys', some (.ok rs))) :
    ∀ r ∈ rs, r.path.length = N.tsInds.length - 1 ∧ (0 < N.tsInds.length → ∃ u, replay (initTerms N.tsInds.length) r.path = some [u]) ∧
      (∀ x, x ∈ r.slices ↔ ∃ s ∈ r.slicesList, x ∈ s) ∧
      (AllConnected N.tsInds →
        NearestDec (reportDigits fixed) (pathCost (N.cost ⟨some N.sparse, nProjs⟩) N.tsInds N.output r.slices r.path : ℤ) r.cost ∧
        PathFits (N.width ⟨some N.sparse, nProjs⟩ log2W) maxWidth N.tsInds N.output r.slices r.path) := by
  obtain ⟨rs1, rs0, h1, h2, h3, -⟩ := reportedFw_ok fixed E Wd N betas nSteps nProjs nJobs seeds sched sys sys' h
  intro r hr
  obtain ⟨r0, hr0, hrep⟩ := forall₂_mem_right h3 hr
  have hm := h2.mem_iff.1 hr0
  obtain ⟨g1, g2, g3, g4, -, g6⟩ := C43_finite_width_partial E Wd N betas nSteps nProjs nJobs seeds sched sys sys' log2W hlog maxWidth us hus hE hN rs1 h1 r0 hm
  obtain ⟨-, k2, k3⟩ := fw_costs E Wd N betas nSteps nProjs nJobs seeds sched sys sys' hlog hus hE hN h1 hm
  rw [hrep.path, hrep.slices, hrep.slicesList]
  refine ⟨g1, g2, g4, fun hc => ⟨?_, (g6 hc).2⟩⟩
  rw [← (g6 hc).1, g3, hrep.cost, hrep.costs, total_one fixed (k3 hc)]
  exact (C72_digits _ (by cases fixed <;> decide)).1 _

/-- C72, improvement: results are sorted by reported cost, there is one for each seed, and no reported cost of a part exceeds the cost of the random path of
the run, reported in the same way. -/
theorem C72_improves (hE : E.Ok N) (hN : N.Plain) (rs : List (InfResultOf ℚ))
    (h : optimizeInfWith (costPrinter fixed) E Wd N betas nSteps nProjs nJobs seeds sched sys = (sys', some (.ok rs))) :
    (rs.Pairwise fun a b => a.cost ≤ b.cost) ∧ ∃ rs0, rs.Perm rs0 ∧ List.Forall₂ (fun seed r => ∃ ps,
      randomPaths E.rng E.enumN E.fuel (E.rngSeed seed) N.tsInds = some (.ok ps) ∧
      (ps ≠ [] → List.Forall₂ (fun p c => c ≤ shownCost fixed (pathCost (N.cost ⟨some N.sparse, nProjs⟩) N.tsInds N.output ∅ p)) ps r.costs)) seeds rs0 := by
  obtain ⟨out, h1, h2⟩ := optimizeInf_show (costPrinter fixed) (costPrinter_zero fixed) E Wd N betas nSteps nProjs nJobs seeds sched sys
  rw [h2] at h
  obtain ⟨rs1, rs2, g1, g2, g3, g4⟩ := outcomes_ok (cost := InfResultOf.cost) h
  refine ⟨g4, ?_⟩
  obtain ⟨-, rs0, k1, k2⟩ := C44_infinite_memory_partial E Wd N betas nSteps nProjs nJobs seeds sched sys sys' hE hN rs1 (h1.trans g1)
  refine ⟨rs0.map (InfResultOf.show (costPrinter fixed)), ?_, ?_⟩
  · rw [g3]
    exact (g2.trans k1).map _
  · rw [List.forall₂_map_right_iff]
    refine k2.imp fun seed r hsr => ?_
    obtain ⟨ps, p1, p2, -⟩ := hsr
    refine ⟨ps, p1, fun hne => ?_⟩
    change List.Forall₂ _ ps (r.costs.map (shownCost fixed))
    rw [List.forall₂_map_right_iff]
    exact (p2 hne).imp fun _ _ h => shownCost_mono fixed h

theorem C72_improves_width {W : Type} [AddCommGroup W] [LinearOrder W] [IsOrderedAddMonoid W] (log2W : ℕ → W) (hlog : ∀ n, 0 ≤ log2W n) (maxWidth : W)
    (us : ℤ) (hus : us ≠ 0) (hE : E.Ok N) (hN : N.Plain) (rs : List (FwResultOf ℚ ι))
    (h : optimizeFwWith (costPrinter fixed) E Wd N log2W maxWidth betas nSteps nProjs us nJobs seeds sched sys = (sys', some (.ok rs))) :
    (rs.Pairwise fun a b => a.cost ≤ b.cost) ∧ ∃ rs0, rs.Perm rs0 ∧ List.Forall₂ (fun seed r => ∃ ps,
      randomPaths E.rng E.enumN E.fuel (E.rngSeed seed) N.tsInds = some (.ok ps) ∧
      (ps ≠ [] → List.Forall₂ (fun p c => ∃ S, PathFits (N.width ⟨some N.sparse, nProjs⟩ log2W) maxWidth N.tsInds N.output S p ∧
        c ≤ shownCost fixed (pathCost (N.cost ⟨some N.sparse, nProjs⟩) N.tsInds N.output S p)) ps r.costs)) seeds rs0 := by
  obtain ⟨out, h1, h2⟩ := optimizeFw_show (costPrinter fixed) (costPrinter_zero fixed) E Wd N betas nSteps nProjs nJobs seeds sched sys log2W maxWidth us
  rw [h2] at h
  obtain ⟨rs1, rs2, g1, g2, g3, g4⟩ := outcomes_ok (cost := FwResultOf.cost) h
  refine ⟨g4, ?_⟩
  obtain ⟨-, rs0, k1, k2⟩ := C44_finite_width_partial E Wd N betas nSteps nProjs nJobs seeds sched sys sys' log2W hlog maxWidth us hus hE hN rs1 (h1.trans g1)
  refine ⟨rs0.map (FwResultOf.show (costPrinter fixed)), ?_, ?_⟩
  · rw [g3]
    exact (g2.trans k1).map _
  · rw [List.forall₂_map_right_iff]
    refine k2.imp fun seed r hsr => ?_
    obtain ⟨ps, p1, p2⟩ := hsr
    refine ⟨ps, p1, fun hne => ?_⟩
    change List.Forall₂ _ ps (r.costs.map (shownCost fixed))
    rw [List.forall₂_map_right_iff]
    exact (p2 hne).imp fun _ _ ⟨S, s1, s2⟩ => ⟨S, s1, shownCost_mono fixed s2⟩

/-- C72, order: a result is at most a little more expensive than the later ones: the factor is what the digits leave open. -/
theorem C72_order (hE : E.Ok N) (hN : N.Plain) (rs : List (InfResultOf ℚ))
    (h : optimizeInfWith (costPrinter fixed) E Wd N betas nSteps nProjs nJobs seeds sched sys = (sys', some (.ok rs))) :
    rs.Pairwise fun a b =>
      (1 - shownErr fixed) * (1 - 5 / 10 ^ 28) ^ a.costs.length *
          ((a.paths.map (pathCost (N.cost ⟨some N.sparse, nProjs⟩) N.tsInds N.output ∅)).sum : ℤ) ≤
        (1 + shownErr fixed) * (1 + 5 / 10 ^ 28) ^ b.costs.length *
          ((b.paths.map (pathCost (N.cost ⟨some N.sparse, nProjs⟩) N.tsInds N.output ∅)).sum : ℤ) := by
  obtain ⟨rs1, rs0, -, -, -, h4⟩ := reportedInf_ok fixed E Wd N betas nSteps nProjs nJobs seeds sched sys sys' h
  have hc := C72_cost fixed E Wd N betas nSteps nProjs nJobs seeds sched sys sys' hE hN rs h
  refine h4.imp_of_mem fun {a b} ha hb hab => ?_
  exact (hc a ha).2.2.1.trans (hab.trans (hc b hb).2.2.2.1)

omit [DecidableEq ι] [LinearOrder P] in
theorem pow_bounds {k : ℕ} (hk : k ≤ 10 ^ 20) : 1 - 5 / 10 ^ 8 ≤ (1 - 5 / 10 ^ 28 : ℚ) ^ k ∧ (1 + 5 / 10 ^ 28 : ℚ) ^ k ≤ 1 / (1 - 5 / 10 ^ 8) := by
  have hk' : (k : ℚ) ≤ 10 ^ 20 := by exact_mod_cast hk
  have h1 : 1 - 5 / 10 ^ 8 ≤ (1 - 5 / 10 ^ 28 : ℚ) ^ k := by
    have := one_add_mul_le_pow (show (-2 : ℚ) ≤ -(5 / 10 ^ 28) by norm_num) k
    rw [← sub_eq_add_neg] at this
    refine le_trans ?_ this
    have h2 : (k : ℚ) * (5 / 10 ^ 28) ≤ 10 ^ 20 * (5 / 10 ^ 28) := mul_le_mul_of_nonneg_right hk' (by norm_num)
    have h3 : (10 ^ 20 * (5 / 10 ^ 28) : ℚ) = 5 / 10 ^ 8 := by norm_num
    linarith
  refine ⟨h1, ?_⟩
  rw [le_div_iff₀ (by norm_num)]
  have h2 : (1 + 5 / 10 ^ 28 : ℚ) ^ k * (1 - 5 / 10 ^ 28 : ℚ) ^ k ≤ 1 := by
    rw [← mul_pow]
    exact pow_le_one₀ (by norm_num) (by norm_num)
  exact (mul_le_mul_of_nonneg_left h1 (by positivity)).trans h2

/-- C72, order: of results with at most `10^20` parts, an earlier one costs at most `1 + 1.1e-5` times as much as a later one. -/
theorem C72_order_factor (hE : E.Ok N) (hN : N.Plain) (rs : List (InfResultOf ℚ))
    (h : optimizeInfWith (costPrinter fixed) E Wd N betas nSteps nProjs nJobs seeds sched sys = (sys', some (.ok rs))) :
    rs.Pairwise fun a b => a.costs.length ≤ 10 ^ 20 → b.costs.length ≤ 10 ^ 20 →
      (((a.paths.map (pathCost (N.cost ⟨some N.sparse, nProjs⟩) N.tsInds N.output ∅)).sum : ℤ) : ℚ) ≤
        (1 + 11 / 10 ^ 6) * ((b.paths.map (pathCost (N.cost ⟨some N.sparse, nProjs⟩) N.tsInds N.output ∅)).sum : ℤ) := by
  refine (C72_order fixed E Wd N betas nSteps nProjs nJobs seeds sched sys sys' hE hN rs h).imp fun {a b} hab ha hb => ?_
  have hpos : ∀ ps : List (List (ℕ × ℕ)), 0 ≤ (((ps.map (pathCost (N.cost ⟨some N.sparse, nProjs⟩) N.tsInds N.output ∅)).sum : ℤ) : ℚ) := by
    intro ps
    have : 0 ≤ (ps.map (pathCost (N.cost ⟨some N.sparse, nProjs⟩) N.tsInds N.output ∅)).sum := by
      refine List.sum_nonneg fun x hx => ?_
      obtain ⟨p, -, rfl⟩ := List.mem_map.1 hx
      exact pathCost_nonneg N _ _ p
    exact_mod_cast this
  have h1 := hpos a.paths
  have h2 := hpos b.paths
  generalize (((a.paths.map (pathCost (N.cost ⟨some N.sparse, nProjs⟩) N.tsInds N.output ∅)).sum : ℤ) : ℚ) = x at *
  generalize (((b.paths.map (pathCost (N.cost ⟨some N.sparse, nProjs⟩) N.tsInds N.output ∅)).sum : ℤ) : ℚ) = y at *
  have e0 : shownErr fixed ≤ 5 / 10 ^ 6 := by unfold shownErr; split <;> norm_num
  have e1 := shownErr_nonneg fixed
  have g1 : (1 - 5 / 10 ^ 6) * (1 - 5 / 10 ^ 8) ≤ (1 - shownErr fixed) * (1 - 5 / 10 ^ 28) ^ a.costs.length :=
    mul_le_mul (by linarith) (pow_bounds ha).1 (by norm_num) (by linarith)
  have g2 : (1 + shownErr fixed) * (1 + 5 / 10 ^ 28) ^ b.costs.length ≤ (1 + 5 / 10 ^ 6) * (1 / (1 - 5 / 10 ^ 8)) :=
    mul_le_mul (by linarith) (pow_bounds hb).2 (by positivity) (by norm_num)
  have k1 := mul_le_mul_of_nonneg_right g1 h1
  have k2 := mul_le_mul_of_nonneg_right g2 h2
  have k3 := (k1.trans hab).trans k2
  norm_num at k3 ⊢
  linarith

/-- C72, small costs: if the paths of a result cost less than `10^6` each (`float1024`: any amount) and less than `10^28` together, the reported cost is exact. -/
theorem C72_small (hE : E.Ok N) (hN : N.Plain) (rs : List (InfResultOf ℚ))
    (h : optimizeInfWith (costPrinter fixed) E Wd N betas nSteps nProjs nJobs seeds sched sys = (sys', some (.ok rs))) :
    ∀ r ∈ rs, (fixed = true ∨ ∀ p ∈ r.paths, pathCost (N.cost ⟨some N.sparse, nProjs⟩) N.tsInds N.output ∅ p < 10 ^ 6) →
      (r.paths.map (pathCost (N.cost ⟨some N.sparse, nProjs⟩) N.tsInds N.output ∅)).sum < 10 ^ 28 →
      r.cost = ((r.paths.map (pathCost (N.cost ⟨some N.sparse, nProjs⟩) N.tsInds N.output ∅)).sum : ℤ) := by
  obtain ⟨rs1, rs0, h1, h2, h3, -⟩ := reportedInf_ok fixed E Wd N betas nSteps nProjs nJobs seeds sched sys sys' h
  intro r hr hsmall hsum
  obtain ⟨r0, hr0, hrep⟩ := forall₂_mem_right h3 hr
  have hm := h2.mem_iff.1 hr0
  obtain ⟨-, -, g3, g4, -⟩ := C43_infinite_memory_partial E Wd N betas nSteps nProjs nJobs seeds sched sys sys' hE hN rs1 h1 r0 hm
  obtain ⟨-, k2, -⟩ := inf_costs E Wd N betas nSteps nProjs nJobs seeds sched sys sys' hE hN h1 hm
  rw [hrep.paths] at hsmall hsum ⊢
  rw [← g4, g3] at hsum ⊢
  rw [hrep.cost, hrep.costs]
  refine total_exact fixed k2 (hsmall.imp id fun hs c hc => ?_) hsum
  -- each cost is at most the sum, and belongs to a path
  obtain ⟨p, hp, rfl⟩ := inf_cost_path E Wd N betas nSteps nProjs nJobs seeds sched sys sys' hE hN h1 hm c hc
  exact hs p hp

end

/-! ## Multiplications, and the sampler -/

section
variable {R : Type} [CommSemiring R] [DecidableEq R] (fixed : Bool) (E : SaEnv ι τ σ P V) (Wd : ParEnv V) (N : NetworkRec ι) (betas : Betas) (nSteps : Option ℚ)
  (nProjs : Option ℤ) (nJobs : ℤ) (seeds : List ℕ) (sched : List Event) (sys sys' : Sys) (enum : Finset ι → List ι) (he : EnumOk enum)
  (arrays : List (NDArray R)) (output : List ι)

include he in
/-- C72, multiplications: contracting a connected network without sparse indices along the path of a result takes as many multiplications as the result says,
rounded to six digits (28 for `float1024`). -/
theorem C72_muls (hE : E.Ok N) (hN : N.Plain) (hA : N.Summable arrays output) (hconn : AllConnected N.tsInds) (hsp : N.sparse = ∅) (rs : List (InfResultOf ℚ))
    (h : optimizeInfWith (costPrinter fixed) E Wd N betas nSteps nProjs nJobs seeds sched sys = (sys', some (.ok rs))) :
    ∀ r ∈ rs, NearestDec (reportDigits fixed) (contractMuls enum r.path N.tsInds output arrays) r.cost := by
  obtain ⟨rs1, rs0, h1, h2, h3, -⟩ := reportedInf_ok fixed E Wd N betas nSteps nProjs nJobs seeds sched sys sys' h
  intro r hr
  obtain ⟨r0, hr0, hrep⟩ := forall₂_mem_right h3 hr
  have hm := h2.mem_iff.1 hr0
  obtain ⟨-, g⟩ := C59_infinite_memory_partial E Wd N betas nSteps nProjs nJobs seeds sched sys sys' enum he arrays output hE hN hA rs1 h1 r0 hm
  obtain ⟨k1, -, k3⟩ := inf_costs E Wd N betas nSteps nProjs nJobs seeds sched sys sys' hE hN h1 hm
  have e := g hconn hsp
  rw [hrep.path, hrep.cost, hrep.costs, total_one fixed (k3 hconn), ← k1, e]
  have := (C72_digits (reportDigits fixed) (by cases fixed <;> decide)).1 ((contractMuls enum r0.path N.tsInds output arrays : ℕ) : ℚ)
  exact_mod_cast this

include he in
theorem C72_muls_width {W : Type} [AddCommGroup W] [LinearOrder W] [IsOrderedAddMonoid W] (log2W : ℕ → W) (hlog : ∀ n, 0 ≤ log2W n) (maxWidth : W)
    (us : ℤ) (hus : us ≠ 0) (hE : E.Ok N) (hN : N.Plain) (hA : N.Summable arrays output) (hconn : AllConnected N.tsInds) (hsp : N.sparse = ∅)
    (rs : List (FwResultOf ℚ ι))
    (h : optimizeFwWith (costPrinter fixed) E Wd N log2W maxWidth betas nSteps nProjs us nJobs seeds sched sys = (sys', some (.ok rs))) :
    ∀ r ∈ rs, ∀ v, NearestDec (reportDigits fixed) (((∏ x ∈ r.slices, N.dim x) *
      contractMuls enum r.path (sliceNetInds r.slices N.tsInds) (sliceInds r.slices output) (sliceArrays r.slices v arrays N.tsInds) : ℕ) : ℚ) r.cost := by
  obtain ⟨rs1, rs0, h1, h2, h3, -⟩ := reportedFw_ok fixed E Wd N betas nSteps nProjs nJobs seeds sched sys sys' h
  intro r hr v
  obtain ⟨r0, hr0, hrep⟩ := forall₂_mem_right h3 hr
  have hm := h2.mem_iff.1 hr0
  obtain ⟨-, g⟩ := C59_finite_width_partial E Wd N betas nSteps nProjs nJobs seeds sched sys sys' enum he arrays output log2W hlog maxWidth us hus hE hN hA rs1 h1 r0 hm
  obtain ⟨k1, -, k3⟩ := fw_costs E Wd N betas nSteps nProjs nJobs seeds sched sys sys' hlog hus hE hN h1 hm
  have e := (g hconn).2 hsp v
  rw [hrep.path, hrep.slices, hrep.cost, hrep.costs, total_one fixed (k3 hconn), ← k1, e]
  have := (C72_digits (reportDigits fixed) (by cases fixed <;> decide)).1 (((∏ x ∈ r0.slices, N.dim x) *
      contractMuls enum r0.path (sliceNetInds r0.slices N.tsInds) (sliceInds r0.slices output) (sliceArrays r0.slices v arrays N.tsInds) : ℕ) : ℚ)
  exact_mod_cast this

end

/-- C72, sampler: the path that is used costs at most a little more than that of any other run of the optimizer. -/
theorem C72_sampler (O : SamplerOpts ι τ σ P V) (hO : O.Ok) (n : ℕ) (inds : List (List ι)) (hn : ∀ xs ∈ inds, xs.Nodup) (path : List (ℕ × ℕ))
    (h : O.optimize n inds = some (.ok path)) :
    ∃ N sys' rs, N.tensors = inds.map qubitTensor ∧ N.output = ∅ ∧
      optimizeInfWith (costPrinter O.fixed) (O.env inds) O.par N O.betas O.nSteps O.nProjs O.nJobs (O.seeds n) (O.turns n inds).flatten O.sys =
        (sys', some (.ok rs)) ∧
      ∃ r ∈ rs, r.path = path ∧ ∀ r' ∈ rs,
        (1 - shownErr O.fixed) * (1 - 5 / 10 ^ 28) ^ r.costs.length *
            ((r.paths.map (pathCost (N.cost ⟨some N.sparse, O.nProjs⟩) N.tsInds N.output ∅)).sum : ℤ) ≤
          (1 + shownErr O.fixed) * (1 + 5 / 10 ^ 28) ^ r'.costs.length *
            ((r'.paths.map (pathCost (N.cost ⟨some N.sparse, O.nProjs⟩) N.tsInds N.output ∅)).sum : ℤ) := by
  obtain ⟨N, sys', rs, hN, h1, r, h2, h3, h4⟩ := optimize_cheapest hO h
  have hc := C72_cost O.fixed (O.env inds) O.par N O.betas O.nSteps O.nProjs O.nJobs (O.seeds n) (O.turns n inds).flatten O.sys sys' (hO.env hN)
    (hN.plain hn) rs h1
  exact ⟨N, sys', rs, hN.tensors, hN.output, h1, r, h2, h3, fun r' hr' => (hc r h2).2.2.1.trans ((h4 r' hr').trans (hc r' hr').2.2.2.1)⟩

/-! ## What the digits hide -/

/-- Two vectors with a common index. -/
def bigNet (n : ℕ) : NetworkRec ℕ := ⟨[⟨[0], [n], none⟩, ⟨[0], [n], none⟩], ∅, ∅, [(0, n)]⟩

/-- A vector, a matrix and a vector. -/
def lineNet : NetworkRec ℕ := ⟨[⟨[0], [1000], none⟩, ⟨[0, 1], [1000, 1001], none⟩, ⟨[1], [1001], none⟩], ∅, ∅, [(0, 1000), (1, 1001)]⟩

/-- Two matrices with two common indices of dimension `10^14 + 1`. -/
def hugeNet : NetworkRec ℕ :=
  ⟨[⟨[0, 1], [10 ^ 14 + 1, 10 ^ 14 + 1], none⟩, ⟨[0, 1], [10 ^ 14 + 1, 10 ^ 14 + 1], none⟩], ∅, ∅, [(0, 10 ^ 14 + 1), (1, 10 ^ 14 + 1)]⟩

/-- A generator whose numbers depend on the seed. -/
def seedRng : PyRng ℕ := ⟨fun n s => (if s < n then s else 0, s), fun _ s => (if s = 0 then (0, 1) else (1, 0), s)⟩

def seedEnv : SaEnv ℕ ℕ ℕ ℚ ℕ := { saEnv with rng := seedRng, rngSeed := id }

theorem seedRng_ok : seedRng.Ok := by
  refine ⟨fun n s h => ?_, fun n s h => ?_⟩
  · show (if s < n then s else 0) < n
    split <;> omega
  · show (if s = 0 then ((0, 1) : ℕ × ℕ) else (1, 0)).1 < n ∧ (if s = 0 then ((0, 1) : ℕ × ℕ) else (1, 0)).2 < n ∧
      (if s = 0 then ((0, 1) : ℕ × ℕ) else (1, 0)).1 ≠ (if s = 0 then ((0, 1) : ℕ × ℕ) else (1, 0)).2
    split <;> simp <;> omega

/-- The hypotheses of the theorems of this file hold for these networks. -/
example : saEnv.Ok (bigNet 1000003) ∧ (bigNet 1000003).Plain ∧ AllConnected (bigNet 1000003).tsInds ∧
    (bigNet 1000003).Summable [(⟨[1000003], fun _ => 1⟩ : NDArray ℤ), ⟨[1000003], fun _ => 1⟩] [] ∧ seedEnv.Ok lineNet ∧ lineNet.Plain := by
  refine ⟨⟨zeroRng_ok, positions_ok, positions_ok, by decide +kernel⟩, ⟨by decide +kernel, ?_⟩, ?_,
    ⟨⟨rfl, by decide +kernel⟩, by decide +kernel, by simp [bigNet], by decide +kernel, by decide +kernel⟩,
    ⟨seedRng_ok, positions_ok, positions_ok, by decide +kernel⟩, ⟨by decide +kernel, ?_⟩⟩
  · intro l hl x hx
    have h : ∀ l ∈ (bigNet 1000003).tsInds, ∀ x ∈ l, dget (bigNet 1000003).dims x = some 1000003 := by decide +kernel
    exact ⟨1000003, by decide, h l hl x hx⟩
  · have h01 : ConnectedPos (bigNet 1000003).tsInds 0 1 := .single ⟨[0], [0], 0, rfl, rfl, by decide, by decide⟩
    have h10 : ConnectedPos (bigNet 1000003).tsInds 1 0 := .single ⟨[0], [0], 0, rfl, rfl, by decide, by decide⟩
    intro i hi j hj
    have hi : i < 2 := hi
    have hj : j < 2 := hj
    obtain rfl | rfl : i = 0 ∨ i = 1 := by omega
    all_goals obtain rfl | rfl : j = 0 ∨ j = 1 := by omega
    all_goals first | exact .refl | assumption
  · intro l hl x hx
    have h : ∀ l ∈ lineNet.tsInds, ∀ x ∈ l, ∃ d ∈ [1000, 1001], dget lineNet.dims x = some d := by decide +kernel
    obtain ⟨d, hd, hd'⟩ := h l hl x hx
    exact ⟨d, by rcases List.mem_cons.1 hd with rfl | hd
                 · decide
                 · rw [List.mem_singleton.1 hd]; decide, hd'⟩

/-- C72, the negation of C43, C59 and C62 for reported costs: two vectors of dimension 1000003 are contracted with that many multiplications, but the cost
is reported as 1000000; with finite width too. -/
theorem C72_violated_cost :
    (optimizeInfWith (costPrinter false) saEnv saPar (bigNet 1000003) (.pair 0 1) (some 2) none 1 [1] (saSched 1 40) ⟨[], 0, 0⟩).2 =
      some (.ok [⟨1000000, [(0, 1)], [1000000], [[(0, 1)]]⟩]) ∧
    (optimizeFwWith (costPrinter false) saEnv saPar (bigNet 1000003) (fun n => (Nat.log2 n : ℤ)) 30 (.pair 0 1) (some 2) none 1 1 [1] (saSched 1 40) ⟨[], 0, 0⟩).2 =
      some (.ok [⟨1000000, [(0, 1)], [1000000], [[(0, 1)]], [∅], ∅⟩]) ∧
    pathCost ((bigNet 1000003).cost ⟨some (bigNet 1000003).sparse, none⟩) (bigNet 1000003).tsInds (bigNet 1000003).output ∅ [(0, 1)] = 1000003 ∧
    contractMuls ISet.positions [(0, 1)] (bigNet 1000003).tsInds [] [(⟨[1000003], fun _ => 1⟩ : NDArray ℤ), ⟨[1000003], fun _ => 1⟩] = 1000003 := by
  refine ⟨by decide +kernel, by decide +kernel, by decide +kernel, by decide +kernel⟩

/-- C72, the negation of C44: the reported cost of a run can exceed the cost of its random path. -/
theorem C72_violated_improves :
    (optimizeInfWith (costPrinter false) saEnv saPar (bigNet 1000006) (.pair 0 1) (some 2) none 1 [1] (saSched 1 40) ⟨[], 0, 0⟩).2 =
      some (.ok [⟨1000010, [(0, 1)], [1000010], [[(0, 1)]]⟩]) ∧
    (randomPaths saEnv.rng saEnv.enumN saEnv.fuel (saEnv.rngSeed 1) (bigNet 1000006).tsInds).bind (·.toOption) = some [[(0, 1)]] ∧
    pathCost ((bigNet 1000006).cost ⟨some (bigNet 1000006).sparse, none⟩) (bigNet 1000006).tsInds (bigNet 1000006).output ∅ [(0, 1)] = 1000006 := by
  refine ⟨by decide +kernel, by decide +kernel, by decide +kernel⟩

/-- C72, the negation of the order of C44: of two results, the more expensive one comes first: the costs 1002001 and 1002000 are both reported as 1002000. -/
theorem C72_violated_order :
    (optimizeInfWith (costPrinter false) seedEnv saPar lineNet (.pair 0 1) (some 1) none 1 [2, 1] (saSched 2 40) ⟨[], 0, 0⟩).2 =
      some (.ok [⟨1002000, [(0, 1), (0, 1)], [1002000], [[(0, 1), (0, 1)]]⟩, ⟨1002000, [(1, 2), (0, 1)], [1002000], [[(1, 2), (0, 1)]]⟩]) ∧
    pathCost (lineNet.cost ⟨some lineNet.sparse, none⟩) lineNet.tsInds lineNet.output ∅ [(0, 1), (0, 1)] = 1002001 ∧
    pathCost (lineNet.cost ⟨some lineNet.sparse, none⟩) lineNet.tsInds lineNet.output ∅ [(1, 2), (0, 1)] = 1002000 := by
  refine ⟨by decide +kernel, by decide +kernel, by decide +kernel⟩

/-- With `float1024`, the sum still has only 28 digits, although every digit of the only part was there. -/
theorem C72_violated_digits :
    (optimizeInfWith (costPrinter true) saEnv saPar hugeNet (.pair 0 1) (some 1) none 1 [1] (saSched 1 40) ⟨[], 0, 0⟩).2 =
      some (.ok [⟨10 ^ 28 + 2 * 10 ^ 14, [(0, 1)], [10 ^ 28 + 2 * 10 ^ 14 + 1], [[(0, 1)]]⟩]) := by
  decide +kernel

/-- The reported order of the cheap network of `C43` is that of the exact costs. -/
example : (optimizeInfWith (costPrinter false) saEnv saPar chainNet (.pair 0 1) (some 2) none 1 [1, 2] (saSched 2 40) ⟨[], 0, 0⟩).2 =
    some (.ok (List.replicate 2 ⟨128, [(1, 2), (0, 1)], [128], [[(1, 2), (0, 1)]]⟩)) := by
  decide +kernel

end TNCO
