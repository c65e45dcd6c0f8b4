import Verif.Props.CostText
import Verif.Props.Program
import Verif.Spec.CostText

/-!
# C92: the costs in the JSON text of the program
-/

namespace TNCO

/-- The functions of `C92_functions` are the texts that Python writes. -/
theorem C92_decimal (fixed : Bool) : ∃ total : ℚ → List ℕ, PyDecimal fixed total ∧ ∀ q, TextOk (total q) := by
  obtain ⟨-, total, -, h2, -, h4⟩ := C92_functions fixed
  refine ⟨total, fun l d h => ?_, h2⟩
  rcases C92_total fixed l with ⟨h', -⟩ | ⟨-, d', h', -, hv⟩
  · rw [h] at h'; cases h'
  · rw [h] at h'
    rw [h4 l d h, Option.some.inj h', hv]

theorem cost_read {fixed : Bool} {total : ℚ → List ℕ} (hd : PyDecimal fixed total) {cs : List ℤ} {paths : List (List (ℕ × ℕ))} {j : Json}
    (h0 : ∀ c ∈ cs, 0 ≤ c) (h1 : (∀ p ∈ paths, p = []) → ∀ c ∈ cs, c = 0) (h2 : (∃ p ∈ paths, p ≠ []) → cs ≠ [])
    (h : costText total paths (decimalSum (cs.map (shownCost fixed))) j) : CostRead (decimalSum (cs.map (shownCost fixed))) j := by
  rcases h with ⟨hp, rfl⟩ | ⟨hp, rfl⟩
  · left
    refine ⟨?_, rfl⟩
    have hz := h1 hp
    unfold decimalSum
    refine foldl_zeros (fun x hx => ?_) ⟨0, 0, by norm_num, by norm_num⟩
    obtain ⟨c, hc, rfl⟩ := List.mem_map.1 hx
    rw [hz c hc]
    exact_mod_cast shownCost_zero fixed
  · right
    have hne := h2 hp
    have hl : (cs.map fun c => some c.toNat).map (fun p => p.elim 0 fun c => shownCost fixed ((c : ℕ) : ℤ)) = cs.map (shownCost fixed) := by
      rw [List.map_map]
      refine List.map_congr_left fun c hc => ?_
      change shownCost fixed ((c.toNat : ℕ) : ℤ) = _
      rw [Int.toNat_of_nonneg (h0 c hc)]
    rcases C92_total fixed (cs.map fun c => some c.toNat) with ⟨-, hn⟩ | ⟨-, d, h4, h5, h6⟩
    · obtain ⟨c, hc⟩ := List.exists_mem_of_ne_nil cs hne
      exact absurd (hn _ (List.mem_map_of_mem hc)) (by simp)
    · rw [hl] at h6
      refine ⟨_, d, rfl, ?_, h6⟩
      rw [← h6, hd _ _ h4]
      exact h5

section
variable {ι τ σ P V : Type} [DecidableEq ι] [LinearOrder P]
variable {E : SaEnv ι τ σ P V} {Wd : ParEnv V} {N : NetworkRec ι} {betas : Betas} {nSteps : Option ℚ} {nProjs : Option ℤ} {nJobs : ℤ} {seeds : List ℕ}
  {sched : List Event} {sys sys' : Sys}

theorem inf_parts (hE : E.Ok N) (hN : N.Plain) {rs : List InfResult}
    (h : optimizeInf E Wd N betas nSteps nProjs nJobs seeds sched sys = (sys', some (.ok rs))) {r : InfResult} (hr : r ∈ rs) :
    (∀ c ∈ r.costs, 0 ≤ c) ∧ ((∀ p ∈ r.paths, p = []) → ∀ c ∈ r.costs, c = 0) ∧ ((∃ p ∈ r.paths, p ≠ []) → r.costs ≠ []) := by
  refine ⟨(inf_costs E Wd N betas nSteps nProjs nJobs seeds sched sys sys' hE hN h hr).2.1, fun hp c hc => ?_, ?_⟩
  · obtain ⟨p, hp', rfl⟩ := inf_cost_path E Wd N betas nSteps nProjs nJobs seeds sched sys sys' hE hN h hr c hc
    rw [hp p hp', pathCost_nil]
  · obtain ⟨n, bs, sized, cm, -, -, hcm, hrun⟩ := optimizeInf_ok E Wd N betas nSteps nProjs nJobs seeds sched sys sys' h
    obtain ⟨rfl, hok⟩ := pyCM_make_ok hcm
    obtain ⟨rs0, rfl, hall⟩ := runAnneal_results hrun
    obtain ⟨seed, -, hs⟩ := forall₂_mem_right hall ((sortResults_perm _ _).mem_iff.1 hr)
    obtain ⟨ps, -, hP, ht⟩ := infRun_ok hE hN hok hs
    rintro ⟨p, hp, hne⟩ hc
    by_cases hps : ps = []
    · rw [(ht.none hps).2] at hp
      exact hne (List.eq_of_mem_replicate hp)
    · have := (ht.pieces hps).2
      rw [hc] at this
      rw [List.eq_nil_of_length_eq_zero this.symm] at hp
      simp at hp

theorem fw_parts {W : Type} [AddCommGroup W] [LinearOrder W] [IsOrderedAddMonoid W] {log2W : ℕ → W} (hlog : ∀ n, 0 ≤ log2W n) {maxWidth : W}
    {us : ℤ} (hus : us ≠ 0) (hE : E.Ok N) (hN : N.Plain) {rs : List (FwResult ι)}
    (h : optimizeFw E Wd N log2W maxWidth betas nSteps nProjs us nJobs seeds sched sys = (sys', some (.ok rs))) {r : FwResult ι} (hr : r ∈ rs) :
    (∀ c ∈ r.costs, 0 ≤ c) ∧ ((∀ p ∈ r.paths, p = []) → ∀ c ∈ r.costs, c = 0) ∧ ((∃ p ∈ r.paths, p ≠ []) → r.costs ≠ []) := by
  refine ⟨(fw_costs E Wd N betas nSteps nProjs nJobs seeds sched sys sys' hlog hus hE hN h hr).2.1, ?_⟩
  obtain ⟨n, bs, sized, cm, -, -, -, hcm, hrun⟩ := optimizeFw_ok E Wd N betas nSteps nProjs nJobs seeds sched sys sys' h
  obtain ⟨rfl, hok⟩ := pyCM_make_ok hcm
  obtain ⟨rs0, rfl, hall⟩ := runAnneal_results hrun
  obtain ⟨seed, -, hs⟩ := forall₂_mem_right hall ((sortResults_perm _ _).mem_iff.1 hr)
  obtain ⟨ps, -, hP, ht⟩ := fwRun_ok hlog hus hE hN hok hs
  by_cases hps : ps = []
  · refine ⟨fun _ c hc => ?_, ?_⟩
    · rw [(ht.none hps).1] at hc; simp at hc
    · rintro ⟨p, hp, hne⟩ -
      rw [(ht.none hps).2.1] at hp
      exact hne (List.eq_of_mem_replicate hp)
  · obtain ⟨g1, g2, g3⟩ := ht.pieces hps
    refine ⟨fun hp c hc => ?_, ?_⟩
    · obtain ⟨i, hi, rfl⟩ := List.getElem_of_mem hc
      have hm : (⟨r.costs[i], r.paths[i]'(by omega), r.slicesList[i]'(by omega)⟩ : FwPart ι) ∈ r.pieces := by
        refine List.mem_map.2 ⟨(r.costs[i], r.paths[i]'(by omega), r.slicesList[i]'(by omega)), ?_, rfl⟩
        rw [List.mem_iff_getElem]
        exact ⟨i, by simp; omega, by simp⟩
      obtain ⟨p, -, hk⟩ := forall₂_mem_right g1 hm
      have h1 := hk.exact
      have h2 : r.paths[i]'(by omega) = [] := hp _ (List.getElem_mem _)
      simp only [h2, pathCost_nil] at h1
      exact h1
    · rintro ⟨p, hp, -⟩ hc
      rw [hc] at g2
      rw [List.eq_nil_of_length_eq_zero g2.symm] at hp
      simp at hp

end

variable {σ W τ ρ P V L : Type} [Zero W] [Add W] [LT W] [DecidableLT W] [LinearOrder P] [AddCommGroup L] [LinearOrder L]
variable {E : ProgEnv σ W τ ρ P V L} {a : ProgArgs} {text : List ℕ} {rows : List (ℕ × List (List ℕ))} {sched : List Event} {sys sys' : Sys}

/-- The whole way, infinite memory: whoever reads the JSON text that the program writes, and reads the costs in it with `Decimal`, has the costs of the results. -/
theorem C92_json (h : TextInput E a text rows) (hm : finiteWidthModule a.maxWidth = false) (hd : PyDecimal a.fixed E.decimal) {o : DumpOut NetworkJ ResultJ}
    (ho : program E a text sched sys = (sys', some (.ok o))) (hw : a.dump.wants E.after jsonText) :
    ∃ N path F rs s, TextLoaded rows a.outTok a.sparseTok E.load.log2 E.load.fuse N path F ∧
      optimizeInfWith (costPrinter a.fixed) E.sa E.par N.toRec a.betas a.nSteps a.nProjs a.nJobs a.seeds sched sys = (sys', some (.ok rs)) ∧
      TextOut E.after a.dump s o ∧
      ResultsText (TextWritten rows (textNames rows a.outTok a.sparseTok) N F) (fun r j => InfWritten E.decimal r j ∧ ShowsCost r.cost j) rs s := by
  obtain ⟨N, path, F, rs, hl, h2, -, -, hout⟩ := C74_infinite h hm ho
  obtain ⟨s, g1, j, js, g2, g3, g4⟩ := hout hw
  refine ⟨N, path, F, rs, s, hl, h2, g1, j, js, g2, g3, ?_⟩
  obtain ⟨out, k1, k2⟩ := optimizeInf_show (costPrinter a.fixed) (costPrinter_zero a.fixed) E.sa E.par N.toRec a.betas a.nSteps a.nProjs a.nJobs a.seeds sched sys
  rw [k2] at h2
  obtain ⟨rs1, rs2, q1, q2, q3, -⟩ := outcomes_ok (cost := InfResultOf.cost) h2
  have hmem : ∀ r ∈ rs, ∀ j, InfWritten E.decimal r j → ShowsCost r.cost j := by
    intro r hr j hj
    rw [q3] at hr
    obtain ⟨r0, hr0, rfl⟩ := List.mem_map.1 hr
    obtain ⟨p0, p1, p2⟩ := inf_parts (h.sa hl) (hl.plain h.rows) (k1.trans q1) (q2.mem_iff.1 hr0)
    obtain ⟨c, t, rfl, hc⟩ := hj
    exact ⟨c, _, rfl, cost_read hd p0 p1 p2 hc⟩
  exact (List.forall₂_iff_get.2 ⟨(List.forall₂_iff_get.1 g4).1, fun i h1 h2 => ⟨(List.forall₂_iff_get.1 g4).2 i h1 h2,
    hmem _ (List.get_mem _ _) _ ((List.forall₂_iff_get.1 g4).2 i h1 h2)⟩⟩)

/-- The same for finite width. -/
theorem C92_json_width [IsOrderedAddMonoid L] (h : TextInput E a text rows) (hm : finiteWidthModule a.maxWidth = true) (hus : a.updateSlices ≠ 0)
    (hd : PyDecimal a.fixed E.decimal) {o : DumpOut NetworkJ ResultJ} (ho : program E a text sched sys = (sys', some (.ok o))) (hw : a.dump.wants E.after jsonText) :
    ∃ N path F rs s, TextLoaded rows a.outTok a.sparseTok E.load.log2 E.load.fuse N path F ∧
      optimizeFwWith (costPrinter a.fixed) E.sa E.par N.toRec E.log2W (E.width a.maxWidth) a.betas a.nSteps a.nProjs a.updateSlices a.nJobs a.seeds sched sys =
        (sys', some (.ok rs)) ∧
      TextOut E.after a.dump s o ∧
      ResultsText (TextWritten rows (textNames rows a.outTok a.sparseTok) N F) (fun r j => FwWritten E.decimal r j ∧ ShowsCost r.cost j) rs s := by
  obtain ⟨N, path, F, rs, hl, h2, -, -, hout⟩ := C74_finite h hm hus ho
  obtain ⟨s, g1, j, js, g2, g3, g4⟩ := hout hw
  refine ⟨N, path, F, rs, s, hl, h2, g1, j, js, g2, g3, ?_⟩
  obtain ⟨out, k1, k2⟩ := optimizeFw_show (costPrinter a.fixed) (costPrinter_zero a.fixed) E.sa E.par N.toRec a.betas a.nSteps a.nProjs a.nJobs a.seeds sched sys
    E.log2W (E.width a.maxWidth) a.updateSlices
  rw [k2] at h2
  obtain ⟨rs1, rs2, q1, q2, q3, -⟩ := outcomes_ok (cost := FwResultOf.cost) h2
  have hmem : ∀ r ∈ rs, ∀ j, FwWritten E.decimal r j → ShowsCost r.cost j := by
    intro r hr j hj
    rw [q3] at hr
    obtain ⟨r0, hr0, rfl⟩ := List.mem_map.1 hr
    obtain ⟨p0, p1, p2⟩ := fw_parts h.env.log2 hus (h.sa hl) (hl.plain h.rows) (k1.trans q1) (q2.mem_iff.1 hr0)
    obtain ⟨c, t, ds, s, rfl, hc, -⟩ := hj
    exact ⟨c, _, rfl, cost_read hd p0 p1 p2 hc⟩
  exact (List.forall₂_iff_get.2 ⟨(List.forall₂_iff_get.1 g4).1, fun i h1 h2 => ⟨(List.forall₂_iff_get.1 g4).2 i h1 h2,
    hmem _ (List.get_mem _ _) _ ((List.forall₂_iff_get.1 g4).2 i h1 h2)⟩⟩)

/-- The program of C74 with the texts of Python: it meets the conditions, and it returns. -/
example (w : WidthArg) (hw : finiteWidthModule w = true → 0 ≤ progEnv.width w) : ∃ total : ℚ → List ℕ, PyDecimal (progArgs w).fixed total ∧
    TextInput { progEnv with decimal := total } (progArgs w) progText progRows ∧ (progArgs w).dump.wants progDump jsonText ∧ (progArgs w).updateSlices ≠ 0 ∧
    ∃ sched sys' o, program { progEnv with decimal := total } (progArgs w) progText sched ⟨[], 0, 0⟩ = (sys', some (.ok o)) := by
  obtain ⟨total, h1, h2⟩ := C92_decimal (progArgs w).fixed
  have hi := progInput w
  have hi' : TextInput { progEnv with decimal := total } (progArgs w) progText progRows :=
    ⟨⟨hi.env.digits, hi.env.upper, hi.env.load, hi.env.loadFuel, hi.env.rng, hi.env.enumN, hi.env.enum, hi.env.fuel, hi.env.log2, hi.env.tnJson, hi.env.resJson, h2,
      hi.env.time⟩, hi.parsed, hi.chars, hi.rows⟩
  have hf := progFit w hw
  have hf' : (progArgs w).Fit { progEnv with decimal := total } progRows :=
    ⟨hf.method, hf.before, hf.after, hf.writable, hf.steps, hf.projs, hf.sparse, hf.jobs, hf.seeds, hf.codec, hf.time, hf.finite⟩
  obtain ⟨K, hK⟩ := C74_returns (sys := ⟨[], 0, 0⟩) hi' hf'
  refine ⟨total, h1, hi', (wants_iff _ _ _).2 (show jsonText = dumpFormat progDump { format := some (codes "JSON") } by decide +kernel),
    show (1 : ℤ) ≠ 0 by decide, ?_⟩
  obtain ⟨sys', o, ho⟩ := hK (List.replicate K [.work 0, .work 1]) (fun r hr i hi => by
    rw [List.eq_of_mem_replicate hr]
    have : i < 2 := hi
    interval_cases i <;> simp) (by simp)
  exact ⟨_, sys', o, ho⟩

end TNCO
