import Verif.Lemmas.SessionFw

/-!
# Property C73: optimizers as a program drives them

A program builds a tree from a path, a cost model, an optimizer and probabilities, calls `update` as often as it likes (going on after exceptions), and reads the
properties of the optimizer. `T.totalInf enum m` and `T.totalFw enum m slices` are the sums over all contractions of a tree of what `cmodel.contraction_cost`
returns for the names of the indices.
-/

namespace TNCO
open PTree

variable {ι : Type} [DecidableEq ι]

section
variable {σ P W β : Type} [LinearOrder P]

/-- C73: after any session the infinite-memory optimizer shows two trees over the tensors of the first one, valid as that was; the costs shown are the costs of these
trees, as the cost model gives them by name; the best is at most the current. -/
theorem C73_infinite (B : Build) (enum : Finset ι → List ι) (he : EnumOk enum) (path : List (ℕ × ℕ)) (tsInds : List (List ι)) (hts : ∀ l ∈ tsInds, l.Nodup)
    (dims : PyDims ι) (output : Option (List ι)) (check : Bool) (t : PyTree ι) (ht : PyTree.ofPath enum path tsInds dims output check = .ok t)
    (cm : ModelArg ι W) (seed : σ) (dis extra : Bool) (o0 : InfObj ι σ) (hmk : InfObj.init B enum t cm seed dis extra none = some (.ok o0))
    (g : Prng σ P) (accept : ProbKind β → ℤ → ℤ → P) (ps : List (Option (ProbObj β))) :
    ∃ (o : InfObj ι σ) (T M : PyTree ι) (k kmin : ℕ), o0.session g accept ps = some o ∧ cm = .infinite o.cmodel ∧ o.disableSharedInds = dis ∧
      o.ctree = .ok T ∧ o.minCtree = .ok M ∧ SameLeaves t T ∧ SameLeaves t M ∧ T.core.isValid (!dis) = true ∧ M.core.isValid (!dis) = true ∧
      T.totalInf enum o.cmodel = .ok k ∧ o.totalCost = shownCost (o.cmodel.costType == "float1024") k ∧
      M.totalInf enum o.cmodel = .ok kmin ∧ o.minTotalCost = shownCost (o.cmodel.costType == "float1024") kmin ∧ kmin ≤ k := by
  obtain ⟨t0, out, hp⟩ := pathTree he hts ht
  obtain ⟨oc, hrun, hs⟩ := inf_driven hp hmk g accept ps
  obtain ⟨hcm, -, -, hc, hmk, hca⟩ := inf_init_ok hmk
  simp only [Option.map_none] at hmk
  have point := fun qs o1 (h1 : o0.opt.core.run g (o0.core.model t.core.dims) qs = some o1) =>
    inf_point he hp.tidy hp.wf hp.exact hp.valid hc hmk h1
  obtain ⟨-, T, -, hT, hST, hvT, k, hk, hk'⟩ := point _ _ hrun
  obtain ⟨hmin, hmc, hle⟩ := C15_min_is_best g _ t.core seed dis none o0.opt.core oc _ ⟨t0, hp.wf⟩ hmk hrun
  obtain ⟨qs, o1, hq, hmo⟩ : ∃ qs o1, o0.opt.core.run g (o0.core.model t.core.dims) qs = some o1 ∧ oc.minCtree = o1.ctree := by
    rcases hmin with h | ⟨p1, p2, o1, -, -, h1, h2⟩
    · refine ⟨[], o0.opt.core, rfl, ?_⟩
      rw [h, (make_inv hp.wf hmk (out? := none) (by simp)).2.1]; rfl
    · exact ⟨p1, o1, h1, h2⟩
  obtain ⟨-, M, -, hM, hSM, hvM, km, hkm, hkm'⟩ := point _ _ hq
  have hmt : oc.minTotal = o1.totalCost := by
    have := (C14_total_cost_exact g _ t.core seed dis none o0.opt.core o1 qs ⟨t0, hp.wf⟩ hmk hq).2.1
    rw [hmo, this] at hmc
    exact (Option.some.inj hmc).symm
  have hdis : oc.disableShared = dis := (inf_state hp.tidy hp.wf hp.exact
    (fun s hs => core_pos hc ((ctree_isValid_iff hp.wf _).1 hp.valid).1 hs) hmk hrun).2.2.2.2.2.2.1
  refine ⟨_, T, M, k, km, hs, hcm, hdis, by rw [← hca] at hT; exact hT, by rw [← hca, ← hmo] at hM; exact hM, hST, hSM, hvT, hvM, hk, ?_, hkm, ?_, ?_⟩
  · unfold InfObj.totalCost; rw [hk']
  · unfold InfObj.minTotalCost; rw [hkm', hmt]
  · have := (hle _ [] oc (by simp) hrun).2 (.inr rfl)
    rw [hmt, ← hkm', ← hk'] at this
    exact_mod_cast this

/-- C73: the best tree is the tree of some moment of the session, and was shown with the same cost then; no cost shown during the session is smaller. -/
theorem C73_infinite_best (B : Build) (enum : Finset ι → List ι) (he : EnumOk enum) (path : List (ℕ × ℕ)) (tsInds : List (List ι)) (hts : ∀ l ∈ tsInds, l.Nodup)
    (dims : PyDims ι) (output : Option (List ι)) (check : Bool) (t : PyTree ι) (ht : PyTree.ofPath enum path tsInds dims output check = .ok t)
    (cm : ModelArg ι W) (seed : σ) (dis extra : Bool) (o0 : InfObj ι σ) (hmk : InfObj.init B enum t cm seed dis extra none = some (.ok o0))
    (g : Prng σ P) (accept : ProbKind β → ℤ → ℤ → P) (ps : List (Option (ProbObj β))) (o : InfObj ι σ) (hs : o0.session g accept ps = some o) :
    (∃ p1 p2 o1, ps = p1 ++ p2 ∧ o0.session g accept p1 = some o1 ∧ o.minCtree = o1.ctree ∧ o.minTotalCost = o1.totalCost) ∧
    ∀ p1 p2 o1, ps = p1 ++ p2 → o0.session g accept p1 = some o1 → o.minTotalCost ≤ o1.totalCost ∧ o.minTotalCost ≤ o1.minTotalCost := by
  obtain ⟨t0, out, hp⟩ := pathTree he hts ht
  have drive := inf_driven hp hmk g accept
  obtain ⟨-, -, -, hc, hmk, hca⟩ := inf_init_ok hmk
  simp only [Option.map_none] at hmk
  obtain ⟨oc, hrun, hs'⟩ := drive ps
  rw [hs] at hs'
  cases hs'
  obtain ⟨hmin, hmc, hle⟩ := C15_min_is_best g _ t.core seed dis none o0.opt.core oc _ ⟨t0, hp.wf⟩ hmk hrun
  refine ⟨?_, ?_⟩
  · obtain ⟨q1, q2, c1, hq, h1, h2⟩ : ∃ q1 q2 c1, (probsFor o0.cmodel.costType ps).map accept = q1 ++ q2 ∧
        o0.opt.core.run g (o0.core.model t.core.dims) q1 = some c1 ∧ oc.minCtree = c1.ctree := by
      rcases hmin with h | ⟨p1, p2, o1, -, h0, h1, h2⟩
      · refine ⟨[], _, o0.opt.core, rfl, rfl, ?_⟩
        rw [h, (make_inv hp.wf hmk (out? := none) (by simp)).2.1]; rfl
      · exact ⟨p1, p2, o1, h0, h1, h2⟩
    obtain ⟨r1, r2, hr, rfl, rfl⟩ := List.map_eq_append_iff.1 hq
    obtain ⟨p1, p2, rfl, rfl, rfl⟩ := List.filterMap_eq_append_iff.1 hr
    obtain ⟨oc1, hr1, hs1⟩ := drive p1
    have hr1' : oc1 = c1 := by
      have h1' : o0.opt.core.run g (o0.core.model t.core.dims) ((probsFor o0.cmodel.costType p1).map accept) = some c1 := h1
      rw [hr1] at h1'; exact Option.some.inj h1'
    subst hr1'
    refine ⟨p1, p2, _, rfl, hs1, ?_, ?_⟩
    · unfold InfObj.minCtree InfObj.ctree; simp only [h2]
    · have := (C14_total_cost_exact g _ t.core seed dis none o0.opt.core oc1 _ ⟨t0, hp.wf⟩ hmk hr1).2.1
      rw [h2, this] at hmc
      unfold InfObj.minTotalCost InfObj.totalCost
      simp only [Option.some.inj hmc]
  · rintro p1 p2 o1 rfl h1
    obtain ⟨oc1, hr1, hs1⟩ := drive p1
    rw [h1] at hs1; cases hs1
    have := hle ((probsFor o0.cmodel.costType p1).map accept) ((probsFor o0.cmodel.costType p2).map accept) oc1
      (by simp [probsFor, List.filterMap_append]) hr1
    exact ⟨shownCost_mono _ (this.2 (.inr rfl)), shownCost_mono _ this.1⟩

variable [AddCommGroup W] [LinearOrder W] [IsOrderedAddMonoid W]

/-- C73: the same for the finite-width optimizer, for any session that returns: the costs shown are those of the trees with the slices shown, these are indices of the
tree, and none of `skip_slices`. -/
theorem C73_finite (B : Build) (enum : Finset ι → List ι) (he : EnumOk enum) (log2 : ℕ → W) (hlog : ∀ n, 0 ≤ log2 n) (path : List (ℕ × ℕ)) (tsInds : List (List ι))
    (hts : ∀ l ∈ tsInds, l.Nodup) (dims : PyDims ι) (output : Option (List ι)) (check : Bool) (t : PyTree ι)
    (ht : PyTree.ofPath enum path tsInds dims output check = .ok t) (cm : ModelArg ι W) (kw : FwKw ι σ) (hkw : kw.Plain) (g : FwPrng σ P) (o0 o : FwObj ι σ W)
    (hmk : FwObj.init B g log2 enum t cm kw = some (.ok o0)) (accept : ProbKind β → ℤ → ℤ → P) (ps : List (Option (ProbObj β) × Bool))
    (hs : o0.session g accept ps = .ok o) :
    ∃ (T M : PyTree ι) (S SM : Finset ι) (k kmin : ℕ), cm = .finite o.cmodel ∧ o.skipSlices = kw.skipSet ∧ o.ctree = .ok T ∧ o.minCtree = .ok M ∧
      o.slices = some S ∧ o.minSlices = some SM ∧ SameLeaves t T ∧ SameLeaves t M ∧ T.core.isValid (!kw.dis) = true ∧ M.core.isValid (!kw.dis) = true ∧
      (∀ x ∈ S, x ∈ t.indsOrder ∧ x ∉ kw.skipSet) ∧ (∀ x ∈ SM, x ∈ t.indsOrder ∧ x ∉ kw.skipSet) ∧
      T.totalFw enum o.cmodel S = .ok k ∧ o.totalCost = shownCost (o.cmodel.costType == "float1024") k ∧
      M.totalFw enum o.cmodel SM = .ok kmin ∧ o.minTotalCost = shownCost (o.cmodel.costType == "float1024") kmin ∧ kmin ≤ k := by
  obtain ⟨t0, out, hp⟩ := pathTree he hts ht
  obtain ⟨oc, hrun, rfl⟩ := fw_driven_ok hlog he hp hkw hmk hs
  obtain ⟨hcm, -, -, -, -, hsub, hc, hw, hmk, hca, hsk⟩ := fw_init_ok hlog he hp.tidy ((ctree_isValid_iff hp.wf _).1 hp.valid).1 hkw hmk
  have hof := (widthModel_spec hw).2.2
  have point := fun qs o1 (h1 : o0.opt.core.run g (o0.core.model t.core.dims) o0.wm qs = .ok o1) =>
    fw_point he hlog hsub hp.tidy hp.wf hp.exact hp.valid hc hw hmk h1
  obtain ⟨hd, hn, T, -, -, hT, hST, hvT, hS, hdj, ⟨k, hk, hk'⟩, -⟩ := point _ _ hrun
  obtain ⟨hmin, hmc, hle⟩ := C24_min g _ log2 hlog o0.wm t.core kw.maxNew kw.seed kw.dis _ none none none o0.opt.core oc _ t0 out hof hp.wf hp.exact (by simp) hmk hrun
  obtain ⟨qs, o1, hq, hmo, hms⟩ : ∃ qs o1, o0.opt.core.run g (o0.core.model t.core.dims) o0.wm qs = .ok o1 ∧ oc.inf.minCtree = o1.inf.ctree ∧
      oc.minSlices = o1.slices := by
    rcases hmin with ⟨h, h'⟩ | ⟨p1, p2, o1, -, -, h1, h2, h3⟩
    · refine ⟨[], o0.opt.core, rfl, ?_, h'⟩
      rw [h, (pyMake_inv (offered_lawful hlog hof).1 hp.wf (by simp) hmk (out? := none) (by simp)).2.1]; rfl
    · exact ⟨p1, o1, h1, h2, h3⟩
  obtain ⟨-, hn1, M, -, -, hM, hSM, hvM, hS1, hdj1, ⟨km, hkm, hkm'⟩, -⟩ := point _ _ hq
  have hmt : oc.inf.minTotal = o1.inf.totalCost := by
    obtain ⟨-, -, -, -, -, -, -, -, this, -⟩ := C24_caches_exact g _ log2 hlog o0.wm t.core kw.maxNew kw.seed kw.dis _ none none none o0.opt.core o1 qs t0 out
      hof hp.wf hp.exact (by simp) hmk hq
    rw [hmo, hms, this] at hmc
    exact (Option.some.inj hmc).symm
  refine ⟨T, M, nameSet t.indsOrder oc.slices, nameSet t.indsOrder oc.minSlices, k, km, hcm, hsk, by rw [← hca] at hT; exact hT,
    by rw [← hca, ← hmo] at hM; exact hM, ?_, ?_, hST, hSM, hvT, hvM, fun x hx => ⟨hS x hx, Finset.disjoint_left.1 hdj hx⟩,
    fun x hx => ?_, hk, ?_, hms ▸ hkm, ?_, ?_⟩
  · unfold FwObj.slices; simp only [hca, hn]; exact ofBits_names hp.tidy.len _
  · unfold FwObj.minSlices; simp only [hca, hn]; exact ofBits_names hp.tidy.len _
  · rw [hms] at hx; exact ⟨hS1 x hx, Finset.disjoint_left.1 hdj1 hx⟩
  · unfold FwObj.totalCost; rw [hk']
  · unfold FwObj.minTotalCost; rw [hkm', hmt]
  · have := (hle _ [] oc (by simp) hrun).2 (.inr ⟨rfl, rfl⟩)
    rw [hmt, ← hkm', ← hk'] at this
    exact_mod_cast this

/-- C73: as `C73_infinite_best`. -/
theorem C73_finite_best (B : Build) (enum : Finset ι → List ι) (he : EnumOk enum) (log2 : ℕ → W) (hlog : ∀ n, 0 ≤ log2 n) (path : List (ℕ × ℕ)) (tsInds : List (List ι))
    (hts : ∀ l ∈ tsInds, l.Nodup) (dims : PyDims ι) (output : Option (List ι)) (check : Bool) (t : PyTree ι)
    (ht : PyTree.ofPath enum path tsInds dims output check = .ok t) (cm : ModelArg ι W) (kw : FwKw ι σ) (hkw : kw.Plain) (g : FwPrng σ P) (o0 o : FwObj ι σ W)
    (hmk : FwObj.init B g log2 enum t cm kw = some (.ok o0)) (accept : ProbKind β → ℤ → ℤ → P) (ps : List (Option (ProbObj β) × Bool))
    (hs : o0.session g accept ps = .ok o) :
    (∃ p1 p2 o1, ps = p1 ++ p2 ∧ o0.session g accept p1 = .ok o1 ∧ o.minCtree = o1.ctree ∧ o.minSlices = o1.slices ∧ o.minTotalCost = o1.totalCost) ∧
    ∀ p1 p2 o1, ps = p1 ++ p2 → o0.session g accept p1 = .ok o1 → o.minTotalCost ≤ o1.totalCost ∧ o.minTotalCost ≤ o1.minTotalCost := by
  obtain ⟨t0, out, hp⟩ := pathTree he hts ht
  have drive := fun p1 o1 (h1 : o0.session g accept p1 = .ok o1) => fw_driven_ok hlog he hp hkw hmk h1
  have drive' := fw_driven hlog he hp hkw hmk accept
  obtain ⟨oc, hrun, rfl⟩ := drive ps o hs
  obtain ⟨-, -, -, -, -, hsub, hc, hw, hmk, hca, hsk⟩ := fw_init_ok hlog he hp.tidy ((ctree_isValid_iff hp.wf _).1 hp.valid).1 hkw hmk
  have hof := (widthModel_spec hw).2.2
  have hn := fun qs o1 (h1 : o0.opt.core.run g (o0.core.model t.core.dims) o0.wm qs = .ok o1) =>
    (fw_point he hlog hsub hp.tidy hp.wf hp.exact hp.valid hc hw hmk h1).2.1
  obtain ⟨hmin, hmc, hle⟩ := C24_min g _ log2 hlog o0.wm t.core kw.maxNew kw.seed kw.dis _ none none none o0.opt.core oc _ t0 out hof hp.wf hp.exact (by simp) hmk hrun
  refine ⟨?_, ?_⟩
  · obtain ⟨q1, q2, c1, hq, h1, h2, h3⟩ : ∃ q1 q2 c1, ((stepsFor o0.cmodel.costType ps).map fun x => (accept x.1, x.2)) = q1 ++ q2 ∧
        o0.opt.core.run g (o0.core.model t.core.dims) o0.wm q1 = .ok c1 ∧ oc.inf.minCtree = c1.inf.ctree ∧ oc.minSlices = c1.slices := by
      rcases hmin with ⟨h, h'⟩ | ⟨p1, p2, o1, -, h0, h1, h2, h3⟩
      · refine ⟨[], _, o0.opt.core, rfl, rfl, ?_, h'⟩
        rw [h, (pyMake_inv (offered_lawful hlog hof).1 hp.wf (by simp) hmk (out? := none) (by simp)).2.1]; rfl
      · exact ⟨p1, p2, o1, h0, h1, h2, h3⟩
    obtain ⟨r1, r2, hr, rfl, rfl⟩ := List.map_eq_append_iff.1 hq
    obtain ⟨p1, p2, rfl, rfl, rfl⟩ := List.filterMap_eq_append_iff.1 hr
    have h1' : o0.opt.core.run g (o0.core.model t.core.dims) o0.wm ((stepsFor o0.cmodel.costType p1).map fun x => (accept x.1, x.2)) = .ok c1 := h1
    have hs1 := drive' p1
    rw [h1'] at hs1
    refine ⟨p1, p2, _, rfl, hs1, ?_, ?_, ?_⟩
    · unfold FwObj.minCtree FwObj.ctree; simp only [h2]
    · unfold FwObj.minSlices FwObj.slices; simp only [h3, hn _ _ hrun, hn _ _ h1']
    · obtain ⟨-, -, -, -, -, -, -, -, this, -⟩ := C24_caches_exact g _ log2 hlog o0.wm t.core kw.maxNew kw.seed kw.dis _ none none none o0.opt.core c1 _ t0 out
        hof hp.wf hp.exact (by simp) hmk h1'
      rw [h2, h3, this] at hmc
      unfold FwObj.minTotalCost FwObj.totalCost
      simp only [Option.some.inj hmc]
  · rintro p1 p2 o1 rfl h1
    obtain ⟨oc1, hr1, rfl⟩ := drive p1 o1 h1
    have := hle ((stepsFor o0.cmodel.costType p1).map fun x => (accept x.1, x.2)) ((stepsFor o0.cmodel.costType p2).map fun x => (accept x.1, x.2)) oc1
      (by simp [stepsFor, List.filterMap_append]) hr1
    exact ⟨shownCost_mono _ (this.2 (.inr ⟨rfl, rfl⟩)), shownCost_mono _ this.1⟩

/-- C73 (partial): whenever the session returns, every tensor of the trees shown fits into `max_width`, as `cmodel.width` tells, once the slices shown are removed.
Missing: sparse indices that may be sliced together with `max_number_new_slices > 0`, see `C73_violated_width`. -/
theorem C73_finite_width_partial (B : Build) (enum : Finset ι → List ι) (he : EnumOk enum) (log2 : ℕ → W) (hlog : ∀ n, 0 ≤ log2 n) (path : List (ℕ × ℕ))
    (tsInds : List (List ι)) (hts : ∀ l ∈ tsInds, l.Nodup) (dims : PyDims ι) (output : Option (List ι)) (check : Bool) (t : PyTree ι)
    (ht : PyTree.ofPath enum path tsInds dims output check = .ok t) (cm : ModelArg ι W) (kw : FwKw ι σ) (hkw : kw.Plain) (g : FwPrng σ P) (o0 o : FwObj ι σ W)
    (hmk : FwObj.init B g log2 enum t cm kw = some (.ok o0)) (hcase : o0.cmodel.sparseSet ⊆ kw.skipSet ∨ kw.maxNew = 0)
    (accept : ProbKind β → ℤ → ℤ → P) (ps : List (Option (ProbObj β) × Bool)) (hs : o0.session g accept ps = .ok o) :
    (∀ T S, o.ctree = .ok T → o.slices = some S → ∀ p < T.core.tree.size,
      ∃ w, o.cmodel.width log2 enum (enum (T.inds p \ S)) T.dims = .ok w ∧ w ≤ o.cmodel.maxWidth) ∧
    ∀ M S, o.minCtree = .ok M → o.minSlices = some S → ∀ p < M.core.tree.size,
      ∃ w, o.cmodel.width log2 enum (enum (M.inds p \ S)) M.dims = .ok w ∧ w ≤ o.cmodel.maxWidth := by
  obtain ⟨t0, out, hp⟩ := pathTree he hts ht
  obtain ⟨oc, hrun, rfl⟩ := fw_driven_ok hlog he hp hkw hmk hs
  obtain ⟨hcm, -, -, -, -, hsub, hc, hw, hmk, hca, hsk⟩ := fw_init_ok hlog he hp.tidy ((ctree_isValid_iff hp.wf _).1 hp.valid).1 hkw hmk
  obtain ⟨-, hmw, hof⟩ := widthModel_spec hw
  have hfit := fun qs o1 (h1 : o0.opt.core.run g (o0.core.model t.core.dims) o0.wm qs = .ok o1) =>
    C22_width_limit_partial g (o0.core.model t.core.dims) log2 hlog o0.wm t.core kw.maxNew kw.seed kw.dis _ none none none o0.opt.core o1 qs ⟨t0, hp.wf⟩ (by simp) hmk h1
      (by
        cases hcc : o0.core with
        | simple => rw [hcc] at hw; exact .inl ⟨_, hw⟩
        | sparse b n =>
          rw [hcc] at hw hc
          refine .inr ⟨_, b, n, hw, ?_⟩
          rcases hcase with h | h
          · right
            rw [(core_sparse he hc).1]
            exact Finset.image_subset_image h
          · exact .inl h)
  have point := fun qs o1 (h1 : o0.opt.core.run g (o0.core.model t.core.dims) o0.wm qs = .ok o1) =>
    fw_point he hlog hsub hp.tidy hp.wf hp.exact hp.valid hc hw hmk h1
  have main : ∀ qs o1, o0.opt.core.run g (o0.core.model t.core.dims) o0.wm qs = .ok o1 → ∀ T S, getCtree o0.opt.cache o1.inf.ctree = .ok T →
      ofBits o0.opt.cache.indsOrder t.core.nInds o1.slices = some S → ∀ p < T.core.tree.size,
      ∃ w, o0.cmodel.width log2 enum (enum (T.inds p \ S)) T.dims = .ok w ∧ w ≤ o0.cmodel.maxWidth := by
    intro qs o1 h1 T S hT hS p hlt
    obtain ⟨hd, hn, T', hT', -, hg, -, -, -, -, -, hin⟩ := point qs o1 h1
    rw [hca, hg] at hT
    cases hT
    rw [hca] at hS
    have hS' : S = nameSet t.indsOrder o1.slices := by
      have := ofBits_names hp.tidy.len o1.slices
      rw [show t.cache.indsOrder = t.indsOrder from rfl, this] at hS
      exact (Option.some.inj hS).symm
    subst hS'
    refine ⟨_, (hin p).2, ?_⟩
    rw [← hmw]
    exact (hfit qs o1 h1).1 p (by rw [← hT']; exact hlt)
  have hn := (point _ _ hrun).2.1
  refine ⟨fun T S hT hS => main _ _ hrun T S hT (by unfold FwObj.slices at hS; simp only [hn] at hS; exact hS), fun M S hM hS => ?_⟩
  obtain ⟨hmin, -, -⟩ := C24_min g _ log2 hlog o0.wm t.core kw.maxNew kw.seed kw.dis _ none none none o0.opt.core oc _ t0 out hof hp.wf hp.exact (by simp) hmk hrun
  obtain ⟨qs, o1, hq, hmo, hms⟩ : ∃ qs o1, o0.opt.core.run g (o0.core.model t.core.dims) o0.wm qs = .ok o1 ∧ oc.inf.minCtree = o1.inf.ctree ∧
      oc.minSlices = o1.slices := by
    rcases hmin with ⟨h, h'⟩ | ⟨p1, p2, o1, -, -, h1, h2, h3⟩
    · refine ⟨[], o0.opt.core, rfl, ?_, h'⟩
      rw [h, (pyMake_inv (offered_lawful hlog hof).1 hp.wf (by simp) hmk (out? := none) (by simp)).2.1]; rfl
    · exact ⟨p1, o1, h1, h2, h3⟩
  refine main _ _ hq M S ?_ ?_
  · unfold FwObj.minCtree at hM; simp only [hmo] at hM; exact hM
  · unfold FwObj.minSlices at hS; simp only [hn, hms] at hS; exact hS

/-- C73 (partial): a session returns if nothing is skipped, or no new slices are allowed, or the skipped indices together fit; it never hangs, whatever the settings.
Missing: wider sets of skipped indices together with `max_number_new_slices > 0`, see `C73_violated_returns`. -/
theorem C73_finite_returns_partial (B : Build) (enum : Finset ι → List ι) (he : EnumOk enum) (log2 : ℕ → W) (hlog : ∀ n, 0 ≤ log2 n) (path : List (ℕ × ℕ))
    (tsInds : List (List ι)) (hts : ∀ l ∈ tsInds, l.Nodup) (dims : PyDims ι) (output : Option (List ι)) (check : Bool) (t : PyTree ι)
    (ht : PyTree.ofPath enum path tsInds dims output check = .ok t) (cm : ModelArg ι W) (kw : FwKw ι σ) (hkw : kw.Plain) (g : FwPrng σ P) (o0 : FwObj ι σ W)
    (hmk : FwObj.init B g log2 enum t cm kw = some (.ok o0)) (accept : ProbKind β → ℤ → ℤ → P) (ps : List (Option (ProbObj β) × Bool)) :
    o0.session g accept ps ≠ .error .noReturn ∧
    (kw.skipSet = ∅ ∨ kw.maxNew = 0 ∨ (∃ w, o0.cmodel.width log2 enum (enum kw.skipSet) t.dims = .ok w ∧ w ≤ o0.cmodel.maxWidth) →
      ∃ o, o0.session g accept ps = .ok o) := by
  obtain ⟨t0, out, hp⟩ := pathTree he hts ht
  rw [fw_driven hlog he hp hkw hmk]
  have hok := ((ctree_isValid_iff hp.wf _).1 hp.valid).1
  obtain ⟨hcm, -, -, -, -, hsub, hc, hw, hmk, hca, hsk⟩ := fw_init_ok hlog he hp.tidy hok hkw hmk
  obtain ⟨hww, hmw, hof⟩ := widthModel_spec hw
  refine ⟨?_, ?_⟩
  · have := C25_only_div_by_zero g _ log2 hlog o0.wm t.core kw.maxNew kw.seed kw.dis _ none none none o0.opt.core
      ((stepsFor o0.cmodel.costType ps).map fun x => (accept x.1, x.2)) hof ⟨t0, hp.wf⟩ (by simp) hmk
    split
    · next e he => rw [he] at this; simpa using this
    · simp
  · intro hcase
    obtain ⟨o, ho⟩ := C25_no_crash_partial g _ log2 hlog o0.wm t.core kw.maxNew kw.seed kw.dis _ none none none o0.opt.core
      ((stepsFor o0.cmodel.costType ps).map fun x => (accept x.1, x.2)) hof ⟨t0, hp.wf⟩ (by simp) hmk (by
        rcases hcase with h | h | ⟨w, h, h'⟩
        · left; rw [h]; rfl
        · exact .inr (.inl h)
        · right; right
          rw [width_core he hlog hc (D := t.core.dims) (dims := t.dims) (fun x hx => dimOf_get hp.tidy.len hok hx)
            (fun x hx => by simpa using hsub hx)] at h
          cases h
          rw [hww, hmw]; exact h')
    rw [ho]
    exact ⟨_, rfl⟩

/-! ## Constructors -/

omit [AddCommGroup W] [LinearOrder W] [IsOrderedAddMonoid W] [LinearOrder P] in
/-- C73: the infinite-memory constructor returns, and accepts exactly: a model of its own module, of a cost type that was built, whose sparse indices are indices of the
tree and whose number of projections is a positive whole number; no other keywords; a tree that is valid for `disable_shared_inds`, of at least two tensors. -/
theorem C73_infinite_accepts (B : Build) (enum : Finset ι → List ι) (he : EnumOk enum) (path : List (ℕ × ℕ)) (tsInds : List (List ι)) (hts : ∀ l ∈ tsInds, l.Nodup)
    (dims : PyDims ι) (output : Option (List ι)) (check : Bool) (t : PyTree ι) (ht : PyTree.ofPath enum path tsInds dims output check = .ok t)
    (cm : ModelArg ι W) (seed : σ) (dis extra : Bool) :
    ∃ r : Except PyErr (InfObj ι σ), InfObj.init B enum t cm seed dis extra none = some r ∧
      ((∃ o, r = .ok o) ↔ ∃ m, cm = .infinite m ∧ extra = false ∧ m.costType ∈ B.costTypes ∧ m.sparseSet ⊆ t.indsOrder.toFinset ∧
        (m.sparseSet ≠ ∅ → ∃ n : ℕ, 0 < n ∧ m.nProjs = some (.int n)) ∧ t.core.isValid (!dis) = true ∧ t.core.tree.size ≠ 1) := by
  obtain ⟨t0, out, hp⟩ := pathTree he hts ht
  cases cm with
  | infinite m =>
    unfold InfObj.init
    cases extra with
    | true => exact ⟨_, rfl, by simp⟩
    | false =>
      simp only [Bool.false_eq_true, if_false]
      by_cases hct : m.costType ∈ B.costTypes
      · simp only [hct, not_true_eq_false, if_false]
        cases hc : m.core enum t.indsOrder with
        | error e =>
          refine ⟨_, rfl, ?_⟩
          have : ¬ ∃ c, m.core enum t.indsOrder = .ok c := by rw [hc]; simp
          rw [core_iff he] at this
          constructor
          · rintro ⟨o, h⟩; cases h
          · rintro ⟨m', hm, -, -, h1, h2, -⟩
            cases hm
            exact absurd ⟨h1, h2⟩ this
        | ok c =>
          obtain ⟨r, hr, hiff, -⟩ := inf_build_iff hp hc seed dis
          obtain ⟨h1, h2⟩ := (core_iff he).1 ⟨c, hc⟩
          refine ⟨r, hr, hiff.trans ⟨fun h => ⟨m, rfl, trivial, hct, h1, h2, h⟩, ?_⟩⟩
          rintro ⟨m', -, -, -, -, -, h⟩
          exact h
      · rw [if_pos hct]
        refine ⟨_, rfl, ?_⟩
        constructor
        · rintro ⟨o, h⟩; cases h
        · rintro ⟨m', hm, -, h, -⟩
          cases hm; exact absurd h hct
  | infiniteBase => cases extra <;> exact ⟨_, rfl, by simp⟩
  | finite m => exact ⟨_, rfl, by simp⟩
  | finiteBase => exact ⟨_, rfl, by simp⟩
  | other => exact ⟨_, rfl, by simp⟩

omit [AddCommGroup W] [LinearOrder W] [IsOrderedAddMonoid W] [LinearOrder P] in
/-- C73: what the infinite-memory constructor raises. -/
theorem C73_infinite_errors (B : Build) (enum : Finset ι → List ι) (he : EnumOk enum) (path : List (ℕ × ℕ)) (tsInds : List (List ι)) (hts : ∀ l ∈ tsInds, l.Nodup)
    (dims : PyDims ι) (output : Option (List ι)) (check : Bool) (t : PyTree ι) (ht : PyTree.ofPath enum path tsInds dims output check = .ok t)
    (m : PyCost ι) (m' : PyFwCost ι W) (seed : σ) (dis extra : Bool) :
    -- an object that is no infinite-memory model, in particular a finite-width one
    (∀ cm : ModelArg ι W, cm = .finite m' ∨ cm = .finiteBase ∨ cm = .other →
      InfObj.init B enum t cm seed dis extra none = some (.error .notImplemented : Except PyErr (InfObj ι σ))) ∧
    -- a wrong keyword
    InfObj.init B enum t (.infinite m : ModelArg ι W) seed dis true none = some (.error .typeError : Except PyErr (InfObj ι σ)) ∧
    -- the abstract class; a cost type that was not built
    InfObj.init B enum t (.infiniteBase : ModelArg ι W) seed dis false none = some (.error .attributeError : Except PyErr (InfObj ι σ)) ∧
    (m.costType ∉ B.costTypes → InfObj.init B enum t (.infinite m : ModelArg ι W) seed dis false none = some (.error .attributeError : Except PyErr (InfObj ι σ))) ∧
    -- sparse indices that are not in the tree; `n_projs` a float
    (m.costType ∈ B.costTypes → ¬ m.sparseSet ⊆ t.indsOrder.toFinset →
      InfObj.init B enum t (.infinite m : ModelArg ι W) seed dis false none = some (.error .valueError : Except PyErr (InfObj ι σ))) ∧
    (m.costType ∈ B.costTypes → m.sparseSet ⊆ t.indsOrder.toFinset → m.sparseSet ≠ ∅ → (∀ n, m.nProjs ≠ some (.int n)) →
      InfObj.init B enum t (.infinite m : ModelArg ι W) seed dis false none = some (.error .typeError : Except PyErr (InfObj ι σ))) ∧
    -- everything else is fine but the tree
    (m.costType ∈ B.costTypes → (∃ c, m.core enum t.indsOrder = .ok c) → t.core.isValid (!dis) = false ∨ t.core.tree.size = 1 →
      InfObj.init B enum t (.infinite m : ModelArg ι W) seed dis false none = some (.error .valueError : Except PyErr (InfObj ι σ))) := by
  obtain ⟨t0, out, hp⟩ := pathTree he hts ht
  refine ⟨?_, rfl, rfl, ?_, ?_, ?_, ?_⟩
  · rintro cm (rfl | rfl | rfl) <;> rfl
  · intro h
    unfold InfObj.init
    simp [h]
  · intro h h1
    unfold InfObj.init
    simp [h, core_unknown h1]
  · intro h h1 h2 h3
    unfold InfObj.init
    simp [h, core_float he h1 h2 h3]
  · rintro h ⟨c, hc⟩ h2
    unfold InfObj.init
    obtain ⟨r, hr, hiff, h3⟩ := inf_build_iff hp hc seed dis
    simp only [h, hc, hr, not_true_eq_false, Bool.false_eq_true, if_false]
    rcases h3 with h3 | h3
    · obtain ⟨h4, h5⟩ := hiff.1 h3
      rcases h2 with h2 | h2
      · rw [h4] at h2; cases h2
      · exact absurd h2 h5
    · rw [h3]

/-- C73: the finite-width constructor returns, and accepts exactly: a model of its own module, of types that were built, with `max_width` not negative and sparse indices
and projections as above; `slice_update` `greedy` and no other keywords; skipped indices of the tree, such that those of each tensor fit into `max_width`; a tree that is
valid for `disable_shared_inds`, of at least two tensors. -/
theorem C73_finite_accepts (B : Build) (enum : Finset ι → List ι) (he : EnumOk enum) (log2 : ℕ → W) (hlog : ∀ n, 0 ≤ log2 n) (path : List (ℕ × ℕ))
    (tsInds : List (List ι)) (hts : ∀ l ∈ tsInds, l.Nodup) (dims : PyDims ι) (output : Option (List ι)) (check : Bool) (t : PyTree ι)
    (ht : PyTree.ofPath enum path tsInds dims output check = .ok t) (cm : ModelArg ι W) (kw : FwKw ι σ) (hkw : kw.Plain) (g : FwPrng σ P) :
    ∃ r, FwObj.init B g log2 enum t cm kw = some r ∧
      ((∃ o, r = .ok o) ↔ ∃ m, cm = .finite m ∧ kw.extra = false ∧ kw.sliceUpdate = "greedy" ∧ m.costType ∈ B.costTypes ∧ m.widthType ∈ B.widthTypes ∧ 0 ≤ m.maxWidth ∧
        m.sparseSet ⊆ t.indsOrder.toFinset ∧ (m.sparseSet ≠ ∅ → ∃ n : ℕ, 0 < n ∧ m.nProjs = some (.int n)) ∧ kw.skipSet ⊆ t.indsOrder.toFinset ∧
        (∀ p < t.core.tree.size, ∃ w, m.width log2 enum (enum (t.inds p ∩ kw.skipSet)) t.dims = .ok w ∧ w ≤ m.maxWidth) ∧
        t.core.isValid (!kw.dis) = true ∧ t.core.tree.size ≠ 1) := by
  obtain ⟨t0, out, hp⟩ := pathTree he hts ht
  have hok := ((ctree_isValid_iff hp.wf _).1 hp.valid).1
  by_cases hgood : ∃ m, cm = .finite m ∧ kw.extra = false ∧ kw.sliceUpdate = "greedy" ∧ m.costType ∈ B.costTypes ∧ m.widthType ∈ B.widthTypes ∧
      kw.skipSet ⊆ t.indsOrder.toFinset ∧ (∃ c, m.core enum t.indsOrder = .ok c) ∧
      skipTooWide log2 enum m t kw.skipSet (List.range t.core.tree.size) = .ok false ∧ 0 ≤ m.maxWidth
  · obtain ⟨m, rfl, h1, h2, h3, h4, h5, ⟨c, hc⟩, h6, h7⟩ := hgood
    obtain ⟨w, hw⟩ := (widthModel_iff (log2 := log2) hc t.core.dims m.maxWidth).2 h7
    obtain ⟨e1, e2, -⟩ := widthModel_spec hw
    have hfit := (skip_fits hlog he hp hc h5 0).2.1.1 h6
    obtain ⟨r, hr, hiff, -⟩ := fw_build_iff (g := g) hlog hp hc hw hkw h5 (fun q hq => by rw [e1, e2]; exact hfit q hq)
    obtain ⟨c1, c2⟩ := (core_iff he).1 ⟨c, hc⟩
    rw [fw_init_eq h1 h2 h3 h4 h5 h6]
    refine ⟨r, hr, hiff.trans ⟨fun h => ⟨m, rfl, h1, h2, h3, h4, h7, c1, c2, h5, fun q hq => ⟨_, (skip_fits hlog he hp hc h5 q).1, hfit q hq⟩, h⟩, ?_⟩⟩
    rintro ⟨m', -, -, -, -, -, -, -, -, -, -, h⟩
    exact h
  · have hno : ∀ o, FwObj.init B g log2 enum t cm kw ≠ some (.ok o) := by
      intro o h
      obtain ⟨h0, h1, h2, h3, h4, h5, hc, hw, -⟩ := fw_init_ok hlog he hp.tidy hok hkw h
      obtain ⟨m, rfl, -, -, -, -, -, h6, -⟩ := fw_init_inv h
      cases h0
      exact hgood ⟨_, rfl, h1, h2, h3, h4, h5, ⟨_, hc⟩, h6, (widthModel_iff hc _ _).1 ⟨_, hw⟩⟩
    have hret : ∃ r, FwObj.init B g log2 enum t cm kw = some r := by
      cases hi : FwObj.init B g log2 enum t cm kw with
      | some r => exact ⟨r, rfl⟩
      | none =>
        exfalso
        unfold FwObj.init at hi
        split at hi
        · next m =>
          split at hi
          · cases hi
          next hx =>
          split at hi
          · cases hi
          next hu =>
          split at hi
          · cases hi
          next hty =>
          simp only at hi
          split at hi
          · cases hi
          next hs =>
          split at hi
          · cases hi
          · cases hi
          next hb =>
          have hs' : (kw.skip.getD []).toFinset ⊆ t.indsOrder.toFinset := not_not.1 hs
          unfold FwObj.build at hi
          obtain ⟨p1, p2, p3⟩ := hkw
          simp only [p1, p2, p3, optBits, toBits, if_pos hs'] at hi
          split at hi
          · cases hi
          next c hc =>
          split at hi
          · cases hi
          next w hw =>
          push Not at hty
          exact hgood ⟨m, rfl, by simpa using hx, by simpa using hu, hty.1, hty.2, hs', ⟨c, hc⟩, hb, (widthModel_iff hc _ _).1 ⟨_, hw⟩⟩
        · split at hi
          · cases hi
          split at hi <;> cases hi
        · cases hi
    obtain ⟨r, hr⟩ := hret
    refine ⟨r, hr, ?_⟩
    constructor
    · rintro ⟨o, rfl⟩; exact absurd hr (hno o)
    · rintro ⟨m, rfl, h1, h2, h3, h4, h7, c1, c2, h5, h6, -⟩
      exfalso
      obtain ⟨c, hc⟩ := (core_iff he).2 ⟨c1, c2⟩
      refine hgood ⟨m, rfl, h1, h2, h3, h4, h5, ⟨c, hc⟩, (skip_fits hlog he hp hc h5 0).2.1.2 ?_, h7⟩
      intro q hq
      obtain ⟨w, hw, hle⟩ := h6 q hq
      rw [(skip_fits hlog he hp hc h5 q).1] at hw
      cases hw
      exact hle

/-- C73: what the finite-width constructor raises. -/
theorem C73_finite_errors (B : Build) (enum : Finset ι → List ι) (he : EnumOk enum) (log2 : ℕ → W) (hlog : ∀ n, 0 ≤ log2 n) (path : List (ℕ × ℕ))
    (tsInds : List (List ι)) (hts : ∀ l ∈ tsInds, l.Nodup) (dims : PyDims ι) (output : Option (List ι)) (check : Bool) (t : PyTree ι)
    (ht : PyTree.ofPath enum path tsInds dims output check = .ok t) (m : PyFwCost ι W) (m' : PyCost ι) (kw : FwKw ι σ) (hkw : kw.Plain) (g : FwPrng σ P) :
    (∀ cm : ModelArg ι W, cm = .infinite m' ∨ cm = .infiniteBase ∨ cm = .other → FwObj.init B g log2 enum t cm kw = some (.error .notImplemented)) ∧
    (kw.extra = true → FwObj.init B g log2 enum t (.finite m) kw = some (.error .typeError)) ∧
    (kw.extra = false → kw.sliceUpdate ≠ "greedy" → FwObj.init B g log2 enum t (.finite m) kw = some (.error .notImplemented)) ∧
    (kw.extra = false → kw.sliceUpdate = "greedy" → FwObj.init B g log2 enum t .finiteBase kw = some (.error .attributeError) ∧
      (m.costType ∉ B.costTypes ∨ m.widthType ∉ B.widthTypes → FwObj.init B g log2 enum t (.finite m) kw = some (.error .attributeError)) ∧
      (m.costType ∈ B.costTypes → m.widthType ∈ B.widthTypes →
        -- unknown skipped indices
        (¬ kw.skipSet ⊆ t.indsOrder.toFinset → FwObj.init B g log2 enum t (.finite m) kw = some (.error .valueError)) ∧
        -- skipped indices of one tensor that do not fit; a tree that is not accepted
        (kw.skipSet ⊆ t.indsOrder.toFinset → (∃ c, m.core enum t.indsOrder = .ok c) →
          ((∃ p < t.core.tree.size, ∃ w, m.width log2 enum (enum (t.inds p ∩ kw.skipSet)) t.dims = .ok w ∧ m.maxWidth < w) ∨
            t.core.isValid (!kw.dis) = false ∨ t.core.tree.size = 1) →
          FwObj.init B g log2 enum t (.finite m) kw = some (.error .valueError)))) := by
  obtain ⟨t0, out, hp⟩ := pathTree he hts ht
  refine ⟨?_, ?_, ?_, ?_⟩
  · rintro cm (rfl | rfl | rfl) <;> rfl
  · intro h
    unfold FwObj.init
    simp [h]
  · intro h h1
    unfold FwObj.init
    simp [h, h1]
  · intro h h1
    refine ⟨?_, ?_, ?_⟩
    · unfold FwObj.init
      simp [h, h1]
    · intro h2
      unfold FwObj.init
      simp only [h, h1, h2, Bool.false_eq_true, if_false, ne_eq, not_true_eq_false, if_true]
    · intro h2 h3
      refine ⟨?_, ?_⟩
      · intro h4
        unfold FwObj.init
        unfold FwKw.skipSet at h4
        simp only [h, h1, h2, h3, h4, not_true_eq_false, or_self, Bool.false_eq_true, if_false, ne_eq, not_false_eq_true, if_true]
      · rintro h4 ⟨c, hc⟩ h5
        rcases (skip_fits hlog he hp hc h4 0).2.2 with hb | hb
        · unfold FwObj.init
          unfold FwKw.skipSet at h4 hb
          simp only [h, h1, h2, h3, h4, hb, not_true_eq_false, or_self, Bool.false_eq_true, if_false, ne_eq]
        · have hfit := (skip_fits hlog he hp hc h4 0).2.1.1 hb
          have h5' : t.core.isValid (!kw.dis) = false ∨ t.core.tree.size = 1 := by
            rcases h5 with ⟨p, hlt, w, hw, hgt⟩ | h5
            · rw [(skip_fits hlog he hp hc h4 p).1] at hw
              cases hw
              exact absurd (hfit p hlt) (not_le.2 hgt)
            · exact h5
          rw [fw_init_eq h h1 h2 h3 h4 hb]
          cases hw : c.widthModel log2 t.core.dims m.maxWidth with
          | none =>
            obtain ⟨p1, p2, p3⟩ := hkw
            unfold FwObj.build
            simp only [p1, p2, p3, optBits, toBits, if_pos h4, hc, hw]
          | some w =>
            obtain ⟨e1, e2, -⟩ := widthModel_spec hw
            obtain ⟨r, hr, hiff, h6⟩ := fw_build_iff (g := g) hlog hp hc hw hkw h4 (fun q hq => by rw [e1, e2]; exact hfit q hq)
            rw [hr]
            rcases h6 with h6 | h6
            · obtain ⟨h7, h8⟩ := hiff.1 h6
              rcases h5' with h5 | h5
              · rw [h7] at h5; cases h5
              · exact absurd h5 h8
            · rw [h6]

/-- C73: `update` with a probability of another cost type, or with anything else, raises a `TypeError` and changes nothing. -/
theorem C73_wrong_type (g : Prng σ P) (g' : FwPrng σ P) (accept : ProbKind β → ℤ → ℤ → P) (o : InfObj ι σ) (o' : FwObj ι σ W) (p : Option (ProbObj β)) (b : Bool) :
    ((∀ q, p = some q → q.costType ≠ o.cmodel.costType) → o.update g accept p = some (o, some .typeError)) ∧
    ((∀ q, p = some q → q.costType ≠ o'.cmodel.costType) → o'.update g' accept p b = .ok (o', some .typeError)) :=
  ⟨inf_update_other, fw_update_other⟩

end

/-! ## Probabilities -/

section
variable {β : Type}

/-- C73: the factories build the four documented cost types if these were built; `float1024` is the only one that depends on MPFR. -/
theorem C73_prob (B : Build) (kind : ProbKind β) (costType : String) :
    (costType ∉ ["float32", "float64", "float128", "float1024"] → makeProb B kind costType = .error .notImplemented) ∧
    (costType ∈ ["float32", "float64", "float128", "float1024"] → costType ∉ B.costTypes → makeProb B kind costType = .error .attributeError) ∧
    (costType ∈ ["float32", "float64", "float128", "float1024"] → costType ∈ B.costTypes → makeProb B kind costType = .ok ⟨kind, costType⟩) ∧
    (B.longBits = 128 → B.mpfr = true → ∀ c ∈ ["float32", "float64", "float128", "float1024"], c ∈ B.costTypes) ∧
    (B.longBits = 128 → B.mpfr = false → ∀ c ∈ ["float32", "float64", "float128", "float1024"], (c ∈ B.costTypes ↔ c ≠ "float1024")) := by
  refine ⟨fun h => if_pos h, fun h h1 => ?_, fun h h1 => ?_, fun h h1 => ?_, fun h h1 => ?_⟩
  · unfold makeProb
    rw [if_neg (not_not.2 h), if_pos h1]
  · unfold makeProb
    rw [if_neg (not_not.2 h), if_neg (not_not.2 h1)]
  · obtain ⟨b, n⟩ := B
    cases h; cases h1
    decide
  · obtain ⟨b, n⟩ := B
    cases h; cases h1
    decide

/-- C73: two probabilities of the same class (and cost type) are equal iff their `beta` is; pickling gives the same object. -/
theorem C73_prob_eq [DecidableEq β] (p q : ProbObj β) (hc : p.costType = q.costType) :
    (p.kind = .base → q.kind = .base → p.eq (some q) = .ok true) ∧ (p.kind = .greedy → q.kind = .greedy → p.eq (some q) = .ok true) ∧
    (∀ b b', p.kind = .mh b → q.kind = .mh b' → ∃ r, p.eq (some q) = .ok r ∧ (r = true ↔ b = b')) ∧
    p.eq (some p) = .ok true ∧ p.unpickle = p := by
  obtain ⟨k, c⟩ := p
  obtain ⟨k', c'⟩ := q
  cases hc
  refine ⟨?_, ?_, ?_, ?_, ?_⟩
  · rintro ⟨⟩ ⟨⟩; simp [ProbObj.eq]
  · rintro ⟨⟩ ⟨⟩; simp [ProbObj.eq]
  · rintro b b' ⟨⟩ ⟨⟩; exact ⟨decide (b = b'), by simp [ProbObj.eq], by simp⟩
  · cases k <;> simp [ProbObj.eq]
  · cases k <;> rfl

/-- **C73 is violated** for `==` of probabilities: instead of `False`, comparing two of different classes or cost types, or one with any other object, raises a
`TypeError`. -/
theorem C73_violated_eq [DecidableEq β] (p q : ProbObj β) (b : β) :
    (p.costType ≠ q.costType → p.eq (some q) = .error .typeError) ∧ p.eq none = .error .typeError ∧
    (p.kind = .greedy → q.kind = .mh b → p.eq (some q) = .error .typeError ∧ q.eq (some p) = .error .typeError) ∧
    (p.kind = .base → q.kind ≠ .base → p.eq (some q) = .error .typeError ∧ q.eq (some p) = .error .typeError) := by
  obtain ⟨k, c⟩ := p
  obtain ⟨k', c'⟩ := q
  refine ⟨fun h => if_pos h, rfl, ?_, ?_⟩
  · rintro ⟨⟩ ⟨⟩
    by_cases h : c = c'
    · subst h; simp [ProbObj.eq]
    · exact ⟨if_pos h, if_pos (Ne.symm h)⟩
  · rintro ⟨⟩ hk
    by_cases h : c = c'
    · subst h
      cases k' with
      | base => exact absurd rfl hk
      | greedy => simp [ProbObj.eq]
      | mh b => simp [ProbObj.eq]
    · exact ⟨if_pos h, if_pos (Ne.symm h)⟩

end

/-! ## Examples and witnesses -/

def sixEnum (s : Finset (Fin 6)) : List (Fin 6) := (List.finRange 6).filter (· ∈ s)

theorem sixEnum_ok : EnumOk sixEnum := fun s => ⟨(List.nodup_finRange 6).filter _, fun x => by simp [sixEnum]⟩

def sesBuild : Build := ⟨true, 128⟩

/-- Tensors `512`, `0534`, `034` of dimension 2, output `12`. -/
def sesTree : Except PyErr (PyTree (Fin 6)) := PyTree.ofPath sixEnum [(1, 2), (0, 1)] [[5, 1, 2], [0, 5, 3, 4], [0, 3, 4]] (.int 2) (some [1, 2]) true

/-- Sparse indices 3 and 4, two projections, width 3. -/
def sesModel : PyFwCost (Fin 6) ℤ := ⟨⟨"float64", some {3, 4}, some (.int 2)⟩, 3, "float32"⟩

/-- Tensors `23`, `013`, `01` of dimension 2, output `2`. -/
def sesTree2 : Except PyErr (PyTree (Fin 6)) := PyTree.ofPath sixEnum [(1, 2), (0, 1)] [[2, 3], [0, 1, 3], [0, 1]] (.int 2) (some [2]) true

def sesModel2 : PyFwCost (Fin 6) ℤ := ⟨⟨"float64", none, none⟩, 2, "float32"⟩

def sesKw (maxNew : ℕ) (skip : List (Fin 6)) : FwKw (Fin 6) Unit := ⟨"greedy", maxNew, some skip, (), false, false, none, none, none⟩

def sesInit (m : PyFwCost (Fin 6) ℤ) (maxNew : ℕ) (skip : List (Fin 6)) (t : PyTree (Fin 6)) : Option (Except PyErr (FwObj (Fin 6) Unit ℤ)) :=
  FwObj.init sesBuild (constPrng 8) ilog2 sixEnum t (.finite m) (sesKw maxNew skip)

/-- `BaseProbability`: every move is accepted. -/
def sesAccept : ProbKind ℚ → ℤ → ℤ → ℚ := fun _ _ _ => 1

/-- `opt.update(BaseProbability('float64'), True)` -/
def sesStep : List (Option (ProbObj ℚ) × Bool) := [(some ⟨.base, "float64"⟩, true)]

def okTest {E α : Type} (x : Except E α) (Q : α → Bool) : Bool := match x with
  | .ok a => Q a
  | .error _ => false

theorem okTest_get {E α : Type} {x : Except E α} {Q : α → Bool} (h : okTest x Q = true) : ∃ a, x = .ok a ∧ Q a = true := by
  cases x with
  | error e => cases h
  | ok a => exact ⟨a, rfl, h⟩

def someTest {α : Type} (x : Option α) (Q : α → Bool) : Bool := match x with
  | some a => Q a
  | none => false

theorem someTest_get {α : Type} {x : Option α} {Q : α → Bool} (h : someTest x Q = true) : ∃ a, x = some a ∧ Q a = true := by
  cases x with
  | none => cases h
  | some a => exact ⟨a, rfl, h⟩

/-- **C73 is violated** (see C22): one update with one new slice, with sparse indices. The optimizer shows a tree and slices with a tensor of width 4, `max_width` is 3. -/
theorem C73_violated_width : ∃ t o0 o T S, sesTree = .ok t ∧ sesInit sesModel 1 [] t = some (.ok o0) ∧ o0.session (constPrng 8) sesAccept sesStep = .ok o ∧
    o.ctree = .ok T ∧ o.slices = some S ∧ 3 < T.core.tree.size ∧ o.cmodel.width ilog2 sixEnum (sixEnum (T.inds 3 \ S)) T.dims = .ok 4 ∧ o.cmodel.maxWidth = 3 := by
  have h : okTest sesTree (fun t => someTest (sesInit sesModel 1 [] t) fun r => okTest r fun o0 => okTest (o0.session (constPrng 8) sesAccept sesStep) fun o =>
      okTest o.ctree fun T => someTest o.slices fun S => okTest (o.cmodel.width ilog2 sixEnum (sixEnum (T.inds 3 \ S)) T.dims) fun w =>
        decide (3 < T.core.tree.size ∧ w = 4 ∧ o.cmodel.maxWidth = 3)) = true := by decide +kernel
  obtain ⟨t, ht, h⟩ := okTest_get h
  obtain ⟨r, hr, h'⟩ := someTest_get h
  obtain ⟨o0, rfl, h⟩ := okTest_get h'
  obtain ⟨o, ho, h⟩ := okTest_get h
  obtain ⟨T, hT, h⟩ := okTest_get h
  obtain ⟨S, hS, h⟩ := someTest_get h
  obtain ⟨w, hw, h⟩ := okTest_get h
  simp only [decide_eq_true_eq] at h
  obtain ⟨h1, rfl, h2⟩ := h
  exact ⟨t, o0, o, T, S, ht, hr, ho, hT, hS, h1, hw, h2⟩

/-- **C73 is violated** (see C25): with the indices 0, 1, 2 skipped and one new slice allowed, the first update evaluates `prng() % 0`. -/
theorem C73_violated_returns : ∃ t o0, sesTree2 = .ok t ∧ sesInit sesModel2 1 [0, 1, 2] t = some (.ok o0) ∧
    o0.session (constPrng 8) sesAccept sesStep = .error .divByZero := by
  have h : okTest sesTree2 (fun t => someTest (sesInit sesModel2 1 [0, 1, 2] t) fun r => okTest r fun o0 =>
      match o0.session (constPrng 8) sesAccept sesStep with | .error .divByZero => true | _ => false) = true := by decide +kernel
  obtain ⟨t, ht, h⟩ := okTest_get h
  obtain ⟨r, hr, h'⟩ := someTest_get h
  obtain ⟨o0, rfl, h⟩ := okTest_get h'
  refine ⟨t, o0, ht, hr, ?_⟩
  clear h'
  revert h
  generalize o0.session (constPrng 8) sesAccept sesStep = x
  intro h
  cases x with
  | ok o => cases h
  | error e => cases e <;> first | rfl | cases h

/-- The hypotheses of the theorems about the finite-width optimizer: a session with a wrong type, a move and a new slice; the sparse indices are skipped. -/
example : (∀ n, 0 ≤ ilog2 n) ∧ EnumOk sixEnum ∧ (sesKw 1 [3, 4]).Plain ∧ sesModel.sparseSet ⊆ (sesKw 1 [3, 4]).skipSet ∧ ∃ t o0 o T, sesTree = .ok t ∧
    sesInit sesModel 1 [3, 4] t = some (.ok o0) ∧ o0.session (constPrng 8) sesAccept ((some ⟨.greedy, "float32"⟩, true) :: (none, false) :: sesStep) = .ok o ∧
    o.ctree = .ok T ∧ T.inds 3 ≠ t.inds 3 ∧ o.slices ≠ some ∅ ∧ o.totalCost ≠ o0.totalCost := by
  refine ⟨ilog2_nonneg, sixEnum_ok, ⟨rfl, rfl, rfl⟩, by decide, ?_⟩
  have h : okTest sesTree (fun t => someTest (sesInit sesModel 1 [3, 4] t) fun r => okTest r fun o0 =>
      okTest (o0.session (constPrng 8) sesAccept ((some ⟨.greedy, "float32"⟩, true) :: (none, false) :: sesStep)) fun o =>
      okTest o.ctree fun T => decide (T.inds 3 ≠ t.inds 3 ∧ o.slices ≠ some ∅ ∧ o.totalCost ≠ o0.totalCost)) = true := by decide +kernel
  obtain ⟨t, ht, h⟩ := okTest_get h
  obtain ⟨r, hr, h'⟩ := someTest_get h
  obtain ⟨o0, rfl, h⟩ := okTest_get h'
  obtain ⟨o, ho, h⟩ := okTest_get h
  obtain ⟨T, hT, h⟩ := okTest_get h
  simp only [decide_eq_true_eq] at h
  exact ⟨t, o0, o, T, ht, hr, ho, hT, h⟩

/-- The last case of `C73_finite_returns_partial`: skipped indices that fit together. -/
example : ∃ t o0, sesTree2 = .ok t ∧ sesInit sesModel2 1 [2, 3] t = some (.ok o0) ∧
    ∃ w, o0.cmodel.width ilog2 sixEnum (sixEnum (sesKw 1 [2, 3]).skipSet) t.dims = .ok w ∧ w ≤ o0.cmodel.maxWidth := by
  have h : okTest sesTree2 (fun t => someTest (sesInit sesModel2 1 [2, 3] t) fun r => okTest r fun o0 =>
      okTest (o0.cmodel.width ilog2 sixEnum (sixEnum (sesKw 1 [2, 3]).skipSet) t.dims) fun w => decide (w ≤ o0.cmodel.maxWidth)) = true := by decide +kernel
  obtain ⟨t, ht, h⟩ := okTest_get h
  obtain ⟨r, hr, h'⟩ := someTest_get h
  obtain ⟨o0, rfl, h⟩ := okTest_get h'
  obtain ⟨w, hw, h⟩ := okTest_get h
  exact ⟨t, o0, ht, hr, w, hw, by simpa using h⟩

/-- The hypotheses of the theorems about the infinite-memory optimizer: a session with wrong types and a move that lowers the cost shown. -/
example : ∃ t o0 o T, sesTree2 = .ok t ∧
    InfObj.init sesBuild sixEnum t (.infinite ⟨"float1024", none, none⟩ : ModelArg (Fin 6) ℤ) () false false none = some (.ok o0) ∧
    o0.session (constPrng 8).toPrng sesAccept [none, some ⟨.mh 3, "float64"⟩, some ⟨.base, "float1024"⟩] = some o ∧ o.ctree = .ok T ∧ T.inds 3 ≠ t.inds 3 ∧
    o.totalCost ≠ o0.totalCost := by
  have h : okTest sesTree2 (fun t => someTest (InfObj.init sesBuild sixEnum t (.infinite ⟨"float1024", none, none⟩ : ModelArg (Fin 6) ℤ) () false false none) fun r =>
      okTest r fun o0 => someTest (o0.session (constPrng 8).toPrng sesAccept [none, some ⟨.mh 3, "float64"⟩, some ⟨.base, "float1024"⟩]) fun o =>
      okTest o.ctree fun T => decide (T.inds 3 ≠ t.inds 3 ∧ o.totalCost ≠ o0.totalCost)) = true := by decide +kernel
  obtain ⟨t, ht, h⟩ := okTest_get h
  obtain ⟨r, hr, h'⟩ := someTest_get h
  obtain ⟨o0, rfl, h⟩ := okTest_get h'
  obtain ⟨o, ho, h⟩ := someTest_get h
  obtain ⟨T, hT, h⟩ := okTest_get h
  simp only [decide_eq_true_eq] at h
  exact ⟨t, o0, o, T, ht, hr, ho, hT, h⟩

/-- Some of the errors: skipped indices that do not fit, unknown skipped indices, a model of the other module, the two classes of probabilities. -/
example : okTest sesTree2 (fun t =>
    (match sesInit sesModel2 0 [0, 1, 3] t with | some (.error .valueError) => true | _ => false) &&
    (match sesInit sesModel2 0 [5] t with | some (.error .valueError) => true | _ => false) &&
    (match FwObj.init sesBuild (constPrng 8) ilog2 sixEnum t (.infinite ⟨"float64", none, none⟩) (sesKw 0 []) with | some (.error .notImplemented) => true | _ => false)) = true ∧
    ProbObj.eq (⟨.greedy, "float64"⟩ : ProbObj ℚ) (some ⟨.mh 0, "float64"⟩) = .error .typeError ∧
    makeProb ⟨false, 128⟩ (.greedy : ProbKind ℚ) "float1024" = .error .attributeError := by
  refine ⟨by decide +kernel, rfl, rfl⟩

end TNCO
