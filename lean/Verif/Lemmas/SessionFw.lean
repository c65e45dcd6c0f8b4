import Verif.Lemmas.Session

/-!
Sessions of the finite-width optimizer.
-/

namespace TNCO
open PTree

variable {ι : Type} [DecidableEq ι]

section
variable {W : Type} [AddCommGroup W] [LinearOrder W]

theorem widthModel_spec {log2 : ℕ → W} {c : CostCore} {D : Dims} {mw : W} {w : WidthModel W} (h : c.widthModel log2 D mw = some w) :
    (∀ s, w.width s = c.width log2 D s) ∧ w.maxWidth = mw ∧ OfferedWidth log2 D w := by
  cases c with
  | simple =>
    refine ⟨?_, ?_, .inl ⟨mw, h⟩⟩ <;>
    · simp only [CostCore.widthModel, simpleWidthModel] at h
      split at h
      · cases h
      · cases h; first | rfl | (intro; rfl)
  | sparse b n =>
    refine ⟨?_, ?_, .inr ⟨mw, b, n, h⟩⟩ <;>
    · simp only [CostCore.widthModel, sparseWidthModel] at h
      split at h
      · cases h
      split at h
      · cases h
      · cases h; first | rfl | (intro; rfl)

/-- The width model exists iff `max_width` is not negative. -/
theorem widthModel_iff {log2 : ℕ → W} {enum : Finset ι → List ι} {m : PyCost ι} {order : List ι} {c : CostCore} (hc : m.core enum order = .ok c)
    (D : Dims) (mw : W) : (∃ w, c.widthModel log2 D mw = some w) ↔ 0 ≤ mw := by
  cases c with
  | simple =>
    simp only [CostCore.widthModel, simpleWidthModel]
    by_cases h : mw < 0
    · simp [h]
    · simp [h, not_lt.1 h]
  | sparse b n =>
    have := core_projs hc
    simp only [CostCore.widthModel, sparseWidthModel]
    by_cases h : mw < 0
    · simp [h]
    · simp [h, not_lt.1 h, this.ne']

/-- The sparse indices of the core are those of the Python object. -/
theorem core_sparse {enum : Finset ι → List ι} (he : EnumOk enum) {m : PyCost ι} {order : List ι} {b : ISet} {n : ℕ}
    (h : m.core enum order = .ok (.sparse b n)) : b = m.sparseSet.image order.idxOf ∧ m.sparseSet ≠ ∅ := by
  unfold PyCost.core at h
  unfold PyCost.sparseSet
  split at h
  · cases h
  next s h0 =>
  split at h
  · cases h
  next hne =>
  split at h
  · cases h
  next hsub =>
  split at h
  · cases h
  next b' hb =>
  split at h
  · cases h
  cases h
  rw [h0]
  refine ⟨?_, hne⟩
  show b = s.image _
  have := bitsIn_ok (order := order) (xs := enum s) (he s).1 (fun x hx => by
    have := not_not.1 hsub ((he s).2 x |>.1 hx); simpa using this)
  rw [hb] at this
  cases this
  rw [enum_toFinset he]

variable [IsOrderedAddMonoid W]

theorem skipTooWide_ok {enum : Finset ι → List ι} (he : EnumOk enum) {log2 : ℕ → W} (hlog : ∀ n, 0 ≤ log2 n) {t : PyTree ι} {m : PyFwCost ι W}
    {c : CostCore} (htidy : t.core.Tidy t.indsOrder) (hok : t.core.dims.ok t.core.nInds = true) (hc : m.core enum t.indsOrder = .ok c) (skip : Finset ι) (ps : List ℕ) :
    skipTooWide log2 enum m t skip ps =
      .ok (ps.any fun p => decide (m.maxWidth < c.width log2 t.core.dims ((nameSet t.indsOrder (t.core.inds p) ∩ skip).image t.indsOrder.idxOf))) := by
  induction ps with
  | nil => rfl
  | cons p ps ih =>
    unfold skipTooWide
    rw [getInds_ok htidy.len p]
    simp only
    rw [width_core he hlog hc (D := t.core.dims) (dims := t.dims) (fun x hx => dimOf_get htidy.len hok hx)
      (fun x hx => nameSet_sub _ x (Finset.mem_inter.1 hx).1)]
    simp only [List.any_cons]
    split
    · next h => simp [h]
    · next h => rw [ih]; simp [h]

end

section
variable {σ P W β : Type} [LinearOrder P] [AddCommGroup W] [LinearOrder W] [IsOrderedAddMonoid W]

/-- What the C++ constructor gets, once the Python checks are passed. -/
theorem fw_build_eq {g : FwPrng σ P} {log2 : ℕ → W} {enum : Finset ι → List ι} {t : PyTree ι} {m : PyFwCost ι W} {k : FwKw ι σ} (hk : k.Plain)
    {skip : Finset ι} (hs : skip ⊆ t.indsOrder.toFinset) {c : CostCore} (hc : m.core enum t.indsOrder = .ok c) {w : WidthModel W}
    (hw : c.widthModel log2 t.core.dims m.maxWidth = some w) :
    FwObj.build g log2 enum t m k skip =
      match FwOpt.make g (c.model t.core.dims) w t.core k.maxNew k.seed k.dis
        (if skip.image t.indsOrder.idxOf = ∅ then none else some (skip.image t.indsOrder.idxOf)) none none none with
        | none => none
        | some (.error _) => some (.error .valueError)
        | some (.ok o) => some (.ok ⟨m, c, w, ⟨o, t.cache, skip⟩⟩) := by
  obtain ⟨h1, h2, h3⟩ := hk
  unfold FwObj.build
  simp only [h1, h2, h3, optBits, toBits, if_pos hs, hc, hw, Option.map_none, Finset.image_eq_empty]
  split <;> simp_all

theorem fw_build_ok {g : FwPrng σ P} {log2 : ℕ → W} {enum : Finset ι → List ι} {t : PyTree ι} {m : PyFwCost ι W} {k : FwKw ι σ} (hk : k.Plain)
    {skip : Finset ι} (hs : skip ⊆ t.indsOrder.toFinset) {o : FwObj ι σ W} (h : FwObj.build g log2 enum t m k skip = some (.ok o)) :
    o.cmodel = m ∧ m.core enum t.indsOrder = .ok o.core ∧ o.core.widthModel log2 t.core.dims m.maxWidth = some o.wm ∧
      FwOpt.make g (o.core.model t.core.dims) o.wm t.core k.maxNew k.seed k.dis
        (if skip.image t.indsOrder.idxOf = ∅ then none else some (skip.image t.indsOrder.idxOf)) none none none = some (.ok o.opt.core) ∧
      o.opt.cache = t.cache ∧ o.opt.skip = skip := by
  cases hc : m.core enum t.indsOrder with
  | error e =>
    obtain ⟨h1, h2, h3⟩ := hk
    unfold FwObj.build at h
    simp only [h1, h2, h3, optBits, toBits, if_pos hs, hc] at h
    cases h
  | ok c =>
    cases hw : c.widthModel log2 t.core.dims m.maxWidth with
    | none =>
      obtain ⟨h1, h2, h3⟩ := hk
      unfold FwObj.build at h
      simp only [h1, h2, h3, optBits, toBits, if_pos hs, hc, hw] at h
      cases h
    | some w =>
      rw [fw_build_eq hk hs hc hw] at h
      split at h
      · cases h
      · cases h
      next oc hoc =>
      cases h
      exact ⟨rfl, rfl, hw, hoc, rfl, rfl⟩

theorem fw_init_eq {B : Build} {g : FwPrng σ P} {log2 : ℕ → W} {enum : Finset ι → List ι} {t : PyTree ι} {m : PyFwCost ι W} {k : FwKw ι σ}
    (hx : k.extra = false) (hu : k.sliceUpdate = "greedy") (hct : m.costType ∈ B.costTypes) (hwt : m.widthType ∈ B.widthTypes)
    (hs : k.skipSet ⊆ t.indsOrder.toFinset) (hb : skipTooWide log2 enum m t k.skipSet (List.range t.core.tree.size) = .ok false) :
    FwObj.init B g log2 enum t (.finite m) k = FwObj.build g log2 enum t m k k.skipSet := by
  unfold FwObj.init FwKw.skipSet at *
  simp only [hx, hu, hct, hwt, hs, hb, not_true_eq_false, or_self, if_false, ne_eq, Bool.false_eq_true]

theorem fw_init_inv {B : Build} {g : FwPrng σ P} {log2 : ℕ → W} {enum : Finset ι → List ι} {t : PyTree ι} {cm : ModelArg ι W} {k : FwKw ι σ}
    {o : FwObj ι σ W} (h : FwObj.init B g log2 enum t cm k = some (.ok o)) :
    ∃ m, cm = .finite m ∧ k.extra = false ∧ k.sliceUpdate = "greedy" ∧ m.costType ∈ B.costTypes ∧ m.widthType ∈ B.widthTypes ∧
      k.skipSet ⊆ t.indsOrder.toFinset ∧ skipTooWide log2 enum m t k.skipSet (List.range t.core.tree.size) = .ok false ∧
      FwObj.build g log2 enum t m k k.skipSet = some (.ok o) := by
  unfold FwObj.init at h
  split at h
  · next m =>
    split at h
    · cases h
    next hx =>
    split at h
    · cases h
    next hu =>
    split at h
    · cases h
    next ht =>
    simp only at h
    split at h
    · cases h
    next hs =>
    split at h
    · cases h
    · cases h
    next hb =>
    push Not at ht
    exact ⟨m, rfl, by simpa using hx, by simpa using hu, ht.1, ht.2, not_not.1 hs, hb, h⟩
  · split at h
    · cases h
    split at h <;> cases h
  · cases h

/-- The bits of the indices of a tensor that are skipped. -/
theorem skip_bits {order : List ι} (h : order.Nodup) {s : ISet} (hs : s ⊆ Finset.range order.length) {skip : Finset ι} (hsk : skip ⊆ order.toFinset) :
    (nameSet order s ∩ skip).image order.idxOf = s ∩ skip.image order.idxOf := by
  conv_lhs => rw [← nameSet_image hsk, ← nameSet_inter h]
  exact image_nameSet h (Finset.inter_subset_left.trans hs)

theorem fw_init_ok {B : Build} {g : FwPrng σ P} {log2 : ℕ → W} (hlog : ∀ n, 0 ≤ log2 n) {enum : Finset ι → List ι} (he : EnumOk enum) {t : PyTree ι}
    (htidy : t.core.Tidy t.indsOrder) (hok : t.core.dims.ok t.core.nInds = true) {cm : ModelArg ι W} {k : FwKw ι σ} (hk : k.Plain) {o : FwObj ι σ W}
    (h : FwObj.init B g log2 enum t cm k = some (.ok o)) :
    cm = .finite o.cmodel ∧ k.extra = false ∧ k.sliceUpdate = "greedy" ∧ o.cmodel.costType ∈ B.costTypes ∧ o.cmodel.widthType ∈ B.widthTypes ∧
      k.skipSet ⊆ t.indsOrder.toFinset ∧ o.cmodel.core enum t.indsOrder = .ok o.core ∧ o.core.widthModel log2 t.core.dims o.cmodel.maxWidth = some o.wm ∧
      FwOpt.pyMake g (o.core.model t.core.dims) o.wm t.core k.maxNew k.seed k.dis (k.skipSet.image t.indsOrder.idxOf) none none none = some (.ok o.opt.core) ∧
      o.opt.cache = t.cache ∧ o.opt.skip = k.skipSet := by
  obtain ⟨m, rfl, h1, h2, h3, h4, h5, h6, h⟩ := fw_init_inv h
  obtain ⟨hm, hc, hw, hmk, hca, hsk⟩ := fw_build_ok hk h5 h
  subst hm
  refine ⟨rfl, h1, h2, h3, h4, h5, hc, hw, ?_, hca, hsk⟩
  rw [skipTooWide_ok he hlog htidy hok hc] at h6
  unfold FwOpt.pyMake FwOpt.pyMakeWith
  rw [if_neg]
  · exact hmk
  · simp only [Except.ok.injEq] at h6
    have : (List.range t.core.tree.size).any (fun p => decide (o.wm.maxWidth < o.wm.width (t.core.inds p ∩ k.skipSet.image t.indsOrder.idxOf))) = false := by
      rw [← h6]
      congr 1
      funext p
      obtain ⟨e1, e2, -⟩ := widthModel_spec hw
      rw [e1, e2, skip_bits htidy.nodup (htidy.len ▸ htidy.clean.inds_lt p) h5]
    rw [this]; simp

omit [IsOrderedAddMonoid W] in
theorem fw_update_other {g : FwPrng σ P} {accept : ProbKind β → ℤ → ℤ → P} {o : FwObj ι σ W} {p : Option (ProbObj β)} {b : Bool}
    (h : ∀ q, p = some q → q.costType ≠ o.cmodel.costType) : o.update g accept p b = .ok (o, some .typeError) := by
  cases p with
  | none => rfl
  | some q => exact if_pos (h q rfl)

omit [IsOrderedAddMonoid W] in
theorem fw_update_same {g : FwPrng σ P} {accept : ProbKind β → ℤ → ℤ → P} {o : FwObj ι σ W} {q : ProbObj β} {b : Bool}
    (h : q.costType = o.cmodel.costType) : o.update g accept (some q) b =
      match o.opt.core.update g (o.core.model o.opt.core.inf.ctree.dims) o.wm (accept q.kind) b with
      | .error e => .error e
      | .ok c => .ok ({ o with opt := { o.opt with core := c } }, none) :=
  if_neg (by simpa using h)

/-- The updates with a probability of the right type. -/
def stepsFor (costType : String) (ps : List (Option (ProbObj β) × Bool)) : List (ProbKind β × Bool) :=
  ps.filterMap fun p => p.1.bind fun q => if q.costType = costType then some (q.kind, p.2) else none

omit [IsOrderedAddMonoid W] in
theorem fw_session {g : FwPrng σ P} {accept : ProbKind β → ℤ → ℤ → P} {c0 : FwOpt σ ℤ W} {cc : CostCore} {w : WidthModel W} {D : Dims}
    (hd : ∀ qs o', c0.run g (cc.model D) w qs = .ok o' → o'.inf.ctree.dims = D) (ps : List (Option (ProbObj β) × Bool)) :
    ∀ (o : FwObj ι σ W) (qs : List ((ℤ → ℤ → P) × Bool)), o.core = cc → o.wm = w → c0.run g (cc.model D) w qs = .ok o.opt.core →
      o.session g accept ps = match o.opt.core.run g (cc.model D) w ((stepsFor o.cmodel.costType ps).map fun x => (accept x.1, x.2)) with
        | .error e => .error e
        | .ok c => .ok { o with opt := { o.opt with core := c } } := by
  induction ps with
  | nil => intro o qs hc hw h; rfl
  | cons p ps ih =>
    intro o qs hc hw h
    subst hc; subst hw
    obtain ⟨p, b⟩ := p
    unfold FwObj.session
    by_cases hp : ∃ q, p = some q ∧ q.costType = o.cmodel.costType
    · obtain ⟨q, rfl, hq⟩ := hp
      have hpf : stepsFor o.cmodel.costType ((some q, b) :: ps) = (q.kind, b) :: stepsFor o.cmodel.costType ps := by
        simp [stepsFor, hq]
      simp only [fw_update_same hq, hpf, hd qs _ h]
      simp only [List.map_cons, FwOpt.run]
      cases hu : o.opt.core.update g (o.core.model D) o.wm (accept q.kind) b with
      | error e => rfl
      | ok c1 =>
        simp only
        have hr : c0.run g (o.core.model D) o.wm (qs ++ [(accept q.kind, b)]) = .ok c1 := by
          rw [fw_run_append, h]
          simp [FwOpt.run, hu]
        exact ih { o with opt := { o.opt with core := c1 } } _ rfl rfl hr
    · have hne : ∀ q, p = some q → q.costType ≠ o.cmodel.costType := fun q h1 h2 => hp ⟨q, h1, h2⟩
      have hpf : stepsFor o.cmodel.costType ((p, b) :: ps) = stepsFor o.cmodel.costType ps := by
        cases p with
        | none => rfl
        | some q => simp [stepsFor, hne q rfl]
      simp only [fw_update_other hne, hpf]
      exact ih o qs rfl rfl h

/-- Which trees the infinite-memory constructor accepts. -/
theorem infMake_iff {R : Type} [AddCommGroup R] [LinearOrder R] [IsOrderedAddMonoid R] {m : CostModel R} {c : CTree} {t : PTree} {out : ISet} (seed : σ) (dis : Bool)
    (hwf : WellFormed c.tree t) (hex : IndsExact c.inds out t) {n : ℕ} (hin : ∀ p, c.inds p ⊆ Finset.range n) (hpos : ∀ s, s ⊆ Finset.range n → 0 < m.get s) :
    ∃ r, InfOpt.make m c seed dis none = some r ∧ ((∃ o, r = .ok o) ↔ c.isValid (!dis) = true ∧ c.tree.size ≠ 1) := by
  have hloc := PTree.sem_loc (indsExact_iff.1 hex)
  obtain ⟨k, hk, k1, k2, k3⟩ := costCache_make (m := m) hwf hloc (fuel := c.fuel) (le_refl _)
  have hg := getCost_eq (m := m) hwf hloc (fuel := c.fuel) (le_refl _)
  have htot := cache_total hwf k1 k2 k3
  cases hv : c.isValid (!dis) with
  | false =>
    refine ⟨.error "invalid_argument", ?_, by simp⟩
    unfold InfOpt.make InfOpt.makeWith
    simp [hv, bind, pure]
  | true =>
    by_cases hsz : c.tree.size = 1
    · cases hmk : InfOpt.make m c seed dis none with
      | none =>
        unfold InfOpt.make InfOpt.makeWith at hmk
        simp only [Option.getD_none, hv, hk, hg, bind, pure, Option.bind_some, Bool.not_true, Bool.or_self, Bool.false_eq_true, if_false] at hmk
        split at hmk <;> cases hmk
      | some r =>
        refine ⟨r, rfl, ?_⟩
        simp only [hsz, ne_eq, not_true_eq_false, and_false, iff_false, not_exists]
        rintro o rfl
        exact make_size hwf hmk hsz
    · have hcost : 0 < treeCost m.get c.inds t := treeCost_pos (m := m) (n := n) hpos hin hwf hsz
      have hmk : ∃ o, InfOpt.make m c seed dis none = some (.ok o) := by
        unfold InfOpt.make InfOpt.makeWith
        simp only [Option.getD_none, hv, hk, hg, bind, pure, Option.bind_some, Bool.not_true, Bool.or_self, Bool.false_eq_true, if_false]
        rw [if_neg]
        · exact ⟨_, rfl⟩
        · unfold InfOpt.totalCost
          simp only [htot]
          push Not
          exact ⟨hcost, hcost⟩
      obtain ⟨o, ho⟩ := hmk
      exact ⟨_, ho, by simp [hsz]⟩

/-- Which trees the finite-width constructor accepts once the skipped indices fit. -/
theorem fwMake_iff {R : Type} [AddCommGroup R] [LinearOrder R] [IsOrderedAddMonoid R] {g : FwPrng σ P} {m : CostModel R} {log2 : ℕ → W}
    (hlog : ∀ n, 0 ≤ log2 n) {wm : WidthModel W} {c : CTree} {t : PTree} {out : ISet} (maxNew : ℕ) (seed : σ) (dis : Bool) (skip : ISet)
    (hwm : OfferedWidth log2 c.dims wm) (hwf : WellFormed c.tree t) (hex : IndsExact c.inds out t) {n : ℕ}
    (hin : ∀ p, c.inds p ⊆ Finset.range n) (hpos : ∀ s, s ⊆ Finset.range n → 0 < m.get s)
    (hskip : ∀ p < c.tree.size, wm.width (c.inds p ∩ skip) ≤ wm.maxWidth) :
    ∃ r, FwOpt.make g m wm c maxNew seed dis (if skip = ∅ then none else some skip) none none none = some r ∧
      ((∃ o, r = .ok o) ↔ c.isValid (!dis) = true ∧ c.tree.size ≠ 1) := by
  have hlaw := (offered_lawful hlog hwm).1
  have hloc := PTree.sem_loc (indsExact_iff.1 hex)
  obtain ⟨S, s', hS, hS1, -, hS3⟩ := C21_get_slices g log2 hlog wm c hwm (if skip = ∅ then none else some skip) ⟨t, hwf⟩ seed
  have hSr : S ⊆ Finset.range n := by
    intro x hx
    obtain ⟨p, -, hxp, -⟩ := hS1 x hx
    exact hin p hxp
  have hgd : (if skip = ∅ then none else some skip : Option ISet).getD ∅ = skip := by split <;> simp_all
  have hfit := hS3 (by intro p hp; rw [hgd]; exact hskip p hp)
  obtain ⟨k, hk, k1, k2, k3⟩ := costCache_make (m := m.sliced S) hwf hloc (fuel := c.fuel) (le_refl _)
  have hg := getCost_eq (m := m.sliced S) hwf hloc (fuel := c.fuel) (le_refl _)
  have htot := cache_total (m := m.sliced S) hwf k1 k2 k3
  have hall : allFit wm c S = true := by
    unfold allFit
    simp only [List.all_eq_true, List.mem_range, decide_eq_true_eq]
    exact hfit
  have hpy : ∀ o, FwOpt.make g m wm c maxNew seed dis (if skip = ∅ then none else some skip) none none none = some (.ok o) → c.tree.size ≠ 1 := by
    intro o h
    have hmk : FwOpt.pyMake g m wm c maxNew seed dis skip none none none = some (.ok o) := by
      unfold FwOpt.pyMake FwOpt.pyMakeWith
      rw [if_neg (by
        simp only [List.any_eq_true, List.mem_range, decide_eq_true_eq, not_exists, not_and, not_lt]
        exact hskip)]
      exact h
    obtain ⟨hI, hc, -, -, -, -, hp, -⟩ := pyMake_inv hlaw hwf (by simp) hmk (out? := none) (by simp)
    have := fmake_size hI hp
    rwa [hc] at this
  cases hv : c.isValid (!dis) with
  | false =>
    refine ⟨.error .invalidArgument, ?_, by simp⟩
    unfold FwOpt.make FwOpt.makeWith
    simp [hv, bind, pure]
  | true =>
    by_cases hsz : c.tree.size = 1
    · cases hmk : FwOpt.make g m wm c maxNew seed dis (if skip = ∅ then none else some skip) none none none with
      | none =>
        unfold FwOpt.make FwOpt.makeWith at hmk
        simp only [Option.getD_none, hv, hk, hg, bind, pure, Option.bind_some, Bool.not_true, Bool.or_self, Bool.false_eq_true, if_false,
          initSlices, hS, hall] at hmk
        split at hmk <;> cases hmk
      | some r =>
        refine ⟨r, rfl, ?_⟩
        simp only [hsz, ne_eq, not_true_eq_false, and_false, iff_false, not_exists]
        rintro o rfl
        exact hpy o hmk hsz
    · have hcost : 0 < treeCost (m.sliced S).get c.inds t :=
        treeCost_pos (m := m.sliced S) (n := n) (fun s hs => hpos _ (Finset.union_subset hs hSr)) hin hwf hsz
      have hmk : ∃ o, FwOpt.make g m wm c maxNew seed dis (if skip = ∅ then none else some skip) none none none = some (.ok o) := by
        unfold FwOpt.make FwOpt.makeWith
        simp only [Option.getD_none, hv, hk, hg, bind, pure, Option.bind_some, Bool.not_true, Bool.or_self, Bool.false_eq_true, if_false,
          initSlices, hS, hall]
        rw [if_neg]
        · exact ⟨_, rfl⟩
        · unfold InfOpt.totalCost
          simp only [htot]
          push Not
          exact ⟨hcost, hcost⟩
      obtain ⟨o, ho⟩ := hmk
      exact ⟨_, ho, by simp [hsz]⟩

/-- What one state of a finite-width history shows. -/
theorem fw_point {enum : Finset ι → List ι} (he : EnumOk enum) {g : FwPrng σ P} {log2 : ℕ → W} (hlog : ∀ n, 0 ≤ log2 n) {m : PyFwCost ι W} {t : PyTree ι}
    {maxNew : ℕ} {seed : σ} {dis : Bool} {skip : Finset ι} (hsk : skip ⊆ t.indsOrder.toFinset) {cc : CostCore} {w : WidthModel W}
    {c0 o : FwOpt σ ℤ W} {qs : List ((ℤ → ℤ → P) × Bool)} {t0 : PTree} {out : ISet} (htidy : t.core.Tidy t.indsOrder) (hwf : WellFormed t.core.tree t0)
    (hex : IndsExact t.core.inds out t0) (hv : t.core.isValid false = true) (hc : m.core enum t.indsOrder = .ok cc)
    (hw : cc.widthModel log2 t.core.dims m.maxWidth = some w)
    (hmk : FwOpt.pyMake g (cc.model t.core.dims) w t.core maxNew seed dis (skip.image t.indsOrder.idxOf) none none none = some (.ok c0))
    (hrun : c0.run g (cc.model t.core.dims) w qs = .ok o) :
    o.inf.ctree.dims = t.core.dims ∧ o.inf.ctree.nInds = t.core.nInds ∧ ∃ T : PyTree ι, T.core = o.inf.ctree ∧ T.indsOrder = t.indsOrder ∧
      getCtree t.cache o.inf.ctree = .ok T ∧ SameLeaves t T ∧ T.core.isValid (!dis) = true ∧
      (∀ x ∈ nameSet t.indsOrder o.slices, x ∈ t.indsOrder) ∧ Disjoint (nameSet t.indsOrder o.slices) skip ∧
      (∃ k : ℕ, T.totalFw enum m (nameSet t.indsOrder o.slices) = .ok k ∧ (k : ℤ) = o.inf.totalCost) ∧
      ∀ p, T.inds p = nameSet t.indsOrder (o.inf.ctree.inds p) ∧
        m.width log2 enum (enum (T.inds p \ nameSet t.indsOrder o.slices)) T.dims = .ok (w.width (o.inf.ctree.inds p \ o.slices)) := by
  obtain ⟨hww, -, hof⟩ := widthModel_spec hw
  have hpos : ∀ s, s ⊆ Finset.range t.core.nInds → 0 < (cc.model t.core.dims).get s := fun s hs =>
    core_pos hc ((ctree_isValid_iff hwf _).1 hv).1 hs
  obtain ⟨hcl, hti, hT, hvd, hv', hd, hn, hdis, htp, hskp⟩ := fw_state hlog hof htidy hwf hex hpos hmk hrun
  obtain ⟨T, hwT, hsz, hleaf, hroot, -, -, htot, -⟩ := C24_caches_exact g _ log2 hlog w t.core maxNew seed dis _ none none none c0 o qs t0 out hof hwf hex
    (by simp) hmk hrun
  have hdj := (C23_skip_never_sliced g _ log2 hlog w t.core maxNew seed dis _ none none none c0 o qs hof ⟨t0, hwf⟩ (by simp) hmk hrun).1
  have hg := getCtree_tidy hti hv' hwT.linked.pos t.nTensors t.tensorsPos
  rw [hd] at hg
  have hS : o.slices ⊆ Finset.range t.indsOrder.length := by rw [hti.len]; exact hcl.slices_lt
  obtain ⟨k, hk, hk'⟩ := totalFw_ok he t.nTensors t.tensorsPos hti hwT hv' hc hS
  have hin : ∀ p, (⟨o.inf.ctree, t.nTensors, t.tensorsPos, t.indsOrder⟩ : PyTree ι).inds p = nameSet t.indsOrder (o.inf.ctree.inds p) := fun p =>
    (nameSet_inds ⟨o.inf.ctree, t.nTensors, t.tensorsPos, t.indsOrder⟩ hti.len.symm p).symm
  refine ⟨hd, hn, ⟨o.inf.ctree, t.nTensors, t.tensorsPos, t.indsOrder⟩, rfl, rfl, hg, sameLeaves_of htidy hti hd hsz hT hleaf hroot, hvd,
    nameSet_sub _, ?_, ⟨k, hk, ?_⟩, fun p => ⟨hin p, ?_⟩⟩
  · rw [Finset.disjoint_left]
    intro x hx hxs
    obtain ⟨i, hi, hxi⟩ := mem_nameSet.1 hx
    refine Finset.disjoint_left.1 hdj hi (Finset.mem_image.2 ⟨x, hxs, ?_⟩)
    obtain ⟨hl, rfl⟩ := List.getElem?_eq_some_iff.1 hxi
    exact htidy.nodup.idxOf_getElem _ _
  · rw [hk', hd, ← htot]
  · rw [hin, ← nameSet_sdiff htidy.nodup]
    rw [width_core he hlog hc (D := t.core.dims) (fun x hx => by
      have := dimOf_get hti.len ((ctree_isValid_iff hwT _).1 hv').1 hx
      rw [hd] at this
      unfold PyTree.dims; simp only [hd]; exact this) (nameSet_sub _),
      image_nameSet htidy.nodup (Finset.sdiff_subset.trans (htidy.len ▸ hn ▸ hcl.inf.ctree.inds_lt p)), hww]

/-! ## Optimizers of trees built from a path -/

/-- What is known about a tree built from a path. -/
structure PathTree (t : PyTree ι) (t0 : PTree) (out : ISet) : Prop where
  tidy : t.core.Tidy t.indsOrder
  wf : WellFormed t.core.tree t0
  exact : IndsExact t.core.inds out t0
  valid : t.core.isValid false = true

omit [LinearOrder P] [AddCommGroup W] [LinearOrder W] [IsOrderedAddMonoid W] in
theorem pathTree {enum : Finset ι → List ι} (he : EnumOk enum) {path : List (ℕ × ℕ)} {tsInds : List (List ι)} (hts : ∀ l ∈ tsInds, l.Nodup)
    {dims : PyDims ι} {output : Option (List ι)} {check : Bool} {t : PyTree ι} (ht : PyTree.ofPath enum path tsInds dims output check = .ok t) :
    ∃ t0 out, PathTree t t0 out := by
  obtain ⟨⟨t0, hwf, hex⟩, -⟩ := C10_core_exact enum he path tsInds hts dims output check t ht
  have hv := (C10_indices_exact enum he path tsInds hts dims output check t ht).1
  obtain ⟨h1, h2, -⟩ := (ctree_isValid_iff hwf _).1 hv
  exact ⟨t0, _, ofPath_tidy ht, hwf, hex, (ctree_isValid_iff hwf _).2 ⟨h1, h2, by simp⟩⟩

omit [AddCommGroup W] [LinearOrder W] [IsOrderedAddMonoid W] in
/-- A session is a history of the C++ optimizer. -/
theorem inf_driven {B : Build} {enum : Finset ι → List ι} {t : PyTree ι} {t0 : PTree} {out : ISet} (hp : PathTree t t0 out) {cm : ModelArg ι W}
    {seed : σ} {dis extra : Bool} {o0 : InfObj ι σ} (h : InfObj.init B enum t cm seed dis extra none = some (.ok o0))
    (g : Prng σ P) (accept : ProbKind β → ℤ → ℤ → P) (ps : List (Option (ProbObj β))) :
    ∃ oc, o0.opt.core.run g (o0.core.model t.core.dims) ((probsFor o0.cmodel.costType ps).map accept) = some oc ∧
      o0.session g accept ps = some { o0 with opt := { o0.opt with core := oc } } := by
  obtain ⟨-, -, -, hc, hmk, -⟩ := inf_init_ok h
  simp only [Option.map_none] at hmk
  have hpos : ∀ s, s ⊆ Finset.range t.core.nInds → 0 < (o0.core.model t.core.dims).get s := fun s hs =>
    core_pos hc ((ctree_isValid_iff hp.wf _).1 hp.valid).1 hs
  obtain ⟨oc, -, hrun, -⟩ := C13_update_keeps_tree g (o0.core.model t.core.dims) t.core seed dis none t0 _ o0.opt.core
    ((probsFor o0.cmodel.costType ps).map accept) hp.wf hp.exact hmk
  have hs := inf_session (g := g) (accept := accept) (fun qs o1 h1 => (inf_state hp.tidy hp.wf hp.exact hpos hmk h1).2.2.2.2.2.1) ps o0 [] rfl rfl
  rw [hrun] at hs
  exact ⟨oc, hrun, hs⟩

theorem fw_driven {B : Build} {g : FwPrng σ P} {log2 : ℕ → W} (hlog : ∀ n, 0 ≤ log2 n) {enum : Finset ι → List ι} (he : EnumOk enum) {t : PyTree ι}
    {t0 : PTree} {out : ISet} (hp : PathTree t t0 out) {cm : ModelArg ι W} {k : FwKw ι σ} (hk : k.Plain) {o0 : FwObj ι σ W}
    (h : FwObj.init B g log2 enum t cm k = some (.ok o0)) (accept : ProbKind β → ℤ → ℤ → P) (ps : List (Option (ProbObj β) × Bool)) :
    o0.session g accept ps =
      match o0.opt.core.run g (o0.core.model t.core.dims) o0.wm ((stepsFor o0.cmodel.costType ps).map fun x => (accept x.1, x.2)) with
      | .error e => .error e
      | .ok c => .ok { o0 with opt := { o0.opt with core := c } } := by
  have hok := ((ctree_isValid_iff hp.wf _).1 hp.valid).1
  obtain ⟨-, -, -, -, -, hsub, hc, hw, hmk, -⟩ := fw_init_ok hlog he hp.tidy hok hk h
  exact fw_session (accept := accept) (fun qs o1 h1 => (fw_point he hlog hsub hp.tidy hp.wf hp.exact hp.valid hc hw hmk h1).1) ps o0 [] rfl rfl rfl

theorem fw_driven_ok {B : Build} {g : FwPrng σ P} {log2 : ℕ → W} (hlog : ∀ n, 0 ≤ log2 n) {enum : Finset ι → List ι} (he : EnumOk enum) {t : PyTree ι}
    {t0 : PTree} {out : ISet} (hp : PathTree t t0 out) {cm : ModelArg ι W} {k : FwKw ι σ} (hk : k.Plain) {o0 o : FwObj ι σ W}
    (h : FwObj.init B g log2 enum t cm k = some (.ok o0)) {accept : ProbKind β → ℤ → ℤ → P} {ps : List (Option (ProbObj β) × Bool)}
    (hs : o0.session g accept ps = .ok o) :
    ∃ oc, o0.opt.core.run g (o0.core.model t.core.dims) o0.wm ((stepsFor o0.cmodel.costType ps).map fun x => (accept x.1, x.2)) = .ok oc ∧
      o = { o0 with opt := { o0.opt with core := oc } } := by
  rw [fw_driven hlog he hp hk h] at hs
  split at hs
  · cases hs
  next c hc => exact ⟨c, hc, by cases hs; rfl⟩

/-! ## When the constructors accept -/

omit [AddCommGroup W] [LinearOrder W] [IsOrderedAddMonoid W] [LinearOrder P] in
/-- The arguments for which there is a C++ cost model: sparse indices of the tree, and a positive whole number of projections. -/
theorem core_iff {enum : Finset ι → List ι} (he : EnumOk enum) {m : PyCost ι} {order : List ι} :
    (∃ c, m.core enum order = .ok c) ↔ m.sparseSet ⊆ order.toFinset ∧ (m.sparseSet ≠ ∅ → ∃ n : ℕ, 0 < n ∧ m.nProjs = some (.int n)) := by
  constructor
  · rintro ⟨c, hc⟩
    obtain ⟨n, h0, hp, hS⟩ := core_inv hc
    refine ⟨fun x hx => by simpa using hS x hx, fun hne => ⟨n, h0, ?_⟩⟩
    unfold PyCost.sparseSet at hne
    cases h : m.sparse with
    | none => rw [h] at hne; exact absurd rfl hne
    | some s => rw [h] at hne; exact hp s h hne
  · rintro ⟨hS, hp⟩
    by_cases hne : m.sparseSet = ∅
    · obtain ⟨c, hc, -⟩ := core_cost he (m := m) (n := 1) one_pos (order := order)
        (by intro s hs hs'; unfold PyCost.sparseSet at hne; rw [hs] at hne; exact absurd hne hs')
        (fun x hx => by simpa using hS hx) (d := fun x => (Dims.int 1).get (order.idxOf x)) (D := .int 1) (fun _ _ => rfl)
      exact ⟨c, hc⟩
    · obtain ⟨n, h0, hn⟩ := hp hne
      obtain ⟨c, hc, -⟩ := core_cost he (m := m) (n := n) h0 (order := order) (fun _ _ _ => hn)
        (fun x hx => by simpa using hS hx) (d := fun x => (Dims.int 1).get (order.idxOf x)) (D := .int 1) (fun _ _ => rfl)
      exact ⟨c, hc⟩

omit [AddCommGroup W] [LinearOrder W] [IsOrderedAddMonoid W] in
theorem inf_build_iff {enum : Finset ι → List ι} {t : PyTree ι} {t0 : PTree} {out : ISet} (hp : PathTree t t0 out) {m : PyCost ι} {c : CostCore}
    (hc : m.core enum t.indsOrder = .ok c) (seed : σ) (dis : Bool) :
    ∃ r, InfObj.build m c t seed dis none = some r ∧ ((∃ o, r = .ok o) ↔ t.core.isValid (!dis) = true ∧ t.core.tree.size ≠ 1) ∧ ((∃ o, r = .ok o) ∨ r = .error .valueError) := by
  obtain ⟨r, hr, hiff⟩ := infMake_iff (m := c.model t.core.dims) seed dis hp.wf hp.exact (n := t.core.nInds) hp.tidy.clean.inds_lt
    (fun s hs => core_pos hc ((ctree_isValid_iff hp.wf _).1 hp.valid).1 hs)
  unfold InfObj.build
  rw [Option.map_none, hr]
  cases r with
  | error e =>
    simp only [reduceCtorEq, exists_false, false_iff] at hiff
    exact ⟨_, rfl, by simp [hiff], .inr rfl⟩
  | ok o =>
    simp only [Except.ok.injEq, exists_eq', true_iff] at hiff
    exact ⟨_, rfl, by simp [hiff], .inl ⟨_, rfl⟩⟩

theorem fw_build_iff {g : FwPrng σ P} {log2 : ℕ → W} (hlog : ∀ n, 0 ≤ log2 n) {enum : Finset ι → List ι} {t : PyTree ι} {t0 : PTree} {out : ISet}
    (hp : PathTree t t0 out) {m : PyFwCost ι W} {c : CostCore} (hc : m.core enum t.indsOrder = .ok c) {w : WidthModel W}
    (hw : c.widthModel log2 t.core.dims m.maxWidth = some w) {k : FwKw ι σ} (hk : k.Plain) {skip : Finset ι} (hs : skip ⊆ t.indsOrder.toFinset)
    (hskip : ∀ q < t.core.tree.size, w.width (t.core.inds q ∩ skip.image t.indsOrder.idxOf) ≤ w.maxWidth) :
    ∃ r, FwObj.build g log2 enum t m k skip = some r ∧ ((∃ o, r = .ok o) ↔ t.core.isValid (!k.dis) = true ∧ t.core.tree.size ≠ 1) ∧
      ((∃ o, r = .ok o) ∨ r = .error .valueError) := by
  obtain ⟨r, hr, hiff⟩ := fwMake_iff (g := g) (m := c.model t.core.dims) hlog k.maxNew k.seed k.dis _ (widthModel_spec hw).2.2 hp.wf hp.exact (n := t.core.nInds)
    hp.tidy.clean.inds_lt (fun s hs => core_pos hc ((ctree_isValid_iff hp.wf _).1 hp.valid).1 hs) hskip
  rw [fw_build_eq hk hs hc hw, hr]
  cases r with
  | error e =>
    simp only [reduceCtorEq, exists_false, false_iff] at hiff
    exact ⟨_, rfl, by simp [hiff], .inr rfl⟩
  | ok o =>
    simp only [Except.ok.injEq, exists_eq', true_iff] at hiff
    exact ⟨_, rfl, by simp [hiff], .inl ⟨_, rfl⟩⟩

/-- The skipped indices, by bits and by name. -/
theorem skip_fits {log2 : ℕ → W} (hlog : ∀ n, 0 ≤ log2 n) {enum : Finset ι → List ι} (he : EnumOk enum) {t : PyTree ι} {t0 : PTree} {out : ISet}
    (hp : PathTree t t0 out) {m : PyFwCost ι W} {c : CostCore} (hc : m.core enum t.indsOrder = .ok c) {skip : Finset ι} (hs : skip ⊆ t.indsOrder.toFinset) (q : ℕ) :
    m.width log2 enum (enum (t.inds q ∩ skip)) t.dims = .ok (c.width log2 t.core.dims (t.core.inds q ∩ skip.image t.indsOrder.idxOf)) ∧
    (skipTooWide log2 enum m t skip (List.range t.core.tree.size) = .ok false ↔
      ∀ q < t.core.tree.size, c.width log2 t.core.dims (t.core.inds q ∩ skip.image t.indsOrder.idxOf) ≤ m.maxWidth) ∧
    (skipTooWide log2 enum m t skip (List.range t.core.tree.size) = .ok true ∨ skipTooWide log2 enum m t skip (List.range t.core.tree.size) = .ok false) := by
  have hok := ((ctree_isValid_iff hp.wf _).1 hp.valid).1
  have hb : ∀ q, (nameSet t.indsOrder (t.core.inds q) ∩ skip).image t.indsOrder.idxOf = t.core.inds q ∩ skip.image t.indsOrder.idxOf := fun q =>
    skip_bits hp.tidy.nodup (hp.tidy.len ▸ hp.tidy.clean.inds_lt q) hs
  refine ⟨?_, ?_, ?_⟩
  · rw [show t.inds q = nameSet t.indsOrder (t.core.inds q) from (nameSet_inds t hp.tidy.len.symm q).symm,
      width_core he hlog hc (D := t.core.dims) (dims := t.dims) (fun x hx => dimOf_get hp.tidy.len hok hx)
        (fun x hx => nameSet_sub _ x (Finset.mem_inter.1 hx).1), hb]
  · rw [skipTooWide_ok he hlog hp.tidy hok hc]
    simp only [Except.ok.injEq, List.any_eq_false, List.mem_range, decide_eq_true_eq, not_lt, hb]
  · rw [skipTooWide_ok he hlog hp.tidy hok hc]
    generalize List.any _ _ = b
    cases b <;> simp

omit [AddCommGroup W] [LinearOrder W] [IsOrderedAddMonoid W] [LinearOrder P] in
theorem core_unknown {enum : Finset ι → List ι} {m : PyCost ι} {order : List ι} (h : ¬ m.sparseSet ⊆ order.toFinset) :
    m.core enum order = .error .valueError := by
  unfold PyCost.core
  unfold PyCost.sparseSet at h
  cases hs : m.sparse with
  | none => rw [hs] at h; exact absurd (Finset.empty_subset _) h
  | some s =>
    rw [hs] at h
    have h' : ¬ s ⊆ order.toFinset := h
    have : s ≠ ∅ := by rintro rfl; exact h' (Finset.empty_subset _)
    simp only [this, if_false, h', not_false_eq_true, if_true]

omit [AddCommGroup W] [LinearOrder W] [IsOrderedAddMonoid W] [LinearOrder P] in
theorem core_float {enum : Finset ι → List ι} (he : EnumOk enum) {m : PyCost ι} {order : List ι} (h1 : m.sparseSet ⊆ order.toFinset) (h2 : m.sparseSet ≠ ∅)
    (h3 : ∀ n, m.nProjs ≠ some (.int n)) : m.core enum order = .error .typeError := by
  unfold PyCost.core
  unfold PyCost.sparseSet at h1 h2
  cases hs : m.sparse with
  | none => rw [hs] at h2; exact absurd rfl h2
  | some s =>
    rw [hs] at h1 h2
    have h1' : s ⊆ order.toFinset := h1
    have h2' : s ≠ ∅ := h2
    have hb := bitsIn_ok (order := order) (he s).1 (fun x hx => by simpa using h1' (((he s).2 x).1 hx))
    have hp : projsArg m.nProjs = .error .typeError := by
      unfold projsArg
      split
      · next h => exact absurd h (h3 _)
      · next h => exact absurd h (h3 _)
      · rfl
    simp only [h2', if_false, h1', not_true_eq_false, hb, hp]

end
end TNCO
