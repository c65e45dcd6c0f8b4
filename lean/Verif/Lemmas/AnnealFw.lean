import Verif.Lemmas.AnnealTotal
import Verif.Props.FiniteWidth

/-! One path in the finite-width app. -/

namespace TNCO
open PTree

variable {ι τ σ P V W : Type} [DecidableEq ι] [LinearOrder P] [AddCommGroup W] [LinearOrder W] [IsOrderedAddMonoid W]

theorem nameSet_sum {M : Type} [AddCommMonoid M] {order : List ι} (hnd : order.Nodup) {s : ISet} (hs : s ⊆ Finset.range order.length) {f : ι → M} {h : ℕ → M}
    (hf : ∀ (j : ℕ) x, order[j]? = some x → f x = h j) : ∑ x ∈ nameSet order s, f x = ∑ j ∈ s, h j := by
  symm
  refine Finset.sum_bij (fun j hj => order[j]'(by simpa using hs hj)) ?_ ?_ ?_ ?_
  · intro j hj
    exact mem_nameSet.2 ⟨j, hj, List.getElem?_eq_getElem _⟩
  · intro a ha b hb e
    exact (List.Nodup.getElem_inj_iff hnd).1 e
  · intro x hx
    obtain ⟨j, hj, hjx⟩ := mem_nameSet.1 hx
    refine ⟨j, hj, ?_⟩
    obtain ⟨h1, h2⟩ := List.getElem?_eq_some_iff.1 hjx
    exact h2
  · intro j hj
    exact (hf j _ (List.getElem?_eq_getElem _)).symm

/-- The width model of the app, by names. -/
theorem widthCore_get {cm : PyCM ι} {log2 : ℕ → W} {maxWidth : W} {order : List ι} {dims : Dims} {wm : WidthModel W}
    (h : cm.widthCore log2 maxWidth order dims = .ok wm) (hnd : order.Nodup)
    {d : ι → ℕ} (hd : ∀ (j : ℕ) x, order[j]? = some x → d x = dims.get j) :
    wm.maxWidth = maxWidth ∧ ((∃ mw, simpleWidthModel log2 dims mw = some wm) ∨
        ∃ mw sparse nProjs, sparseWidthModel log2 dims mw sparse nProjs = some wm) ∧
      ∀ s, s ⊆ Finset.range order.length → wm.width s = nameWidth log2 d (cm.sparse.getD ∅) (cm.nProjs.getD 0).toNat (nameSet order s) := by
  unfold PyCM.widthCore at h
  unfold nameWidth
  simp only at h
  split at h
  · next h0 =>
    simp only [if_pos h0]
    split at h
    · cases h
    · next m hm =>
      cases h
      refine ⟨?_, Or.inl ⟨_, hm⟩, fun s hs => ?_⟩
      · unfold simpleWidthModel at hm
        split at hm
        · cases hm
        · cases hm; rfl
      · unfold simpleWidthModel at hm
        split at hm
        · cases hm
        · cases hm
          simp only [simpleWidth_eq_sum]
          rw [nameSet_sum hnd hs (f := fun x => log2 (d x)) (h := fun j => log2 (dims.get j)) fun j x hj => by simp only [hd j x hj]]
  · next h0 =>
    simp only [if_neg h0]
    split at h
    · cases h
    next hsub =>
    push Not at hsub
    split at h
    · cases h
    · next m hm =>
      cases h
      refine ⟨?_, Or.inr ⟨_, _, _, hm⟩, fun s hs => ?_⟩
      · unfold sparseWidthModel at hm
        split at hm
        · cases hm
        · split at hm
          · cases hm
          · cases hm; rfl
      · unfold sparseWidthModel at hm
        split at hm
        · cases hm
        · split at hm
          · cases hm
          cases hm
          simp only [sparseWidth, simpleWidth_eq_sum, minW_eq]
          have key := fun (s : ISet) (hs : s ⊆ Finset.range order.length) => nameSet_sum hnd hs (f := fun x => log2 (d x))
            (h := fun j => log2 (dims.get j)) fun j x hj => by simp only [hd j x hj]
          rw [← key _ (Finset.sdiff_subset.trans hs), ← key _ (Finset.inter_subset_left.trans hs),
            nameSet_inter hnd, nameSet_sdiff hnd, nameSet_image hsub]

/-- The Python constructor accepts valid trees with positive costs if no index must be kept. -/
theorem fwMake_ok {R : Type} [AddCommGroup R] [LinearOrder R] [IsOrderedAddMonoid R] {g : FwPrng σ P} {m : CostModel R} {log2 : ℕ → W}
    (hlog : ∀ n, 0 ≤ log2 n) {wm : WidthModel W} {c : CTree} {t : PTree} {seed : σ}
    (hwm : OfferedWidth log2 c.dims wm) (hwf : WellFormed c.tree t) (hv : c.isValid true = true) (hsz : c.tree.size ≠ 1) {n : ℕ}
    (hin : ∀ p, c.inds p ⊆ Finset.range n) (hpos : ∀ s, s ⊆ Finset.range n → 0 < m.get s) :
    ∃ o, FwOpt.pyMake g m wm c 0 seed false ∅ none none none = some (.ok o) := by
  obtain ⟨hlaw, h0, hsub⟩ := offered_lawful hlog hwm
  have hw0 : wm.width ∅ ≤ wm.maxWidth := (hsub ∅).trans (by simpa using h0)
  obtain ⟨S, s', hS, hS1, -, hS3⟩ := C21_get_slices g log2 hlog wm c hwm none ⟨t, hwf⟩ seed
  have hSr : S ⊆ Finset.range n := by
    intro x hx
    obtain ⟨p, -, hxp, -⟩ := hS1 x hx
    exact hin p hxp
  have hfit := hS3 (by intro p _; simpa using hw0)
  have hcost : 0 < treeCost (m.sliced S).get c.inds t :=
    treeCost_pos (m := m.sliced S) (n := n) (fun s hs => hpos _ (Finset.union_subset hs hSr)) hin hwf hsz
  obtain ⟨hd, hloc, hsh⟩ := (ctree_isValid_iff hwf _).1 hv
  obtain ⟨k, hk, k1, k2, k3⟩ := costCache_make (m := m.sliced S) hwf hloc (fuel := c.fuel) (le_refl _)
  have hg := getCost_eq (m := m.sliced S) hwf hloc (fuel := c.fuel) (le_refl _)
  have htot := cache_total (m := m.sliced S) hwf k1 k2 k3
  unfold FwOpt.pyMake FwOpt.pyMakeWith
  rw [if_neg (by
    simp only [List.any_eq_true, List.mem_range, decide_eq_true_eq, not_exists, not_and, not_lt, Finset.inter_empty]
    intro p _; exact hw0)]
  have hall : allFit wm c S = true := by
    unfold allFit
    simp only [List.all_eq_true, List.mem_range, decide_eq_true_eq]
    exact hfit
  unfold FwOpt.makeWith
  simp only [Option.getD_none, Bool.not_false, hv, hk, hg, bind, pure, Option.bind_some, Bool.not_true, Bool.or_self,
    Bool.false_eq_true, if_false, if_true, initSlices, hS, hall]
  rw [if_neg]
  · exact ⟨_, rfl⟩
  · unfold InfOpt.totalCost
    simp only [htot]
    push Not
    exact ⟨hcost, hcost⟩

/-- The history of updates with their numbers. -/
def fwSteps (E : SaEnv ι τ σ P V) (updateSlices : ℤ) (n : ℕ) (bs : List ℚ) : List ((ℤ → ℤ → P) × Bool) :=
  (bs.zipIdx n).map fun x => (E.prob x.1, sliceTurn x.2 updateSlices)

theorem runN_fw (E : SaEnv ι τ σ P V) (N : NetworkRec ι) (cm : PyCM ι) (log2W : ℕ → W) (maxWidth : W) {us : ℤ} (hus : us ≠ 0) (bs : List ℚ) :
    ∀ (n : ℕ) (o : FwRun ι σ W) (c : FwOpt σ ℤ W), o.opt.core.run E.prng o.cm o.wm (fwSteps E us n bs) = .ok c →
    (fwAnneal E N cm log2W maxWidth us).runN n bs o = some (.ok { o with opt := { o.opt with core := c } }) := by
  induction bs with
  | nil => intro n o c h; cases h; rfl
  | cons b bs ih =>
    intro n o c h
    simp only [fwSteps, List.zipIdx_cons, List.map_cons, FwOpt.run] at h
    cases hu : o.opt.core.update E.prng o.cm o.wm (E.prob b) (sliceTurn n us) with
    | error e => rw [hu] at h; cases h
    | ok c1 =>
      rw [hu] at h
      have hu' : (fwAnneal E N cm log2W maxWidth us).update n b o = some (.ok { o with opt := { o.opt with core := c1 } }) := by
        simp only [fwAnnealWith, hus, if_false, hu]
      simp only [Anneal.runN, hu']
      exact ih (n + 1) { o with opt := { o.opt with core := c1 } } c h

/-- The parts of a bracketing of a tree. -/
theorem Term.Same.sub {a b : Term} (h : a.Same b) {s : Term} (hs : Term.Sub s a) : ∃ s', Term.Sub s' b ∧ s.Same s' := by
  induction h with
  | tensor i => cases hs; exact ⟨_, .refl, .tensor i⟩
  | pair h1 h2 ih1 ih2 =>
    cases hs with
    | refl => exact ⟨_, .refl, .pair h1 h2⟩
    | left h => obtain ⟨s', a, b⟩ := ih1 h; exact ⟨s', .left a, b⟩
    | right h => obtain ⟨s', a, b⟩ := ih2 h; exact ⟨s', .right a, b⟩
  | swap h1 h2 ih1 ih2 =>
    cases hs with
    | refl => exact ⟨_, .refl, .swap h1 h2⟩
    | left h => obtain ⟨s', a, b⟩ := ih1 h; exact ⟨s', .right a, b⟩
    | right h => obtain ⟨s', a, b⟩ := ih2 h; exact ⟨s', .left a, b⟩

theorem toTerm_sub {f : ℕ → ℕ} {s : Term} {t : PTree} (h : Term.Sub s (t.toTerm f)) : ∃ t', (∃ K : Ctx, t = K.plug t') ∧ s = t'.toTerm f := by
  suffices H : ∀ (t : PTree) (T : PTree) (K : Ctx), T = K.plug t → Term.Sub s (t.toTerm f) → ∃ t', (∃ K : Ctx, T = K.plug t') ∧ s = t'.toTerm f from
    H t t .top rfl h
  intro t
  induction t with
  | leaf p =>
    intro T K hT h
    cases h
    exact ⟨_, ⟨K, hT⟩, rfl⟩
  | node p l r ihl ihr =>
    intro T K hT h
    have hl : T = (Ctx.frame true p r K).plug l ∨ T = (Ctx.frame false p r K).plug l := by
      simp only [Ctx.plug, fork]; simp [hT]
    have hr : T = (Ctx.frame true p l K).plug r ∨ T = (Ctx.frame false p l K).plug r := by
      simp only [Ctx.plug, fork]; simp [hT]
    obtain ⟨Kl, hl⟩ : ∃ K, T = Ctx.plug K l := by rcases hl with h | h <;> exact ⟨_, h⟩
    obtain ⟨Kr, hr⟩ : ∃ K, T = Ctx.plug K r := by rcases hr with h | h <;> exact ⟨_, h⟩
    simp only [toTerm] at h
    cases h with
    | refl => exact ⟨_, ⟨K, hT⟩, rfl⟩
    | left h => exact ihl T Kl hl h
    | right h => exact ihr T Kr hr h

/-- All the tensors of a tree fit: so do those of its path. -/
theorem over_fits {tsInds : List (List ι)} {out : Finset ι} {pt : PyTree ι} (hc : Component tsInds out pt) {c : CTree} {T : PTree} (ho : Over pt c T)
    (hin : ∀ p, c.inds p ⊆ Finset.range pt.indsOrder.length) {S : ISet} {wm : WidthModel W} {width : Finset ι → W}
    (hw : ∀ s, s ⊆ Finset.range pt.indsOrder.length → wm.width s = width (nameSet pt.indsOrder s))
    (hfit : ∀ p < c.tree.size, wm.width (c.inds p \ S) ≤ wm.maxWidth)
    {path : List (ℕ × ℕ)} {F : List Term} {u : Term} (hF : replay (initTerms tsInds.length) path = some F)
    (hu : F.filter Term.isPair = [u]) (hs : u.Same (T.toTerm fun p => pt.tensorsPos.getD p 0)) :
    PathFits width wm.maxWidth tsInds out (nameSet pt.indsOrder S) path := by
  intro a b hab
  obtain ⟨v, hv, hsub⟩ := trace_sub hF (Or.inr hab)
  have hvu : v = u := by
    have : v ∈ F.filter Term.isPair := List.mem_filter.2 ⟨hv, Term.Sub.isPair hsub rfl⟩
    rw [hu] at this
    simpa using this
  subst hvu
  have key : ∀ s, Term.Sub s v → width (termInds tsInds out s \ nameSet pt.indsOrder S) ≤ wm.maxWidth := by
    intro s hsv
    obtain ⟨s', h1, h2⟩ := hs.sub hsv
    obtain ⟨t', ⟨K, hK⟩, rfl⟩ := toTerm_sub h1
    rw [termInds_congr h2.tensors, ← hc.names ho hK, ← nameSet_sdiff hc.order, ← hw _ (Finset.sdiff_subset.trans (hin _))]
    refine hfit _ ((ho.wf.mem _).1 ?_)
    rw [hK, (Ctx.postorder_plug K t').mem_iff]
    simp [root_mem]
  exact ⟨key a (Term.Sub.trans (.left .refl) hsub), key b (Term.Sub.trans (.right .refl) hsub), key _ hsub⟩

theorem ofBits_names {order : List ι} {n : ℕ} (hl : order.length = n) (S : ISet) : ofBits order n S = some (nameSet order S) := by
  obtain ⟨l, h1, -, h3⟩ := namesOf_eq hl S
  simp only [ofBits, h1, Option.map_some, Option.some.injEq]
  ext x
  rw [List.mem_toFinset, h3, mem_nameSet]
  constructor
  · rintro ⟨i, h, hi, rfl⟩; exact ⟨i, hi, List.getElem?_eq_getElem h⟩
  · rintro ⟨i, hi, h⟩
    obtain ⟨h, e⟩ := List.getElem?_eq_some_iff.1 h
    exact ⟨i, h, hi, e⟩

/-- The constructor succeeds. -/
theorem fw_make (E : SaEnv ι τ σ P V) {N : NetworkRec ι} {cm : PyCM ι} (hN : N.Plain) (he : EnumOk E.enum) (hcm : cm.Ok)
    {log2W : ℕ → W} (hlog : ∀ n, 0 ≤ log2W n) {maxWidth : W} (hmw : 0 ≤ maxWidth) (us : ℤ)
    {paths : List (List (ℕ × ℕ))} (hP : PartPaths N.tsInds paths) {p : List (ℕ × ℕ)} (hp : p ∈ paths) (hne : p ≠ [])
    (hsp : ∀ x ∈ cm.sparse.getD ∅, ∃ k, Touches N.tsInds.length p k ∧ x ∈ N.tsInds.getD k []) (seed : ℕ) :
    ∃ o, (fwAnneal E N cm log2W maxWidth us).make seed p = some (.ok o) := by
  obtain ⟨pt, T, F, u, hpt, hc, ho, hti, hv, hd, hF, hu, hTu, htch, hord⟩ := part_tree hN he hP hp hne
  have hspo : cm.sparse.getD ∅ ⊆ pt.indsOrder.toFinset := by
    intro x hx
    rw [List.mem_toFinset, hord]
    exact hsp x hx
  obtain ⟨m, hm⟩ : ∃ m, cm.core pt.indsOrder pt.core.dims = .ok m := by
    unfold PyCM.core
    simp only
    split
    · exact ⟨_, rfl⟩
    next h0 =>
    unfold sparseModel
    rw [if_neg (by have := hcm h0; omega)]
    exact ⟨_, rfl⟩
  obtain ⟨wm, hwm⟩ : ∃ wm, cm.widthCore log2W maxWidth pt.indsOrder pt.core.dims = .ok wm := by
    unfold PyCM.widthCore
    simp only
    split
    · unfold simpleWidthModel
      rw [if_neg (not_lt.2 hmw)]
      exact ⟨_, rfl⟩
    next h0 =>
    unfold sparseWidthModel
    rw [if_neg (not_lt.2 hmw), if_neg (by have := hcm h0; omega)]
    exact ⟨_, rfl⟩
  obtain ⟨-, hoff, -⟩ := widthCore_get hwm hc.order hd
  simp only [fwAnnealWith, hpt, hm, hwm, PyFw.make]
  have htb : toBits pt.indsOrder (∅ : Finset ι) = some ∅ := by simp [toBits]
  obtain ⟨o, ho'⟩ := fwMake_ok (g := E.prng) (m := m) hlog (seed := E.prngSeed seed) hoff ho.wf hv (part_size ho hu hTu) (n := pt.core.nInds)
    (fun q => hti.clean.inds_lt q) (fun s hs => inf_pos hN hcm hc hd (fun x hx => (hord x).1 hx |>.imp fun k h => h.2) hm hs)
  simp only [htb, Option.mapM_none, Option.map_none, pure, ho']
  exact ⟨_, rfl⟩

/-- What comes out for a path, after any number of updates. -/
theorem fw_part (E : SaEnv ι τ σ P V) {N : NetworkRec ι} {cm : PyCM ι} (hN : N.Plain) (he : EnumOk E.enum) (hcm : cm.Ok)
    {log2W : ℕ → W} (hlog : ∀ n, 0 ≤ log2W n) {maxWidth : W} {us : ℤ} (hus : us ≠ 0)
    {paths : List (List (ℕ × ℕ))} (hP : PartPaths N.tsInds paths) {p : List (ℕ × ℕ)} (hp : p ∈ paths) (hne : p ≠ []) {seed : ℕ}
    {o : FwRun ι σ W} (hmk : (fwAnneal E N cm log2W maxWidth us).make seed p = some (.ok o)) (n : ℕ) (bs : List ℚ) :
    ∃ o' k, (fwAnneal E N cm log2W maxWidth us).runN n bs o = some (.ok o') ∧ (fwAnneal E N cm log2W maxWidth us).finish o' = some (.ok k) ∧
      FwPiece (N.cost cm) (N.width cm log2W) maxWidth N.tsInds N.output p k := by
  obtain ⟨pt, T, F, u, hpt, hc, ho, hti, hv, hd, hF, hu, hTu, htch, hord⟩ := part_tree hN he hP hp hne
  simp only [fwAnnealWith, hpt] at hmk
  split at hmk
  rotate_left
  · cases hmk
  · cases hmk
  next m wm hm hwm =>
  obtain ⟨hmw, hoff, hw⟩ := widthCore_get hwm hc.order hd
  have htb : toBits pt.indsOrder (∅ : Finset ι) = some ∅ := by simp [toBits]
  simp only [PyFw.make, htb, Option.mapM_none, Option.map_none, pure] at hmk
  cases hoc : FwOpt.pyMake E.prng m wm pt.core 0 (E.prngSeed seed) false ∅ none none none with
  | none => rw [hoc] at hmk; simp [ShipErr.toPy] at hmk
  | some r =>
  cases r with
  | error e => rw [hoc] at hmk; simp [ShipErr.toPy] at hmk
  | ok oc =>
  rw [hoc] at hmk
  simp only [Option.some.injEq, Except.ok.injEq] at hmk
  subst hmk
  have hpos := fun s hs => inf_pos hN hcm hc hd (fun x hx => (hord x).1 hx |>.imp fun k h => h.2) hm (s := s) hs
  have hoff' : OfferedWidth log2W pt.core.dims wm := hoff
  have hsz := part_size ho hu hTu
  have key : ∀ qs o1, oc.run E.prng m wm qs = .ok o1 → ∃ T1, Over pt o1.inf.ctree T1 ∧ o1.inf.ctree.Tidy pt.indsOrder ∧
      o1.inf.ctree.isValid false = true ∧ o1.inf.ctree.dims = pt.core.dims ∧ o1.inf.ctree.nInds = pt.core.nInds ∧
      o1.slices ⊆ Finset.range pt.core.nInds ∧
      o1.inf.totalCost = treeCost (fun X => m.get (X ∪ o1.slices)) o1.inf.ctree.inds T1 := by
    intro qs o1 h1
    obtain ⟨cl, ti, -, -, hvf, hdm, hni, -⟩ := fw_state hlog hoff' hti ho.wf ho.exact hpos hoc h1
    obtain ⟨T1, wf, sz, lf, -, ex, -, tc, -⟩ := C24_caches_exact E.prng m log2W hlog wm pt.core 0 (E.prngSeed seed) false ∅ none none none
      oc o1 qs T _ hoff' ho.wf ho.exact (by simp) hoc h1
    exact ⟨T1, ⟨wf, sz, lf, ex⟩, ti, hvf, hdm, hni, by rw [← hni]; exact cl.slices_lt, tc⟩
  obtain ⟨o', hrun⟩ := C25_no_crash_partial E.prng m log2W hlog wm pt.core 0 (E.prngSeed seed) false ∅ none none none oc (fwSteps E us n bs)
    hoff' ⟨T, ho.wf⟩ (by simp) hoc (Or.inl rfl)
  obtain ⟨hmin, hmt, hle⟩ := C24_min E.prng m log2W hlog wm pt.core 0 (E.prngSeed seed) false ∅ none none none oc o' _ T _ hoff' ho.wf ho.exact
    (by simp) hoc hrun
  have hmodel : (∃ mw, simpleWidthModel log2W pt.core.dims mw = some wm) ∨
      ∃ mw sparse nProjs, sparseWidthModel log2W pt.core.dims mw sparse nProjs = some wm ∧ (0 = 0 ∨ sparse ⊆ ∅) :=
    hoff.imp id fun ⟨mw, sp, n, h⟩ => ⟨mw, sp, n, h, Or.inl rfl⟩
  have hfit := fun qs o1 h1 => (C22_width_limit_partial E.prng m log2W hlog wm pt.core 0 (E.prngSeed seed) false ∅ none none none oc o1 qs
    ⟨T, ho.wf⟩ (by simp) hoc h1 hmodel).1
  have hoc0 := (pyMake_inv (offered_lawful hlog hoff').1 ho.wf (by simp) hoc (out? := none) (by simp)).2.1
  obtain ⟨qs, o1, hq, hmo, hso⟩ : ∃ qs o1, oc.run E.prng m wm qs = .ok o1 ∧ o'.inf.minCtree = o1.inf.ctree ∧ o'.minSlices = o1.slices := by
    rcases hmin with ⟨h, h'⟩ | ⟨p1, p2, o1, -, -, h1, h2, h3⟩
    · exact ⟨[], oc, rfl, by rw [h, hoc0]; rfl, h'⟩
    · exact ⟨p1, o1, h1, h2, h3⟩
  obtain ⟨T1, ho1, ht1, hv1, hd1, hn1, hs1, hc1⟩ := key qs o1 hq
  have hmt1 : o'.inf.minTotal = o1.inf.totalCost := by
    obtain ⟨-, -, -, -, -, -, -, -, h1, -⟩ := C24_caches_exact E.prng m log2W hlog wm pt.core 0 (E.prngSeed seed) false ∅ none none none
      oc o1 qs T _ hoff' ho.wf ho.exact (by simp) hoc hq
    rw [hmo, hso, h1] at hmt
    exact (Option.some.inj hmt).symm
  obtain ⟨-, -, -, -, -, -, hni', -⟩ := fw_state hlog hoff' hti ho.wf ho.exact hpos hoc hrun
  obtain ⟨path, F', u', hpath, hF', hu', hsame, htch'⟩ := part_path hc ho1 (by rw [ho1.size]; exact hsz)
  have hct : getCtree pt.cache o'.inf.minCtree = .ok ⟨o1.inf.ctree, pt.nTensors, pt.tensorsPos, pt.indsOrder⟩ := by
    rw [hmo]
    obtain ⟨names, hn1, hn2, hn3⟩ := names_mapM (c := o1.inf.ctree) (order := pt.indsOrder) ht1.len
    have h2 := ofNodes_tidy ht1 hv1 ho1.wf.linked.pos names pt.nTensors pt.tensorsPos hn2 hn3
    unfold getCtree
    simp only [PyTree.cache, hn1]
    rw [hd1] at h2
    exact h2
  have hlen : pt.core.nInds = pt.indsOrder.length := hc.nInds
  have hsl : ofBits pt.cache.indsOrder o'.inf.ctree.nInds o'.minSlices = some (nameSet pt.indsOrder o1.slices) := by
    rw [hso]
    exact ofBits_names (by rw [hni', hlen]; rfl) _
  rw [hlen] at hs1
  have hin1 : ∀ q, o1.inf.ctree.inds q ⊆ Finset.range pt.indsOrder.length := fun q => by rw [ht1.len]; exact ht1.clean.inds_lt q
  have hin0 : ∀ q, pt.core.inds q ⊆ Finset.range pt.indsOrder.length := fun q => by rw [hti.len]; exact hti.clean.inds_lt q
  obtain ⟨T0, ho0, -, -, -, -, hs0, hc0⟩ := key [] oc rfl
  rw [hlen] at hs0
  have hTT : T0 = T := ho0.wf.tree_eq (by rw [hoc0]; exact ho.wf)
  rw [hTT, hoc0] at hc0
  have hcost := over_cost hc hd hm ho1 hin1 hs1 hF' hu' hsame
  have hini := over_cost hc hd hm ho hin0 hs0 hF hu (hTu ▸ Term.same_rfl u)
  refine ⟨_, ⟨o'.inf.minTotal, path, nameSet pt.indsOrder o1.slices⟩, runN_fw E N cm log2W maxWidth hus bs n _ o' hrun, ?_,
    ⟨⟨F', hF', by rw [hu']; simp⟩, fun k => ?_⟩, ?_, ?_, ?_, fun e => (hne e).elim, nameSet pt.indsOrder oc.slices, ?_, ?_⟩
  · simp only [fwAnnealWith, hct, hsl, hpath, Option.map_some]; rfl
  · rw [htch', htch]
  · rw [← hcost, hmt1, hc1]
  · rw [← hmw]
    exact over_fits hc ho1 hin1 hw (hfit qs o1 hq) hF' hu' hsame
  · intro x hx
    obtain ⟨i, -, hi⟩ := mem_nameSet.1 hx
    obtain ⟨k, hk, hxk⟩ := (hord x).1 (List.mem_of_getElem? hi)
    exact ⟨k, (htch' k).2 ((htch k).1 hk), hxk⟩
  · rw [← hmw]
    refine over_fits hc ho hin0 hw ?_ hF hu (hTu ▸ Term.same_rfl u)
    have := hfit [] oc rfl
    rw [hoc0] at this
    exact this
  · rw [← hini, ← hc0]
    exact (hle [] _ oc rfl rfl).2 (Or.inr ⟨rfl, rfl⟩)

/-- All the parts. -/
theorem fw_pieces (E : SaEnv ι τ σ P V) {N : NetworkRec ι} {cm : PyCM ι} (hN : N.Plain) (he : EnumOk E.enum) (hcm : cm.Ok)
    {log2W : ℕ → W} (hlog : ∀ n, 0 ≤ log2W n) {maxWidth : W} {us : ℤ} (hus : us ≠ 0)
    {paths : List (List (ℕ × ℕ))} (hP : PartPaths N.tsInds paths) {betas : List ℚ} {L seed : ℕ} {ps : List (List (ℕ × ℕ))} {ks : List (FwPart ι)}
    (hsub : ∀ p ∈ ps, p ∈ paths) (h : AnyParts (fwAnneal E N cm log2W maxWidth us) betas L seed ps ks) :
    List.Forall₂ (FwPiece (N.cost cm) (N.width cm log2W) maxWidth N.tsInds N.output) ps ks := by
  induction h with
  | nil => exact .nil
  | empty _ ih =>
    refine .cons ⟨sameTouch_nil _, rfl, ?_, fun x hx => absurd hx (Finset.notMem_empty x), fun _ => rfl, ∅, ?_, le_refl _⟩ (ih fun p hp => hsub p (List.mem_cons_of_mem _ hp))
    · intro a b hab; cases hab
    · intro a b hab; cases hab
  | @path p ps k ks o o' j h1 h2 h3 h4 h5 _ ih =>
    refine .cons ?_ (ih fun p hp => hsub p (List.mem_cons_of_mem _ hp))
    obtain ⟨o2, k2, g1, g2, g3⟩ := fw_part E hN he hcm hlog hus hP (hsub p List.mem_cons_self) h1 h2 0 (betas.take j)
    rw [h4] at g1
    cases g1
    rw [h5] at g2
    cases g2
    exact g3

/-- Slicing more indices makes no tensor larger. -/
theorem nameWidth_mono {log2 : ℕ → W} (hlog : ∀ n, 0 ≤ log2 n) {d : ι → ℕ} {sparse : Finset ι} {n : ℕ} {s t : Finset ι} (h : s ⊆ t) :
    nameWidth log2 d sparse n s ≤ nameWidth log2 d sparse n t := by
  have key : ∀ s t : Finset ι, s ⊆ t → ∑ x ∈ s, log2 (d x) ≤ ∑ x ∈ t, log2 (d x) := fun s t h =>
    Finset.sum_le_sum_of_subset_of_nonneg h fun _ _ _ => hlog _
  unfold nameWidth
  split
  · exact key _ _ h
  · exact add_le_add (key _ _ (Finset.sdiff_subset_sdiff h (Finset.Subset.refl _))) (min_le_min (key _ _ (Finset.inter_subset_inter_right h)) le_rfl)

theorem foldl_union (ss : List (Finset ι)) : ∀ (s : Finset ι) x, x ∈ ss.foldl (· ∪ ·) s ↔ ∃ r ∈ s :: ss, x ∈ r := by
  induction ss with
  | nil => intro s x; simp
  | cons a ss ih =>
    intro s x
    simp only [List.foldl_cons, ih, List.mem_cons, Finset.mem_union]
    constructor
    · rintro ⟨r, rfl | hr, hx⟩
      · rcases Finset.mem_union.1 hx with h | h
        · exact ⟨s, Or.inl rfl, h⟩
        · exact ⟨a, Or.inr (Or.inl rfl), h⟩
      · exact ⟨r, Or.inr (Or.inr hr), hx⟩
    · rintro ⟨r, rfl | rfl | hr, hx⟩
      · exact ⟨_, Or.inl rfl, Finset.mem_union_left _ hx⟩
      · exact ⟨_, Or.inl rfl, Finset.mem_union_right _ hx⟩
      · exact ⟨r, Or.inr hr, hx⟩

theorem pathFits_mono {width : Finset ι → W} (hmono : ∀ s t, s ⊆ t → width s ≤ width t) {mw : W} {tsInds : List (List ι)} {out S S' : Finset ι}
    (hS : S ⊆ S') {p : List (ℕ × ℕ)} (h : PathFits width mw tsInds out S p) : PathFits width mw tsInds out S' p := by
  intro a b hab
  obtain ⟨h1, h2, h3⟩ := h a b hab
  have := fun s : Finset ι => hmono _ _ (Finset.sdiff_subset_sdiff (Finset.Subset.refl s) hS)
  exact ⟨(this _).trans h1, (this _).trans h2, (this _).trans h3⟩

theorem forall₂_mem_left {α β : Type} {R : α → β → Prop} {l : List α} {r : List β} (h : List.Forall₂ R l r) {a : α} (ha : a ∈ l) : ∃ b ∈ r, R a b := by
  induction h with
  | nil => cases ha
  | cons h _ ih =>
    rcases List.mem_cons.1 ha with rfl | ha
    · exact ⟨_, List.mem_cons_self, h⟩
    · obtain ⟨b, hb, h'⟩ := ih ha
      exact ⟨b, List.mem_cons_of_mem _ hb, h'⟩

theorem forall₂_mem_right {α β : Type} {R : α → β → Prop} {l : List α} {r : List β} (h : List.Forall₂ R l r) {b : β} (hb : b ∈ r) : ∃ a ∈ l, R a b :=
  forall₂_mem_left h.flip hb

/-- Merging paths that fit. -/
theorem pathFits_merged {width : Finset ι → W} {mw : W} {tsInds : List (List ι)} {out S : Finset ι} {pre : List (ℕ × ℕ)} {qs : List (List (ℕ × ℕ))}
    (h : List.Forall₂ Term.Same (trace (initTerms tsInds.length) pre) ((qs.map (trace (initTerms tsInds.length))).flatten))
    (hq : ∀ q ∈ qs, PathFits width mw tsInds out S q) : PathFits width mw tsInds out S pre := by
  intro a b hab
  obtain ⟨t, ht, hs⟩ := forall₂_mem_left h hab
  obtain ⟨l, hl, htl⟩ := List.mem_flatten.1 ht
  obtain ⟨q, hq', rfl⟩ := List.mem_map.1 hl
  cases hs with
  | pair h1 h2 =>
    obtain ⟨g1, g2, g3⟩ := hq q hq' _ _ htl
    rw [termInds_congr h1.tensors, termInds_congr h2.tensors, termInds_congr (Term.Same.pair h1 h2).tensors]
    exact ⟨g1, g2, g3⟩
  | swap h1 h2 =>
    obtain ⟨g1, g2, g3⟩ := hq q hq' _ _ htl
    rw [termInds_congr h1.tensors, termInds_congr h2.tensors, termInds_congr (Term.Same.swap h1 h2).tensors]
    exact ⟨g2, g1, g3⟩

theorem fw_total {cost : Finset ι → ℤ} {width : Finset ι → W} (hmono : ∀ s t, s ⊆ t → width s ≤ width t) {mw : W} {tsInds : List (List ι)}
    {out : Finset ι} {ps : List (List (ℕ × ℕ))} (hP : PartPaths tsInds ps) {ks : List (FwPart ι)} (hn : ks = [] → tsInds ≠ [])
    (h : List.Forall₂ (FwPiece cost width mw tsInds out) ps ks) :
    ∃ r, fwTotalWith exactPrinter tsInds.length ks = .ok r ∧ FwTotalOk cost width mw tsInds out ps r := by
  have hst : List.Forall₂ (SameTouch tsInds.length) ps (ks.map FwPartOf.path) := by
    rw [List.forall₂_map_right_iff]
    exact h.imp fun _ _ h => h.same
  set qs := if ks = [] then List.replicate tsInds.length [] else ks.map FwPartOf.path with hqs
  set sls := if ks = [] then List.replicate tsInds.length ∅ else ks.map FwPartOf.slices with hsls
  have hvd : (∀ q ∈ qs, ValidPath tsInds.length q) ∧ Disconnected tsInds.length qs := by
    by_cases hk : ks = []
    · rw [hqs, if_pos hk]
      refine ⟨fun q hq => ?_, disconnected_replicate _ _⟩
      rw [(List.mem_replicate.1 hq).2]
      exact ⟨_, rfl⟩
    · rw [hqs, if_neg hk]
      refine ⟨fun q hq => ?_, sameTouch_disconnected hst hP.disc⟩
      obtain ⟨p, -, hpq⟩ := forall₂_mem_right hst hq
      exact hpq.valid
  obtain ⟨pre, rest, m1, m2, m3, m4, m5⟩ := merge_total hvd.1 hvd.2
  have hsne : sls ≠ [] := by
    by_cases hk : ks = []
    · rw [hsls, if_pos hk]
      intro e
      exact hn hk (List.length_eq_zero_iff.1 ((List.replicate_eq_nil_iff _).1 e))
    · rw [hsls, if_neg hk]
      intro e
      exact hk (List.map_eq_nil_iff.1 e)
  obtain ⟨s, ss, hss⟩ := List.exists_cons_of_ne_nil hsne
  have hmem := foldl_union ss s
  rw [← hss] at hmem
  refine ⟨⟨(ks.map FwPartOf.cost).sum, pre ++ rest, ks.map FwPartOf.cost, qs, sls, ss.foldl (· ∪ ·) s⟩, ?_, ?_, ?_, rfl, hmem, pre, rest, rfl, m2, m3, m4, m5, ?_⟩
  · unfold fwTotalWith
    simp only [List.isEmpty_iff, ← hqs, m1, ← hsls]
    rw [hss]
    rfl
  · intro hne
    have hk : ks ≠ [] := by
      rintro rfl
      cases h
      exact hne rfl
    simp only [FwResult.pieces, hqs, hsls, if_neg hk, List.length_map, and_true]
    have : ((ks.map FwPartOf.cost).zip ((ks.map FwPartOf.path).zip (ks.map FwPartOf.slices))).map (fun x => (⟨x.1, x.2.1, x.2.2⟩ : FwPart ι)) = ks := by
      rw [List.zip_map', List.zip_map', List.map_map]
      exact List.map_id _
    rw [this]
    exact h
  · rintro rfl
    cases h
    simp [hqs, hsls]
  · refine pathFits_merged m5 fun q hq => ?_
    by_cases hk : ks = []
    · rw [hqs, if_pos hk] at hq
      rw [(List.mem_replicate.1 hq).2]
      intro a b hab; cases hab
    · rw [hqs, if_neg hk] at hq
      obtain ⟨k, hk', rfl⟩ := List.mem_map.1 hq
      obtain ⟨p, -, hpk⟩ := forall₂_mem_right h hk'
      refine pathFits_mono hmono (fun x hx => ?_) hpk.fits
      refine (hmem x).2 ⟨k.slices, ?_, hx⟩
      rw [hsls, if_neg hk]
      exact List.mem_map_of_mem hk'

/-- A run of the finite-width app is safe if the sparse indices are in every part with more than one tensor. -/
theorem fw_safe (E : SaEnv ι τ σ P V) {N : NetworkRec ι} {cm : PyCM ι} (hN : N.Plain) (hn : N.tensors ≠ []) (he : EnumOk E.enum) (hcm : cm.Ok)
    {log2W : ℕ → W} (hlog : ∀ n, 0 ≤ log2W n) {maxWidth : W} (hmw : 0 ≤ maxWidth) {us : ℤ} (hus : us ≠ 0)
    {ps : List (List (ℕ × ℕ))} (hP : PartPaths N.tsInds ps) (betas : List ℚ) (L seed : ℕ)
    (hps : (fwAnneal E N cm log2W maxWidth us).paths seed = some (.ok ps))
    (hsp : ∀ p ∈ ps, p ≠ [] → ∀ x ∈ cm.sparse.getD ∅, ∃ k, Touches N.tsInds.length p k ∧ x ∈ N.tsInds.getD k []) :
    (fwAnneal E N cm log2W maxWidth us).Safe betas L seed ps := by
  refine ⟨hps, fun p hp hne => ?_, fun ks hks => ?_⟩
  · obtain ⟨o, ho⟩ := fw_make E hN he hcm hlog hmw us hP hp hne (hsp p hp hne) seed
    refine ⟨o, ho, fun k _ => ?_⟩
    obtain ⟨o', r, h1, h2, -⟩ := fw_part E hN he hcm hlog hus hP hp hne ho 0 (betas.take k)
    exact ⟨o', r, h1, h2⟩
  · have hn' : N.tsInds ≠ [] := by
      intro e
      exact hn (List.map_eq_nil_iff.1 e)
    obtain ⟨r, hr, -⟩ := fw_total (fun s t h => nameWidth_mono hlog h) hP (fun _ => hn') (fw_pieces E hN he hcm hlog hus hP (fun p hp => hp) hks)
    refine ⟨r, ?_⟩
    have : N.tsInds.length = N.tensors.length := by simp [NetworkRec.tsInds]
    rw [this] at hr
    exact hr

end TNCO
