import Verif.Lemmas.Pickle
import Verif.Props.FiniteWidth
import Verif.Props.Cost
import Verif.Props.Path

/-!
# Property C26: pickling an optimizer preserves its future

`PyInf.unpickle`, `PyFw.unpickle` are `__reduce__` followed by `__build__`. The state of a model
optimizer is everything its future depends on, so equality of states is equality of futures.
-/

namespace TNCO
open PTree

variable {ι : Type} [DecidableEq ι]

section
variable {R : Type} [AddCommGroup R] [LinearOrder R] [IsOrderedAddMonoid R]

theorem treeCost_nonneg {m : CostModel R} {inds : ℕ → ISet} {n : ℕ} (hpos : ∀ s, s ⊆ Finset.range n → 0 < m.get s)
    (hin : ∀ p, inds p ⊆ Finset.range n) (t : PTree) : 0 ≤ treeCost m.get inds t := by
  induction t with
  | leaf => exact le_refl _
  | node p l r ihl ihr =>
    simp only [treeCost]
    have := hpos _ (Finset.union_subset (hin l.root) (hin r.root))
    positivity

theorem treeCost_pos {m : CostModel R} {inds : ℕ → ISet} {n : ℕ} (hpos : ∀ s, s ⊆ Finset.range n → 0 < m.get s)
    (hin : ∀ p, inds p ⊆ Finset.range n) {T : Tree} {t : PTree} (hw : WellFormed T t) (hs : T.size ≠ 1) :
    0 < treeCost m.get inds t := by
  cases t with
  | leaf q =>
    exfalso
    have h0 := (hw.mem 0).2 hw.linked.pos
    have h1 : T.size - 1 ∈ (PTree.leaf q).postorder := (hw.mem _).2 (by have := hw.linked.pos; omega)
    simp only [postorder, List.mem_singleton] at h0 h1
    have := hw.linked.pos
    omega
  | node p l r =>
    simp only [treeCost]
    have := hpos _ (Finset.union_subset (hin l.root) (hin r.root))
    have h1 := treeCost_nonneg hpos hin l
    have h2 := treeCost_nonneg hpos hin r
    positivity

variable {σ P : Type} [LinearOrder P]

theorem make_clean {m : CostModel R} {c : CTree} {seed : σ} {dis : Bool} {o : InfOpt σ R} (hc : c.Clean)
    (ht : IsTree c.tree) (hmk : InfOpt.make m c seed dis none = some (.ok o)) : o.Clean := by
  unfold InfOpt.make InfOpt.makeWith at hmk
  simp only [bind, pure, Option.getD_none] at hmk
  split at hmk
  · simp at hmk
  rw [Option.bind_eq_some_iff] at hmk
  obtain ⟨k, hk, hmk⟩ := hmk
  rw [Option.bind_eq_some_iff] at hmk
  obtain ⟨mt, -, hmk⟩ := hmk
  split at hmk
  · simp at hmk
  simp only [Option.some.injEq, Except.ok.injEq] at hmk
  subst hmk
  refine ⟨hc, hc, fun p hp => (costCache_out ht hk hp).1, fun p hp => (costCache_out ht hk hp).2, fun p hp => ?_,
    fun p => (hyperCache_sub c p).trans (hc.inds_lt p)⟩
  simp only
  unfold hyperCache
  rw [hc.nodes_out p hp]
  rfl

omit [LinearOrder P] [IsOrderedAddMonoid R] [AddCommGroup R] [LinearOrder R] in
theorem tidy_of_leaves {c c' : CTree} {order : List ι} (h : c.Tidy order) (hc : c'.Clean) {t t' : PTree}
    (hw : WellFormed c.tree t) (hv : c.isValid false = true)
    (hsz : c'.tree.size = c.tree.size) (hn : c'.nInds = c.nInds) (hd : c'.dims = c.dims)
    (hl : ∀ p < (c.tree.size + 1) / 2, c'.inds p = c.inds p) (_ : WellFormed c'.tree t') : c'.Tidy order := by
  refine ⟨hc, h.nodup, by rw [h.len, hn], ?_, by rw [hn, hd]; exact h.dims⟩
  intro i hi
  obtain ⟨p, hp, hip⟩ := h.cover i (by omega)
  -- an index of an intermediate tensor occurs in a leaf
  have hloc := ((ctree_isValid_iff hw false).1 hv).2.1
  have hleaf : ∀ u : PTree, u.All (LocQ c.inds) → i ∈ c.inds u.root → ∃ q ∈ u.leaves, i ∈ c.inds q := by
    intro u
    induction u with
    | leaf q => intro _ h; exact ⟨q, by simp [leaves], h⟩
    | node q l r ihl ihr =>
      intro ha hm
      simp only [PTree.All] at ha
      have := ha.1.2 hm
      rcases Finset.mem_union.1 this with h1 | h1
      · obtain ⟨q', h2, h3⟩ := ihl ha.2.1 h1
        exact ⟨q', by simp [leaves, h2], h3⟩
      · obtain ⟨q', h2, h3⟩ := ihr ha.2.2 h1
        exact ⟨q', by simp [leaves, h2], h3⟩
  obtain ⟨K, u, rfl, rfl⟩ := exists_plug ((hw.mem p).2 hp)
  rw [Ctx.all_plug] at hloc
  obtain ⟨q, hq, hiq⟩ := hleaf u hloc.2 hip
  have hq2 : q ∈ (K.plug u).leaves := by
    rw [(Ctx.leaves_plug K u).mem_iff]; simp [hq]
  have hq3 := (hw.leaves q).1 hq2
  have hsz2 := hw.linked.size
  refine ⟨q, ?_, by rw [hl q (by unfold Tree.nLeaves at *; omega)]; exact hiq⟩
  unfold Tree.nLeaves at *; omega

/-- All that is needed about the states of a history. -/
theorem inf_state {g : Prng σ P} {m : CostModel R} {c : CTree} {order : List ι} {seed : σ} {dis : Bool} {o0 o : InfOpt σ R}
    {probs : List (R → R → P)} {t0 : PTree} {out : ISet} (htidy : c.Tidy order) (hwf : WellFormed c.tree t0)
    (hex : IndsExact c.inds out t0) (hpos : ∀ s, s ⊆ Finset.range c.nInds → 0 < m.get s)
    (hmk : InfOpt.make m c seed dis none = some (.ok o0)) (hrun : o0.run g m probs = some o) :
    o.Clean ∧ o.ctree.Tidy order ∧ IsTree o.ctree.tree ∧ o.ctree.isValid (!dis) = true ∧ o.ctree.isValid false = true ∧
      o.ctree.dims = c.dims ∧ o.disableShared = dis ∧ 0 < o.totalCost := by
  have hsz := make_size hwf hmk
  have hcl := make_clean htidy.clean ⟨t0, hwf⟩ hmk
  obtain ⟨hO, hcc, hdis, -, -, -, -, hv, -⟩ := make_inv hwf hmk (out? := some out)
    (by rintro _ ⟨⟩; exact indsExact_iff.1 hex)
  subst hcc
  obtain ⟨o', t, hrun', hI, hS⟩ := run_history g m (by intro h; simp) probs hO
  rw [hrun] at hrun'; cases hrun'
  obtain ⟨hoc, -⟩ := hcl.run ⟨t0, hwf⟩ probs hrun
  have hloc := PTree.sem_loc (hI.sem out rfl)
  have hok : o.ctree.dims.ok o.ctree.nInds = true := by
    rw [hS.dims, hS.nInds]; exact ((ctree_isValid_iff hwf _).1 hv).1
  have hvf : ∀ b, (b = true → dis = false) → o.ctree.isValid b = true := fun b hb =>
    (ctree_isValid_iff hI.wf _).2 ⟨hok, hloc, fun h => hI.shr (by simpa using hb h)⟩
  have hv0 : o0.ctree.isValid false = true := by
    obtain ⟨a, b, -⟩ := (ctree_isValid_iff hwf _).1 hv
    exact (ctree_isValid_iff hwf _).2 ⟨a, b, by simp⟩
  refine ⟨hoc, tidy_of_leaves htidy hoc.ctree hwf hv0 hS.size hS.nInds hS.dims hS.leafInds hI.wf, ⟨t, hI.wf⟩,
    hvf _ (by simp), hvf false (by simp), hS.dims, by rw [hS.disable, hdis], ?_⟩
  have h1 := (C14_total_cost_exact g m o0.ctree seed dis none o0 o probs ⟨t0, hwf⟩ hmk hrun).1 t hI.wf
  rw [h1]
  refine treeCost_pos (n := o0.ctree.nInds) hpos (fun p => ?_) hI.wf ?_
  · rw [← hS.nInds]; exact hoc.ctree.inds_lt p
  · simp only; rw [hS.size]; exact hsz

/-- C26, infinite-memory optimizer, for any tree with named indices: after any history the
unpickled optimizer is in the same state as the original (tree, caches, best tree, its cost,
generator, options). -/
theorem C26_infinite_memory_state (enum : Finset ι → List ι) (he : EnumOk enum) (g : Prng σ P)
    (cm : List ι → Dims → CostModel R) (t : PyTree ι) (seed : σ) (dis : Bool) (probs : List (R → R → P))
    (o0 : PyInf ι σ R) (o : InfOpt σ R) (t0 : PTree) (out : ISet)
    (htidy : t.core.Tidy t.indsOrder) (hwf : WellFormed t.core.tree t0) (hex : IndsExact t.core.inds out t0)
    (hpos : ∀ s, s ⊆ Finset.range t.core.nInds → 0 < (cm t.indsOrder t.core.dims).get s)
    (hmk : PyInf.make cm t seed dis none = .ok o0)
    (hrun : o0.core.run g (cm t.indsOrder t.core.dims) probs = some o) :
    PyInf.unpickle enum cm ⟨o, o0.cache⟩ = .ok ⟨o, o0.cache⟩ := by
  unfold PyInf.make at hmk
  simp only [Option.map_none] at hmk
  split at hmk
  · cases hmk
  · cases hmk
  next oc hoc =>
  cases hmk
  set m := cm t.indsOrder t.core.dims
  have key := fun qs o1 (h1 : oc.run g m qs = some o1) => inf_state htidy hwf hex hpos hoc h1
  obtain ⟨hcl, hti, hT, hvd, hv, hd, hdis, htp⟩ := key probs o hrun
  obtain ⟨hmin, hmt, -⟩ := C15_min_is_best g m t.core seed dis none oc o probs ⟨t0, hwf⟩ hoc hrun
  obtain ⟨-, -, ⟨k, hk, hkk⟩, hhy⟩ := C14_total_cost_exact g m t.core seed dis none oc o probs ⟨t0, hwf⟩ hoc hrun
  -- the best tree is the tree of an earlier state
  obtain ⟨qs, o1, hq, hmo⟩ : ∃ qs o1, oc.run g m qs = some o1 ∧ o.minCtree = o1.ctree := by
    rcases hmin with h | ⟨p1, p2, o1, -, -, h1, h2⟩
    · refine ⟨[], oc, rfl, ?_⟩
      rw [h, (make_inv hwf hoc (out? := none) (by simp)).2.1]; rfl
    · exact ⟨p1, o1, h1, h2⟩
  obtain ⟨hcl1, hti1, hT1, hvd1, hv1, hd1, -, htp1⟩ := key qs o1 hq
  have hmp : 0 < o.minTotal := by
    have h1 := (C14_total_cost_exact g m t.core seed dis none oc o1 qs ⟨t0, hwf⟩ hoc hq).2.1
    rw [hmo, h1] at hmt
    rw [← Option.some.inj hmt]; exact htp1
  have hspos : ∀ {T : Tree}, IsTree T → 0 < T.size := fun ⟨_, h⟩ => h.linked.pos
  have hs1 : shipTree enum t.cache o.ctree = .ok ⟨o.ctree, t.nTensors, t.tensorsPos, t.indsOrder⟩ := by
    have := shipTree_tidy he hti hv (hspos hT) t.nTensors t.tensorsPos
    rw [hd] at this; exact this
  have hs2 : shipTree enum t.cache o.minCtree = .ok ⟨o.minCtree, t.nTensors, t.tensorsPos, t.indsOrder⟩ := by
    rw [hmo]
    have := shipTree_tidy he hti1 hv1 (hspos hT1) t.nTensors t.tensorsPos
    rw [hd1] at this; exact this
  unfold PyInf.unpickle
  simp only [hs1, hs2]
  unfold PyInf.make
  simp only [Option.map_some, hd]
  have hcost : k = o.cost := by
    have e1 : k.partialCost = o.cost.partialCost := by
      funext p
      by_cases hp : p < o.ctree.tree.size
      · exact (hkk p hp).1.symm
      · rw [(costCache_out hT hk (by omega)).1, hcl.part_out p (by omega)]
    have e2 : k.contractionCost = o.cost.contractionCost := by
      funext p
      by_cases hp : p < o.ctree.tree.size
      · exact (hkk p hp).2.symm
      · rw [(costCache_out hT hk (by omega)).2, hcl.contr_out p (by omega)]
    cases k; cases h : o.cost
    rw [h] at e1 e2
    simp only at e1 e2
    rw [e1, e2]
  have hhyp : hyperCache o.ctree = o.hyper := by
    funext p
    by_cases hp : p < o.ctree.tree.size
    · exact (hhy p hp).symm
    · rw [hcl.hyper_out p (by omega)]
      unfold hyperCache
      rw [hcl.ctree.nodes_out p (by omega)]; rfl
  have hmake : InfOpt.make m o.ctree o.prng o.disableShared (some o.minCtree) = some (.ok o) := by
    unfold InfOpt.make InfOpt.makeWith
    simp only [Option.getD_some, bind, pure, hdis, hvd, hk, hmt, Option.bind_some]
    rw [hmo, hvd1]
    simp only [Bool.not_true, Bool.or_self, Bool.false_eq_true, if_false]
    rw [if_neg]
    · rw [← hmo, hhyp, hcost, ← hdis]
    · push Not
      refine ⟨?_, hmp⟩
      unfold InfOpt.totalCost at htp ⊢
      simp only [hcost]; exact htp
  rw [hmake]
  simp only [PyTree.cache, PyTree.dims, hd]

/-- C26, infinite-memory optimizer, for a tree built from a path: after any history, the unpickled
optimizer answers every future sequence of updates with the same state as the original. -/
theorem C26_infinite_memory (enum : Finset ι → List ι) (he : EnumOk enum) (g : Prng σ P)
    (cm : List ι → Dims → CostModel R) (path : List (ℕ × ℕ)) (tsInds : List (List ι)) (hts : ∀ l ∈ tsInds, l.Nodup)
    (dims : PyDims ι) (output : Option (List ι)) (check : Bool) (t : PyTree ι)
    (ht : PyTree.ofPath enum path tsInds dims output check = .ok t)
    (seed : σ) (dis : Bool) (probs : List (R → R → P)) (o0 : PyInf ι σ R) (o : InfOpt σ R)
    (hpos : ∀ s, s ⊆ Finset.range t.core.nInds → 0 < (cm t.indsOrder t.core.dims).get s)
    (hmk : PyInf.make cm t seed dis none = .ok o0)
    (hrun : o0.core.run g (cm t.indsOrder t.core.dims) probs = some o) :
    ∃ o', PyInf.unpickle enum cm ⟨o, o0.cache⟩ = .ok o' ∧ o'.cache = o0.cache ∧ o'.core.ctree = o.ctree ∧
      o'.core.minCtree = o.minCtree ∧ o'.core.totalCost = o.totalCost ∧ o'.core.minTotal = o.minTotal ∧
      ∀ future, o'.core.run g (cm t.indsOrder t.core.dims) future = o.run g (cm t.indsOrder t.core.dims) future := by
  obtain ⟨⟨t0, hwf, hex⟩, -⟩ := C10_core_exact enum he path tsInds hts dims output check t ht
  exact ⟨_, C26_infinite_memory_state enum he g cm t seed dis probs o0 o t0 _ (ofPath_tidy ht) hwf hex hpos hmk hrun,
    rfl, rfl, rfl, rfl, rfl, fun _ => rfl⟩

end

section
variable {σ P R W : Type} [AddCommGroup R] [LinearOrder R] [IsOrderedAddMonoid R] [LinearOrder P]
  [AddCommGroup W] [LinearOrder W] [IsOrderedAddMonoid W]

omit [IsOrderedAddMonoid R] [IsOrderedAddMonoid W] in
theorem fmake_clean {g : FwPrng σ P} {m : CostModel R} {wm : WidthModel W} {c : CTree} {maxNew : ℕ} {seed : σ} {dis : Bool}
    {skip : ISet} {o : FwOpt σ R W} (hc : c.Clean) (ht : IsTree c.tree)
    (hmk : FwOpt.pyMake g m wm c maxNew seed dis skip none none none = some (.ok o)) : o.Clean wm := by
  unfold FwOpt.pyMake FwOpt.pyMakeWith at hmk
  split at hmk
  · simp at hmk
  unfold FwOpt.makeWith at hmk
  simp only [bind, pure, Option.getD_none] at hmk
  split at hmk
  · simp at hmk
  rw [Option.bind_eq_some_iff] at hmk
  obtain ⟨⟨sl, s⟩, hsl, hmk⟩ := hmk
  simp only at hmk
  rw [Option.bind_eq_some_iff] at hmk
  obtain ⟨k, hk, hmk⟩ := hmk
  rw [Option.bind_eq_some_iff] at hmk
  obtain ⟨mt, -, hmk⟩ := hmk
  split at hmk
  · simp at hmk
  split at hmk
  · simp at hmk
  simp only [Option.some.injEq, Except.ok.injEq] at hmk
  subst hmk
  have hsub := getSlices_sub hc hsl
  refine ⟨⟨hc, hc, fun p hp => (costCache_out ht hk hp).1, fun p hp => (costCache_out ht hk hp).2, fun p hp => ?_,
    fun p => (hyperCache_sub c p).trans (hc.inds_lt p)⟩, fun p hp => ?_, hsub, hsub⟩
  · simp only
    unfold hyperCache
    rw [hc.nodes_out p hp]
    rfl
  · simp only at hp ⊢
    unfold widthCache
    rw [hc.inds_out p hp]

/-- All that is needed about the states of a history. -/
theorem fw_state {g : FwPrng σ P} {m : CostModel R} {log2 : ℕ → W} (hlog : ∀ n, 0 ≤ log2 n) {wm : WidthModel W}
    {c : CTree} {order : List ι} {maxNew : ℕ} {seed : σ} {dis : Bool} {skip : ISet} {o0 o : FwOpt σ R W}
    {ps : List ((R → R → P) × Bool)} {t0 : PTree} {out : ISet} (hwm : OfferedWidth log2 c.dims wm)
    (htidy : c.Tidy order) (hwf : WellFormed c.tree t0)
    (hex : IndsExact c.inds out t0) (hpos : ∀ s, s ⊆ Finset.range c.nInds → 0 < m.get s)
    (hmk : FwOpt.pyMake g m wm c maxNew seed dis skip none none none = some (.ok o0)) (hrun : o0.run g m wm ps = .ok o) :
    o.Clean wm ∧ o.inf.ctree.Tidy order ∧ IsTree o.inf.ctree.tree ∧ o.inf.ctree.isValid (!dis) = true ∧
      o.inf.ctree.isValid false = true ∧
      o.inf.ctree.dims = c.dims ∧ o.inf.ctree.nInds = c.nInds ∧ o.inf.disableShared = dis ∧ 0 < o.inf.totalCost ∧
      o.skip = (if skip = ∅ then none else some skip) := by
  have hcl := fmake_clean htidy.clean ⟨t0, hwf⟩ hmk
  obtain ⟨t, hw, hsz, hleaf, -, -, hv, htc, -⟩ := C24_caches_exact g m log2 hlog wm c maxNew seed dis skip none none none o0 o
    ps t0 out hwm hwf hex (by simp) hmk hrun
  obtain ⟨hI0, hc0, hd0, -, -, -, htp, -, hv0, -, hsk, -⟩ := pyMake_inv (offered_lawful hlog hwm).1 hwf (by simp) hmk
    (out? := none) (by simp)
  subst hc0
  have hsz0 := fmake_size hI0 htp
  have hst : Static o0.inf o.inf ∧ o.skip = o0.skip := by
    rcases frun_history g m (offered_lawful hlog hwm).1 (by simp) ps hI0 with ⟨h, -⟩ | ⟨o', t', hrun', -, hS, -⟩
    · rw [hrun] at h; cases h
    rw [hrun] at hrun'; cases hrun'
    exact ⟨hS.inf, hS.skip⟩
  obtain ⟨hoc, -⟩ := hcl.run ⟨t0, hwf⟩ ps hrun
  have hvf : ∀ {c : CTree} {t : PTree}, WellFormed c.tree t → c.isValid (!dis) = true → c.isValid false = true := by
    intro c t hw h
    obtain ⟨a, b, -⟩ := (ctree_isValid_iff hw _).1 h
    exact (ctree_isValid_iff hw _).2 ⟨a, b, by simp⟩
  refine ⟨hoc, tidy_of_leaves htidy hoc.inf.ctree hwf (hvf hwf hv0) hsz hst.1.nInds hst.1.dims hleaf hw, ⟨t, hw⟩, hv,
    hvf hw hv, hst.1.dims, hst.1.nInds, by rw [hst.1.disable, hd0], ?_, by rw [hst.2, hsk]⟩
  rw [htc]
  refine treeCost_pos (m := m.sliced o.slices) (n := o0.inf.ctree.nInds) (fun s hs => ?_) (fun p => ?_) hw ?_
  · exact hpos _ (Finset.union_subset hs (by rw [← hst.1.nInds]; exact hoc.slices_lt))
  · rw [← hst.1.nInds]; exact hoc.inf.ctree.inds_lt p
  · rw [hsz]; exact hsz0

omit [IsOrderedAddMonoid R] [AddCommGroup R] [LinearOrder R] [LinearOrder P] [AddCommGroup W] [LinearOrder W] [IsOrderedAddMonoid W] in
theorem bits_round_trip {order : List ι} {n : ℕ} (hn : order.Nodup) (hl : order.length = n) {s : ISet}
    (hs : s ⊆ Finset.range n) : ∃ f, ofBits order n s = some f ∧ toBits order f = some s := by
  obtain ⟨l, h1, h2, h3⟩ := namesOf_eq hl s
  refine ⟨l.toFinset, by simp [ofBits, h1], ?_⟩
  unfold toBits
  rw [if_pos]
  · congr 1
    ext i
    simp only [Finset.mem_image, List.mem_toFinset]
    constructor
    · rintro ⟨x, hx, rfl⟩
      obtain ⟨j, hj, hjs, rfl⟩ := (h3 x).1 hx
      rw [List.Nodup.idxOf_getElem hn]; exact hjs
    · intro hi
      have hlt : i < order.length := by rw [hl]; simpa using hs hi
      exact ⟨order[i], (h3 _).2 ⟨i, hlt, hi, rfl⟩, List.Nodup.idxOf_getElem hn i hlt⟩
  · intro x hx
    exact List.mem_toFinset.2 (h2 x (List.mem_toFinset.1 hx))

/-- C26, finite-width optimizer (partial): after any history the unpickled optimizer is in the
same state as the original, except that `max_number_new_slices` is 0. Missing: the option itself, see
`C26_violated`; and, for the sparse cost model, states reached with new slices (as in C22, the
constructor may then refuse the pickled state). -/
theorem C26_finite_width_state_partial (enum : Finset ι → List ι) (he : EnumOk enum) (g : FwPrng σ P)
    (cm : List ι → Dims → CostModel R) (wm : List ι → Dims → WidthModel W) (log2 : ℕ → W) (hlog : ∀ n, 0 ≤ log2 n)
    (t : PyTree ι) (maxNew : ℕ) (seed : σ) (dis : Bool) (skip : Finset ι) (ps : List ((R → R → P) × Bool))
    (o0 : PyFw ι σ R W) (o : FwOpt σ R W) (t0 : PTree) (out : ISet)
    (htidy : t.core.Tidy t.indsOrder) (hwf : WellFormed t.core.tree t0) (hex : IndsExact t.core.inds out t0)
    (hpos : ∀ s, s ⊆ Finset.range t.core.nInds → 0 < (cm t.indsOrder t.core.dims).get s)
    (hmodel : (∃ mw, simpleWidthModel log2 t.core.dims mw = some (wm t.indsOrder t.core.dims)) ∨
      (maxNew = 0 ∧ ∃ mw sparse nProjs,
        sparseWidthModel log2 t.core.dims mw sparse nProjs = some (wm t.indsOrder t.core.dims)))
    (hmk : PyFw.make g cm wm t maxNew seed dis skip none none none = .ok o0)
    (hrun : o0.core.run g (cm t.indsOrder t.core.dims) (wm t.indsOrder t.core.dims) ps = .ok o) :
    PyFw.unpickle enum g cm wm ⟨o, o0.cache, o0.skip⟩ = .ok ⟨{ o with maxNew := 0 }, o0.cache, o0.skip⟩ := by
  unfold PyFw.make at hmk
  split at hmk
  · cases hmk
  next sk hsk =>
  simp only [Option.mapM_none, Option.pure_def, Option.map_none] at hmk
  split at hmk
  · cases hmk
  · cases hmk
  next oc hoc =>
  cases hmk
  simp only at hrun ⊢
  set m := cm t.indsOrder t.core.dims with hm
  set w := wm t.indsOrder t.core.dims with hwd
  have hwm : OfferedWidth log2 t.core.dims w := by
    rcases hmodel with h | ⟨-, h⟩
    · exact Or.inl h
    · exact Or.inr h
  have key := fun qs o1 (h1 : oc.run g m w qs = .ok o1) => fw_state hlog hwm htidy hwf hex hpos hoc h1
  obtain ⟨hcl, hti, hT, hvd, hv, hd, hni, hdis, htp, hskip⟩ := key ps o hrun
  obtain ⟨-, -, -, -, -, -, -, -, -, ⟨k, hk, hkk⟩, hhy, hwc⟩ := C24_caches_exact g m log2 hlog w t.core maxNew seed dis sk none
    none none oc o ps t0 out hwm hwf hex (by simp) hoc hrun
  obtain ⟨hmin, hmt, -⟩ := C24_min g m log2 hlog w t.core maxNew seed dis sk none none none oc o ps t0 out hwm hwf hex
    (by simp) hoc hrun
  obtain ⟨hfit1, hfit2⟩ := C22_width_limit_partial g m log2 hlog w t.core maxNew seed dis sk none none none oc o ps
    ⟨t0, hwf⟩ (by simp) hoc hrun (hmodel.imp id fun ⟨h0, mw, sp, n, h⟩ => ⟨mw, sp, n, h, Or.inl h0⟩)
  have hdisj := (C23_skip_never_sliced g m log2 hlog w t.core maxNew seed dis sk none none none oc o ps hwm ⟨t0, hwf⟩
    (by simp) hoc hrun).1
  obtain ⟨qs, o1, hq, hmo, hms⟩ : ∃ qs o1, oc.run g m w qs = .ok o1 ∧ o.inf.minCtree = o1.inf.ctree ∧
      o.minSlices = o1.slices := by
    rcases hmin with ⟨h, h'⟩ | ⟨p1, p2, o1, -, -, h1, h2, h3⟩
    · refine ⟨[], oc, rfl, ?_, h'⟩
      rw [h, (pyMake_inv (offered_lawful hlog hwm).1 hwf (by simp) hoc (out? := none) (by simp)).2.1]; rfl
    · exact ⟨p1, o1, h1, h2, h3⟩
  obtain ⟨hcl1, hti1, hT1, hvd1, hv1, hd1, hni1, -, htp1, -⟩ := key qs o1 hq
  have hmp : 0 < o.inf.minTotal := by
    obtain ⟨-, -, -, -, -, -, -, -, h1, -⟩ := C24_caches_exact g m log2 hlog w t.core maxNew seed dis sk none none none oc o1 qs
      t0 out hwm hwf hex (by simp) hoc hq
    rw [hmo, hms, h1] at hmt
    rw [← Option.some.inj hmt]; exact htp1
  have hspos : ∀ {T : Tree}, IsTree T → 0 < T.size := fun ⟨_, h⟩ => h.linked.pos
  have hs1 : shipTree enum t.cache o.inf.ctree = .ok ⟨o.inf.ctree, t.nTensors, t.tensorsPos, t.indsOrder⟩ := by
    have := shipTree_tidy he hti hv (hspos hT) t.nTensors t.tensorsPos
    rw [hd] at this; exact this
  have hs2 : shipTree enum t.cache o.inf.minCtree = .ok ⟨o.inf.minCtree, t.nTensors, t.tensorsPos, t.indsOrder⟩ := by
    rw [hmo]
    have := shipTree_tidy he hti1 hv1 (hspos hT1) t.nTensors t.tensorsPos
    rw [hd1] at this; exact this
  obtain ⟨f1, hf1, hg1⟩ := bits_round_trip hti.nodup hti.len hcl.slices_lt
  obtain ⟨f2, hf2, hg2⟩ := bits_round_trip hti.nodup hti.len hcl.minSlices_lt
  have hcost : k = o.inf.cost := by
    have e1 : k.partialCost = o.inf.cost.partialCost := by
      funext p
      by_cases hp : p < o.inf.ctree.tree.size
      · exact (hkk p hp).1.symm
      · rw [(costCache_out hT hk (by omega)).1, hcl.inf.part_out p (by omega)]
    have e2 : k.contractionCost = o.inf.cost.contractionCost := by
      funext p
      by_cases hp : p < o.inf.ctree.tree.size
      · exact (hkk p hp).2.symm
      · rw [(costCache_out hT hk (by omega)).2, hcl.inf.contr_out p (by omega)]
    cases k; cases h : o.inf.cost
    rw [h] at e1 e2
    simp only at e1 e2
    rw [e1, e2]
  have hhyp : hyperCache o.inf.ctree = o.inf.hyper := by
    funext p
    by_cases hp : p < o.inf.ctree.tree.size
    · exact (hhy p hp).symm
    · rw [hcl.inf.hyper_out p (by omega)]
      unfold hyperCache
      rw [hcl.inf.ctree.nodes_out p (by omega)]; rfl
  have hwid : widthCache w o.inf.ctree = o.width := by
    funext p
    by_cases hp : p < o.inf.ctree.tree.size
    · exact (hwc p hp).symm
    · rw [hcl.width_out p (by omega)]
      unfold widthCache
      rw [hcl.inf.ctree.inds_out p (by omega)]
  have hmono := fun xs ys => (offered_lawful hlog hwm).1.mono (xs := xs) (ys := ys)
  have hmake : FwOpt.pyMake g m w o.inf.ctree 0 o.inf.prng o.inf.disableShared sk (some o.inf.minCtree) (some o.slices)
      (some o.minSlices) = some (.ok { o with maxNew := 0 }) := by
    unfold FwOpt.pyMake FwOpt.pyMakeWith
    rw [if_neg]
    · unfold FwOpt.makeWith
      simp only [Option.getD_some, bind, pure, hdis, hvd, initSlices, hk, hmt, Option.bind_some]
      rw [hmo, hvd1]
      simp only [Bool.not_true, Bool.or_self, Bool.false_eq_true, if_false]
      rw [if_neg, if_neg]
      · rw [← hmo, hhyp, hcost, hwid, ← hdis, ← hskip]
      · simp only [Bool.or_eq_true, Bool.not_eq_true', not_or, Bool.not_eq_false]
        constructor
        · unfold allFit; simp only [List.all_eq_true, List.mem_range, decide_eq_true_eq]; exact hfit1
        · rw [← hmo]
          unfold allFit; simp only [List.all_eq_true, List.mem_range, decide_eq_true_eq]; exact hfit2
      · push Not
        refine ⟨?_, hmp⟩
        unfold InfOpt.totalCost at htp ⊢
        simp only [hcost]; exact htp
    · simp only [Bool.not_eq_true, List.any_eq_false, List.mem_range, decide_eq_true_eq, not_lt]
      intro p hp
      refine le_trans (hmono _ _ ?_) (hfit1 p hp)
      intro i hi
      simp only [Finset.mem_inter, Finset.mem_sdiff] at hi ⊢
      exact ⟨hi.1, fun h => Finset.disjoint_left.1 hdisj h hi.2⟩
  unfold PyFw.unpickle
  simp only [hs1, hs2]
  have hca : t.cache.indsOrder = t.indsOrder := rfl
  simp only [hca, hf1, hf2]
  unfold PyFw.make
  simp only [hsk, Option.map_some]
  have hb1 : (some f1 : Option (Finset ι)).mapM (toBits t.indsOrder) = some (some o.slices) := by simp [hg1]
  have hb2 : (some f2 : Option (Finset ι)).mapM (toBits t.indsOrder) = some (some o.minSlices) := by simp [hg2]
  simp only [hb1, hb2, hd, ← hm, ← hwd, hmake]
  simp only [PyTree.cache, PyTree.dims, hd]

/-- C26, finite-width optimizer without new slices (partial: `max_number_new_slices = 0`): the
unpickled optimizer answers every future sequence of updates as the original does. -/
theorem C26_finite_width_partial (enum : Finset ι → List ι) (he : EnumOk enum) (g : FwPrng σ P)
    (cm : List ι → Dims → CostModel R) (wm : List ι → Dims → WidthModel W) (log2 : ℕ → W) (hlog : ∀ n, 0 ≤ log2 n)
    (path : List (ℕ × ℕ)) (tsInds : List (List ι)) (hts : ∀ l ∈ tsInds, l.Nodup)
    (dims : PyDims ι) (output : Option (List ι)) (check : Bool) (t : PyTree ι)
    (ht : PyTree.ofPath enum path tsInds dims output check = .ok t)
    (seed : σ) (dis : Bool) (skip : Finset ι) (ps : List ((R → R → P) × Bool))
    (o0 : PyFw ι σ R W) (o : FwOpt σ R W)
    (hpos : ∀ s, s ⊆ Finset.range t.core.nInds → 0 < (cm t.indsOrder t.core.dims).get s)
    (hmodel : OfferedWidth log2 t.core.dims (wm t.indsOrder t.core.dims))
    (hmk : PyFw.make g cm wm t 0 seed dis skip none none none = .ok o0)
    (hrun : o0.core.run g (cm t.indsOrder t.core.dims) (wm t.indsOrder t.core.dims) ps = .ok o) :
    PyFw.unpickle enum g cm wm ⟨o, o0.cache, o0.skip⟩ = .ok ⟨o, o0.cache, o0.skip⟩ := by
  obtain ⟨⟨t0, hwf, hex⟩, -⟩ := C10_core_exact enum he path tsInds hts dims output check t ht
  have h := C26_finite_width_state_partial enum he g cm wm log2 hlog t 0 seed dis skip ps o0 o t0 _ (ofPath_tidy ht) hwf hex
    hpos (by rcases hmodel with h | h; exacts [Or.inl h, Or.inr ⟨rfl, h⟩]) hmk hrun
  have h0 : o.maxNew = 0 := by
    unfold PyFw.make at hmk
    split at hmk
    · cases hmk
    simp only [Option.mapM_none, Option.pure_def, Option.map_none] at hmk
    split at hmk
    · cases hmk
    · cases hmk
    next oc hoc =>
    cases hmk
    obtain ⟨hI0, -, -, -, -, -, -, -, -, -, -, hmn, -⟩ := pyMake_inv (offered_lawful hlog hmodel).1 hwf (by simp) hoc
      (out? := none) (by simp)
    rcases frun_history g _ (offered_lawful hlog hmodel).1 (by simp) ps hI0 with ⟨h, -⟩ | ⟨o', t', hrun', -, hS, -⟩
    · rw [hrun] at h; cases h
    rw [hrun] at hrun'; cases hrun'
    rw [hS.maxNew, hmn]
  rw [h]
  cases o
  simp only at h0
  rw [h0]

end

/-! ## The option that is lost -/

/-- Tensors `{0,1} {1,2,3} {2,3}` of dimension 2, output `{0}`. -/
def pickCT : CTree where
  tree := fwTree
  nInds := 4
  inds := fun p => [{0, 1}, {1, 2, 3}, {2, 3}, {1}, {0}].getD p ∅
  dims := .int 2

def pickT : PyTree ℕ := ⟨pickCT, 3, [0, 1, 2], [0, 1, 2, 3]⟩

def pickWm : List ℕ → Dims → WidthModel ℤ := fun _ d =>
  ⟨simpleWidth ilog2 d, simpleDelta ilog2 d, fun i => ilog2 (d.get i), d.isInt, 2⟩

def pickCm : List ℕ → Dims → CostModel ℤ := fun _ d => simpleModel d

theorem pickT_tidy : pickT.core.Tidy pickT.indsOrder := by
  refine ⟨⟨fun p hp => ?_, fun p hp => ?_, fun p => ?_⟩, by decide, rfl, ?_, ⟨[2, 2, 2, 2], rfl, rfl⟩⟩
  · exact List.getD_eq_default _ _ hp
  · exact List.getD_eq_default _ _ hp
  · by_cases hp : p < 5
    · have : ∀ p < 5, pickT.core.inds p ⊆ Finset.range pickT.core.nInds := by decide
      exact this p hp
    · have : pickT.core.inds p = ∅ := List.getD_eq_default _ _ (by simpa using hp)
      rw [this]; simp
  · decide

theorem pickCT_exact : IndsExact pickCT.inds {0} exCTree := by
  rw [indsExact_iff]
  simp only [exCTree, PTree.Sem, PTree.root, PTree.L, leaves, pickCT, leafInds]
  decide

theorem pickCm_pos (s : ISet) : 0 < (pickCm pickT.indsOrder pickT.core.dims).get s := by
  show (0 : ℤ) < ((2 ^ s.card : ℕ) : ℤ)
  positivity

/-- **C26 is violated** by the finite-width optimizer: with `max_number_new_slices = 1` the
original answers the next update by moving the tree and replacing its slice; the unpickled copy, given the
same update, draws and acceptance function, does neither. -/
theorem C26_violated (enum : Finset ℕ → List ℕ) (he : EnumOk enum) :
    ∃ o0 o' a b, PyFw.make (constPrng 1) pickCm pickWm pickT 1 () false ∅ none none none = .ok o0 ∧
      PyFw.unpickle enum (constPrng 1) pickCm pickWm o0 = .ok o' ∧
      o0.core.run (constPrng 1) (pickCm pickT.indsOrder pickCT.dims) (pickWm pickT.indsOrder pickCT.dims)
        [(fun _ _ => 1, false)] = .ok a ∧
      o'.core.run (constPrng 1) (pickCm pickT.indsOrder pickCT.dims) (pickWm pickT.indsOrder pickCT.dims)
        [(fun _ _ => 1, false)] = .ok b ∧
      a.slices ≠ b.slices ∧ a.inf.ctree.tree.nodes 3 ≠ b.inf.ctree.tree.nodes 3 := by
  obtain ⟨o0, r, h1, h2, h3⟩ := fw_eval
    (x := some (PyFw.make (constPrng 1) pickCm pickWm pickT 1 () false ∅ none none none))
    (f := fun o => match o.core.run (constPrng 1) (pickCm pickT.indsOrder pickCT.dims)
          (pickWm pickT.indsOrder pickCT.dims) [(fun _ _ => 1, false)],
        ({ o.core with maxNew := 0 } : FwOpt Unit ℤ ℤ).run (constPrng 1) (pickCm pickT.indsOrder pickCT.dims)
          (pickWm pickT.indsOrder pickCT.dims) [(fun _ _ => 1, false)] with
      | .ok a, .ok b => .ok (a, b)
      | _, _ => (.error () : Except Unit _))
    (Q := fun _ r => decide (r.1.slices ≠ r.2.slices) &&
      decide (r.1.inf.ctree.tree.nodes 3 ≠ r.2.inf.ctree.tree.nodes 3)) (by decide +kernel)
  simp only [Option.some.injEq] at h1
  split at h2
  · next a b ha hb =>
    cases h2
    simp only [Bool.and_eq_true, decide_eq_true_eq] at h3
    refine ⟨o0, _, a, b, h1, C26_finite_width_state_partial enum he (constPrng 1) pickCm pickWm ilog2 ilog2_nonneg pickT 1 ()
      false ∅ [] o0 o0.core exCTree {0} pickT_tidy fwTree_wf pickCT_exact (fun s _ => pickCm_pos s) (Or.inl ⟨2, rfl⟩) h1 rfl,
      ha, hb, h3.1, h3.2⟩
  · cases h2

/-- The hypotheses of C26 for the finite-width optimizer (`max_number_new_slices = 0`) and for the
infinite-memory optimizer hold of this tree, with a history of two updates. -/
example : (∃ o0 o, PyFw.make (constPrng 1) pickCm pickWm pickT 0 () false ∅ none none none = .ok o0 ∧
      o0.core.run (constPrng 1) (pickCm pickT.indsOrder pickCT.dims) (pickWm pickT.indsOrder pickCT.dims)
        [(fun _ _ => 1, false), (fun _ _ => 1, true)] = .ok o) ∧
    ∃ o0 o, PyInf.make pickCm pickT () false none = .ok o0 ∧
      o0.core.run (constPrng 1).toPrng (pickCm pickT.indsOrder pickCT.dims) [fun _ _ => 1, fun _ _ => 1] = some o := by
  constructor
  · obtain ⟨o0, r, h1, h2, -⟩ := fw_eval
      (x := some (PyFw.make (constPrng 1) pickCm pickWm pickT 0 () false ∅ none none none))
      (f := fun o => o.core.run (constPrng 1) (pickCm pickT.indsOrder pickCT.dims)
          (pickWm pickT.indsOrder pickCT.dims) [(fun _ _ => 1, false), (fun _ _ => 1, true)])
      (Q := fun _ _ => true) (by decide +kernel)
    exact ⟨o0, r, Option.some.inj h1, h2⟩
  · obtain ⟨o0, r, h1, h2, -⟩ := fw_eval
      (x := some (PyInf.make (σ := Unit) pickCm pickT () false none))
      (f := fun o => match o.core.run (constPrng 1).toPrng (pickCm pickT.indsOrder pickCT.dims)
          [fun _ _ => 1, fun _ _ => 1] with | some a => .ok a | none => (.error () : Except Unit _))
      (Q := fun _ _ => true) (by decide +kernel)
    refine ⟨o0, r, Option.some.inj h1, ?_⟩
    split at h2
    · next h => cases h2; exact h
    · cases h2

/-- A path as in C26, with its exact hypotheses: the tensors of C09's example. -/
example : (∀ l ∈ exInds, l.Nodup) ∧ ∃ t, PyTree.ofPath exEnum exPath exInds (.int 2) (some [11, 13]) false = .ok t ∧
    ∀ s : ISet, 0 < (simpleModel t.core.dims).get s := by
  obtain ⟨t, ht⟩ := exPath_ok
  refine ⟨by decide, t, ht, fun s => ?_⟩
  have hd : t.core.dims = .int 2 ∨ t.core.dims = .vec [] := by
    obtain ⟨l, hl, hd⟩ := (ofPath_tidy ht).dims
    obtain ⟨-, hn, hnd, hmem, hdim⟩ := C10_core_exact exEnum exEnum_ok exPath exInds (by decide) _ _ _ t ht
    rcases collapse_cases l with h | ⟨d, h, hne, -⟩
    · rw [h] at hd
      cases l with
      | nil => exact Or.inr hd
      | cons a l =>
        exfalso
        have hall : ∀ j < (a :: l).length, (a :: l).getD j 0 = 2 := by
          intro j hj
          have hj' : j < t.indsOrder.length := by rw [← hn, ← hl]; exact hj
          have := hdim j t.indsOrder[j] (List.getElem?_eq_getElem hj')
          simp only [PyDims.get?, Option.some.injEq] at this
          rw [hd] at this; exact this.symm
        have h0 : a = 2 := by simpa using hall 0 (by simp)
        unfold Dims.collapse at h
        simp only at h
        rw [if_pos] at h
        · cases h
        · rw [List.all_eq_true]
          intro x hx
          obtain ⟨i, hi, rfl⟩ := List.mem_iff_getElem.1 hx
          have := hall (i + 1) (by simp; omega)
          simp only [List.getD_cons_succ] at this
          rw [List.getD_eq_getElem _ _ hi] at this
          simp [this, h0]
    · have hlt : 0 < t.indsOrder.length := by
        rw [← hn, ← hl]; exact List.length_pos_iff.2 hne
      have := hdim 0 t.indsOrder[0] (List.getElem?_eq_getElem hlt)
      simp only [PyDims.get?, Option.some.injEq] at this
      rw [hd, h] at this
      simp only [Dims.get] at this
      left; rw [hd, h, ← this]
  rcases hd with h | h
  · rw [h]; show (0 : ℤ) < ((2 ^ s.card : ℕ) : ℤ); positivity
  · exfalso
    have : t.core.nInds = 0 := by
      obtain ⟨l, hl, hd⟩ := (ofPath_tidy ht).dims
      rcases collapse_cases l with h' | ⟨d, h', -, -⟩
      · rw [h', h] at hd; cases hd; exact hl.symm
      · rw [h', h] at hd; cases hd
    have hn := (C10_core_exact exEnum exEnum_ok exPath exInds (by decide) _ _ _ t ht).2.1
    have hlen := (C09_represents exEnum exEnum_ok exPath exInds (by decide) _ _ _ (by decide) t ht)
    obtain ⟨-, F, u, -, hF, hu, -, -, -, hp, -⟩ := hlen
    rw [show initTerms exInds.length = initTerms 4 from rfl, exPath_replay] at hF
    cases hF
    have hu' : u = exTerm := by
      have : List.filter Term.isPair [Term.tensor 2, exTerm] = [exTerm] := by decide
      rw [this] at hu; exact (List.cons.inj hu).1.symm
    have h3 : 0 ∈ t.tensorsPos := (hp 0).2 (by rw [hu']; decide)
    have := ((C10_core_exact exEnum exEnum_ok exPath exInds (by decide) _ _ _ t ht).2.2.2.1 10).2 ⟨0, h3, by decide⟩
    have hl0 : t.indsOrder.length = 0 := by omega
    rw [List.length_eq_zero_iff] at hl0
    rw [hl0] at this; simp at this

end TNCO
