import Verif.Model.Compare
import Verif.Props.Pickle
import Verif.Props.CostModel

/-!
Comparison of trees is equality of states; optimizers are what their constructor makes of the arguments of `__reduce__`.
-/

namespace TNCO
open PTree

variable {ι : Type} [DecidableEq ι]

theorem CTree.same_iff {c d : CTree} (hc : c.Clean) (hd : d.Clean) : c.same d = true ↔ c = d := by
  constructor
  · intro h
    unfold CTree.same Tree.same at h
    simp only [Bool.and_eq_true, beq_iff_eq, List.all_eq_true, List.mem_range, decide_eq_true_eq] at h
    obtain ⟨⟨⟨h1, h2⟩, h3, h4⟩, h5⟩ := h
    have e1 : c.tree.nodes = d.tree.nodes := by
      funext p
      by_cases hp : p < c.tree.size
      · exact h2 p hp
      · rw [hc.nodes_out p (by omega), hd.nodes_out p (by omega)]
    have e2 : c.inds = d.inds := by
      funext p
      by_cases hp : p < c.tree.size
      · exact h4 p hp
      · rw [hc.inds_out p (by omega), hd.inds_out p (by omega)]
    obtain ⟨⟨s, n⟩, k, i, m⟩ := c
    obtain ⟨⟨s', n'⟩, k', i', m'⟩ := d
    simp only at h1 h3 h5 e1 e2
    subst h1 h3 h5 e1 e2
    rfl
  · rintro rfl
    simp [CTree.same, Tree.same]

theorem PyTree.same_iff {t u : PyTree ι} (hc : t.core.Clean) (hd : u.core.Clean) :
    t.same u = true ↔ t.core = u.core ∧ t.indsOrder = u.indsOrder := by
  unfold PyTree.same
  rw [Bool.and_eq_true, CTree.same_iff hc hd, decide_eq_true_eq]

theorem getCtree_tidy {c : CTree} {order : List ι} (h : c.Tidy order) (hv : c.isValid false = true) (hs : 0 < c.tree.size) (nT : ℕ) (tp : List ℕ) :
    getCtree ⟨.dict (dimOf order c.dims), nT, tp, order⟩ c = .ok ⟨c, nT, tp, order⟩ := by
  obtain ⟨names, h1, h2, h3⟩ := names_mapM (c := c) h.len
  unfold getCtree
  simp only [h1]
  exact ofNodes_tidy h hv hs names nT tp h2 h3

theorem core_eq_of_eq {enum : Finset ι → List ι} {m m' : PyCost ι} {order : List ι} {c c' : CostCore} (h : m.eq m' = true)
    (h1 : m.core enum order = .ok c) (h2 : m'.core enum order = .ok c') : c = c' := by
  obtain ⟨-, hs, hn⟩ := (C58_eq m m').1 h
  unfold PyCost.core at h1 h2
  rw [← hs] at h2
  split at h1
  · next h0 => rw [h0] at h2; cases h1; cases h2; rfl
  next s h0 =>
  simp only [h0] at h2
  split at h1
  · next he => rw [if_pos he] at h2; cases h1; cases h2; rfl
  next he =>
  rw [if_neg he] at h2
  split at h1
  · cases h1
  next hu =>
  rw [if_neg hu] at h2
  cases hb : bitsIn order (enum s) with
  | error e => simp only [hb] at h1; cases h1
  | ok b =>
    simp only [hb] at h1 h2
    have : ∀ {x y : Option PyNum} {n k : ℕ}, x.map PyNum.val = y.map PyNum.val → projsArg x = .ok n → projsArg y = .ok k → n = k := by
      intro x y n k hxy hx hy
      unfold projsArg at hx hy
      split at hx
      · cases hx
      · next a _ =>
        cases hx
        split at hy
        · cases hy
        · next b _ =>
          cases hy
          simp only [Option.map_some, PyNum.val, Option.some.injEq] at hxy
          simpa using hxy
        · cases hy
      · cases hx
    cases hp : projsArg m.nProjs with
    | error e => simp only [hp] at h1; cases h1
    | ok n =>
      cases hp' : projsArg m'.nProjs with
      | error e => simp only [hp'] at h2; cases h2
      | ok k =>
        simp only [hp, hp'] at h1 h2
        cases h1; cases h2
        rw [this hn hp hp']

/-- The number of projections of a core is positive. -/
theorem core_projs {enum : Finset ι → List ι} {m : PyCost ι} {order : List ι} {b : ISet} {n : ℕ}
    (h : m.core enum order = .ok (.sparse b n)) : 0 < n := by
  unfold PyCost.core at h
  split at h
  · cases h
  split at h
  · cases h
  split at h
  · cases h
  split at h
  · cases h
  split at h
  · cases h
  next k hk =>
  cases h
  unfold projsArg at hk
  split at hk
  · cases hk
  · next h0 _ =>
    cases hk
    rcases Nat.eq_zero_or_pos n with rfl | h
    · exact absurd rfl h0
    · exact h
  · cases hk

theorem core_pos {enum : Finset ι → List ι} {m : PyCost ι} {order : List ι} {c : CostCore} (h : m.core enum order = .ok c) {dims : Dims} {n : ℕ}
    (hd : dims.ok n = true) {s : ISet} (hs : s ⊆ Finset.range n) : 0 < (c.model dims).get s := by
  have key : ∀ s : ISet, s ⊆ Finset.range n → 0 < simpleGet dims s := by
    intro s hs
    cases dims with
    | int d =>
      simp only [Dims.ok, bne_iff_ne] at hd
      exact pow_pos (Nat.pos_of_ne_zero hd) _
    | vec l =>
      simp only [Dims.ok, Bool.and_eq_true, beq_iff_eq, List.all_eq_true, bne_iff_ne] at hd
      refine Finset.prod_pos fun i hi => ?_
      have : i < l.length := by rw [hd.1]; simpa using hs hi
      rw [List.getD_eq_getElem _ _ this]
      exact Nat.pos_of_ne_zero (hd.2 _ (List.getElem_mem _))
  show (0 : ℤ) < ((c.cost dims s : ℕ) : ℤ)
  have : 0 < c.cost dims s := by
    cases c with
    | simple => exact key s hs
    | sparse b k =>
      have hk := core_projs h
      show 0 < sparseGet b k dims s
      unfold sparseGet
      refine Nat.mul_pos (key _ (Finset.sdiff_subset.trans hs)) ?_
      split
      · exact key _ (Finset.inter_subset_left.trans hs)
      · exact hk
  exact_mod_cast this

section
variable {σ P : Type} [LinearOrder P]

/-- `InfOpt.make` of the arguments of `__reduce__` is the optimizer. -/
theorem inf_rebuild {R : Type} [AddCommGroup R] [LinearOrder R] [IsOrderedAddMonoid R] {enum : Finset ι → List ι} (he : EnumOk enum) {g : Prng σ P}
    {cm : List ι → Dims → CostModel R} {t : PyTree ι} {seed : σ} {dis : Bool} {probs : List (R → R → P)} {o0 : PyInf ι σ R} {o : InfOpt σ R}
    {t0 : PTree} {out : ISet} (htidy : t.core.Tidy t.indsOrder) (hwf : WellFormed t.core.tree t0) (hex : IndsExact t.core.inds out t0)
    (hpos : ∀ s, s ⊆ Finset.range t.core.nInds → 0 < (cm t.indsOrder t.core.dims).get s)
    (hmk : PyInf.make cm t seed dis none = .ok o0) (hrun : o0.core.run g (cm t.indsOrder t.core.dims) probs = some o) :
    o0.cache = t.cache ∧ o.ctree.dims = t.core.dims ∧ o.ctree.Clean ∧ o.minCtree.Clean ∧
    getCtree t.cache o.ctree = .ok ⟨o.ctree, t.nTensors, t.tensorsPos, t.indsOrder⟩ ∧
    getCtree t.cache o.minCtree = .ok ⟨o.minCtree, t.nTensors, t.tensorsPos, t.indsOrder⟩ ∧
    InfOpt.make (cm t.indsOrder t.core.dims) o.ctree o.prng o.disableShared (some o.minCtree) = some (.ok o) := by
  have hst := C26_infinite_memory_state enum he g cm t seed dis probs o0 o t0 out htidy hwf hex hpos hmk hrun
  unfold PyInf.make at hmk
  simp only [Option.map_none] at hmk
  split at hmk
  · cases hmk
  · cases hmk
  next oc hoc =>
  cases hmk
  set m := cm t.indsOrder t.core.dims with hm
  have key := fun qs o1 (h1 : oc.run g m qs = some o1) => inf_state htidy hwf hex hpos hoc h1
  obtain ⟨hcl, hti, hT, hvd, hv, hd, hdis, htp⟩ := key probs o hrun
  obtain ⟨hmin, -⟩ := C15_min_is_best g m t.core seed dis none oc o probs ⟨t0, hwf⟩ hoc hrun
  obtain ⟨qs, o1, hq, hmo⟩ : ∃ qs o1, oc.run g m qs = some o1 ∧ o.minCtree = o1.ctree := by
    rcases hmin with h | ⟨p1, p2, o1, -, -, h1, h2⟩
    · refine ⟨[], oc, rfl, ?_⟩
      rw [h, (make_inv hwf hoc (out? := none) (by simp)).2.1]; rfl
    · exact ⟨p1, o1, h1, h2⟩
  obtain ⟨hcl1, hti1, hT1, hvd1, hv1, hd1, -, htp1⟩ := key qs o1 hq
  have hspos : ∀ {T : Tree}, IsTree T → 0 < T.size := fun ⟨_, h⟩ => h.linked.pos
  have hg1 : getCtree t.cache o.ctree = .ok ⟨o.ctree, t.nTensors, t.tensorsPos, t.indsOrder⟩ := by
    have := getCtree_tidy hti hv (hspos hT) t.nTensors t.tensorsPos
    rw [hd] at this; exact this
  have hg2 : getCtree t.cache o.minCtree = .ok ⟨o.minCtree, t.nTensors, t.tensorsPos, t.indsOrder⟩ := by
    rw [hmo]
    have := getCtree_tidy hti1 hv1 (hspos hT1) t.nTensors t.tensorsPos
    rw [hd1] at this; exact this
  have hs1 : shipTree enum t.cache o.ctree = .ok ⟨o.ctree, t.nTensors, t.tensorsPos, t.indsOrder⟩ := by
    have := shipTree_tidy he hti hv (hspos hT) t.nTensors t.tensorsPos
    rw [hd] at this; exact this
  have hs2 : shipTree enum t.cache o.minCtree = .ok ⟨o.minCtree, t.nTensors, t.tensorsPos, t.indsOrder⟩ := by
    rw [hmo]
    have := shipTree_tidy he hti1 hv1 (hspos hT1) t.nTensors t.tensorsPos
    rw [hd1] at this; exact this
  refine ⟨rfl, hd, hti.clean, hmo ▸ hti1.clean, hg1, hg2, ?_⟩
  unfold PyInf.unpickle at hst
  simp only [hs1, hs2] at hst
  unfold PyInf.make at hst
  simp only [Option.map_some, hd, ← hm] at hst
  split at hst
  · cases hst
  · cases hst
  next oc' hoc' =>
  simp only [Except.ok.injEq, PyInf.mk.injEq] at hst
  rw [hoc', hst.1]

end

section
variable {σ P R W : Type} [AddCommGroup R] [LinearOrder R] [IsOrderedAddMonoid R] [LinearOrder P]
  [AddCommGroup W] [LinearOrder W] [IsOrderedAddMonoid W]

/-- `FwOpt.pyMake` of the arguments of `__reduce__` is the optimizer, up to `max_number_new_slices`. -/
theorem fw_rebuild {enum : Finset ι → List ι} (he : EnumOk enum) {g : FwPrng σ P}
    {cm : List ι → Dims → CostModel R} {wm : List ι → Dims → WidthModel W} {log2 : ℕ → W} (hlog : ∀ n, 0 ≤ log2 n)
    {t : PyTree ι} {maxNew : ℕ} {seed : σ} {dis : Bool} {skip : Finset ι} {ps : List ((R → R → P) × Bool)}
    {o0 : PyFw ι σ R W} {o : FwOpt σ R W} {t0 : PTree} {out : ISet}
    (htidy : t.core.Tidy t.indsOrder) (hwf : WellFormed t.core.tree t0) (hex : IndsExact t.core.inds out t0)
    (hpos : ∀ s, s ⊆ Finset.range t.core.nInds → 0 < (cm t.indsOrder t.core.dims).get s)
    (hmodel : (∃ mw, simpleWidthModel log2 t.core.dims mw = some (wm t.indsOrder t.core.dims)) ∨
      (maxNew = 0 ∧ ∃ mw sparse nProjs,
        sparseWidthModel log2 t.core.dims mw sparse nProjs = some (wm t.indsOrder t.core.dims)))
    (hmk : PyFw.make g cm wm t maxNew seed dis skip none none none = .ok o0)
    (hrun : o0.core.run g (cm t.indsOrder t.core.dims) (wm t.indsOrder t.core.dims) ps = .ok o) :
    o0.cache = t.cache ∧ o0.skip = skip ∧ o.maxNew = maxNew ∧ o.inf.ctree.dims = t.core.dims ∧ o.inf.ctree.nInds = t.core.nInds ∧
    o.inf.ctree.Clean ∧ o.inf.minCtree.Clean ∧
    getCtree t.cache o.inf.ctree = .ok ⟨o.inf.ctree, t.nTensors, t.tensorsPos, t.indsOrder⟩ ∧
    getCtree t.cache o.inf.minCtree = .ok ⟨o.inf.minCtree, t.nTensors, t.tensorsPos, t.indsOrder⟩ ∧
    ∃ f1 f2 sk, ofBits t.indsOrder o.inf.ctree.nInds o.slices = some f1 ∧ ofBits t.indsOrder o.inf.ctree.nInds o.minSlices = some f2 ∧
      toBits t.indsOrder skip = some sk ∧ toBits t.indsOrder f1 = some o.slices ∧ toBits t.indsOrder f2 = some o.minSlices ∧
      FwOpt.pyMake g (cm t.indsOrder t.core.dims) (wm t.indsOrder t.core.dims) o.inf.ctree 0 o.inf.prng o.inf.disableShared sk
        (some o.inf.minCtree) (some o.slices) (some o.minSlices) = some (.ok { o with maxNew := 0 }) := by
  have hst := C26_finite_width_state_partial enum he g cm wm log2 hlog t maxNew seed dis skip ps o0 o t0 out htidy hwf hex hpos hmodel hmk hrun
  unfold PyFw.make at hmk
  split at hmk
  · cases hmk
  next sk hsk =>
  simp only [Option.mapM_none, Option.pure_def, Option.map_none] at hmk
  split at hmk
  · cases hmk
  · cases hmk
  next oc hoc =>
  cases hmk
  simp only at hrun hst ⊢
  set m := cm t.indsOrder t.core.dims with hm
  set w := wm t.indsOrder t.core.dims with hwd
  have hwm : OfferedWidth log2 t.core.dims w := by
    rcases hmodel with h | ⟨-, h⟩
    · exact Or.inl h
    · exact Or.inr h
  have key := fun qs o1 (h1 : oc.run g m w qs = .ok o1) => fw_state hlog hwm htidy hwf hex hpos hoc h1
  obtain ⟨hcl, hti, hT, hvd, hv, hd, hni, hdis, htp, hskip⟩ := key ps o hrun
  obtain ⟨hmin, -⟩ := C24_min g m log2 hlog w t.core maxNew seed dis sk none none none oc o ps t0 out hwm hwf hex (by simp) hoc hrun
  obtain ⟨qs, o1, hq, hmo, hms⟩ : ∃ qs o1, oc.run g m w qs = .ok o1 ∧ o.inf.minCtree = o1.inf.ctree ∧ o.minSlices = o1.slices := by
    rcases hmin with ⟨h, h'⟩ | ⟨p1, p2, o1, -, -, h1, h2, h3⟩
    · refine ⟨[], oc, rfl, ?_, h'⟩
      rw [h, (pyMake_inv (offered_lawful hlog hwm).1 hwf (by simp) hoc (out? := none) (by simp)).2.1]; rfl
    · exact ⟨p1, o1, h1, h2, h3⟩
  obtain ⟨hcl1, hti1, hT1, hvd1, hv1, hd1, hni1, -, htp1, -⟩ := key qs o1 hq
  have hmn : o.maxNew = maxNew := by
    obtain ⟨hI0, -, -, -, -, -, -, -, -, -, -, hmn, -⟩ := pyMake_inv (offered_lawful hlog hwm).1 hwf (by simp) hoc (out? := none) (by simp)
    rcases frun_history g _ (offered_lawful hlog hwm).1 (by simp) ps hI0 with ⟨h, -⟩ | ⟨o', t', hrun', -, hS, -⟩
    · rw [hrun] at h; cases h
    rw [hrun] at hrun'; cases hrun'
    rw [hS.maxNew, hmn]
  have hspos : ∀ {T : Tree}, IsTree T → 0 < T.size := fun ⟨_, h⟩ => h.linked.pos
  have hg1 : getCtree t.cache o.inf.ctree = .ok ⟨o.inf.ctree, t.nTensors, t.tensorsPos, t.indsOrder⟩ := by
    have := getCtree_tidy hti hv (hspos hT) t.nTensors t.tensorsPos
    rw [hd] at this; exact this
  have hg2 : getCtree t.cache o.inf.minCtree = .ok ⟨o.inf.minCtree, t.nTensors, t.tensorsPos, t.indsOrder⟩ := by
    rw [hmo]
    have := getCtree_tidy hti1 hv1 (hspos hT1) t.nTensors t.tensorsPos
    rw [hd1] at this; exact this
  have hs1 : shipTree enum t.cache o.inf.ctree = .ok ⟨o.inf.ctree, t.nTensors, t.tensorsPos, t.indsOrder⟩ := by
    have := shipTree_tidy he hti hv (hspos hT) t.nTensors t.tensorsPos
    rw [hd] at this; exact this
  have hs2 : shipTree enum t.cache o.inf.minCtree = .ok ⟨o.inf.minCtree, t.nTensors, t.tensorsPos, t.indsOrder⟩ := by
    rw [hmo]
    have := shipTree_tidy he hti1 hv1 (hspos hT1) t.nTensors t.tensorsPos
    rw [hd1] at this; exact this
  obtain ⟨f1, hf1, hb1⟩ := bits_round_trip hti.nodup hti.len hcl.slices_lt
  obtain ⟨f2, hf2, hb2⟩ := bits_round_trip hti.nodup hti.len hcl.minSlices_lt
  refine ⟨trivial, trivial, hmn, hd, hni, hti.clean, hmo ▸ hti1.clean, hg1, hg2, f1, f2, sk, hf1, hf2, hsk, hb1, hb2, ?_⟩
  unfold PyFw.unpickle at hst
  simp only [hs1, hs2] at hst
  have hca : t.cache.indsOrder = t.indsOrder := rfl
  simp only [hca, hf1, hf2] at hst
  unfold PyFw.make at hst
  simp only [hsk, Option.map_some] at hst
  have hc1 : (some f1 : Option (Finset ι)).mapM (toBits t.indsOrder) = some (some o.slices) := by simp [hb1]
  have hc2 : (some f2 : Option (Finset ι)).mapM (toBits t.indsOrder) = some (some o.minSlices) := by simp [hb2]
  simp only [hc1, hc2, hd, ← hm, ← hwd] at hst
  split at hst
  · cases hst
  · cases hst
  next oc' hoc' =>
  simp only [Except.ok.injEq, PyFw.mk.injEq] at hst
  rw [hoc', hst.1]

end
end TNCO
