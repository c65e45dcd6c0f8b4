import Verif.Lemmas.RoundingFw
import Mathlib.Analysis.SpecialFunctions.Log.Base

/-!
# Property C67: the finite-width optimizer with floating-point costs and widths

`FwOpt.pyMakeWith bad over` is the Python constructor (`bad x`: `log2(x)` is infinite or NaN; `over w`: the width `w` is larger than `max_width` in Python),
`FwOpt.run g m wm o ps` a history of updates. Costs and widths are numbers of types with any operations in `C67_tree`, and numbers of two floating-point
formats in the rest.
-/

namespace TNCO
open PTree

section
variable {σ P R W : Type} [Zero R] [Add R] [Sub R] [LT R] [DecidableLT R] [LE P] [DecidableLE P]
  [Add W] [Sub W] [LT W] [DecidableLT W] [LE W] [DecidableLE W]

/-- C67: whatever the arithmetic of costs and widths does, a history of updates either ends with the division by zero of `prng() % 0` - only if
`max_number_new_slices > 0` - or with a contraction tree of the same network: the same positions, leaf indices, output indices and dimensions, exact index
sets, accepted by `is_valid`; no skipped index is sliced. -/
theorem C67_tree (bad : R → Prop) [DecidablePred bad] (over : W → Prop) [DecidablePred over] (g : FwPrng σ P) (m : CostModel R) (wm : WidthModel W)
    (c : CTree) (maxNew : ℕ) (seed : σ) (dis : Bool) (skip : ISet) (minC : Option CTree) (slices minSlices : Option ISet) (t0 : PTree) (out : ISet)
    (o0 : FwOpt σ R W) (ps : List ((R → R → P) × Bool)) (hwf : WellFormed c.tree t0) (hex : IndsExact c.inds out t0)
    (hgiven : ∀ sl, slices = some sl → Disjoint sl skip)
    (hmk : FwOpt.pyMakeWith bad over g m wm c maxNew seed dis skip minC slices minSlices = some (.ok o0)) :
    (o0.run g m wm ps = .error .divByZero ∧ 0 < maxNew) ∨
    ∃ o t, o0.run g m wm ps = .ok o ∧ WellFormed o.inf.ctree.tree t ∧ o.inf.ctree.tree.size = c.tree.size ∧
      (∀ p < (c.tree.size + 1) / 2, o.inf.ctree.inds p = c.inds p) ∧ o.inf.ctree.inds (c.tree.size - 1) = c.inds (c.tree.size - 1) ∧
      o.inf.ctree.dims = c.dims ∧ IndsExact o.inf.ctree.inds out t ∧ o.inf.ctree.isValid (!dis) = true ∧ Disjoint o.slices skip := by
  set U : ISet := (Finset.range c.tree.nLeaves).biUnion c.inds ∪ slices.getD ∅ with hUdef
  have hU : ∀ q < c.tree.nLeaves, c.inds q ⊆ U := fun q hq =>
    (Finset.subset_biUnion_of_mem c.inds (Finset.mem_range.2 hq)).trans Finset.subset_union_left
  obtain ⟨v, hO, hc, hdis, -, -, -, -, -, hv, -, hsk, hmn, -, -⟩ := fmake_shadow g (trivial_rel m) (trivial_width wm U) hwf hU (Or.inl (by simp))
    (fun sl h => ⟨by rw [hUdef, h]; exact Finset.subset_union_right, fun k hk => by rw [skip_some hk]; exact hgiven sl h⟩)
    (pyMakeWith_make hmk) (out? := some out) (by rintro _ ⟨⟩; exact indsExact_iff.1 hex)
  rcases fhistory_shadow g (trivial_rel m) (trivial_width wm U) (by intro h; simp) ps hO with ⟨h, h1, -⟩ | ⟨o, v', t, hrun, hO', hst, hs', -, -⟩
  · left; rw [hmn] at h1; exact ⟨h, h1⟩
  right
  have hvc : v.ctree = c := by rw [← hO.shadow.ctree, hc]
  have hI := hO'.inv
  have hwf' : WellFormed v'.ctree.tree t := hI.wf
  refine ⟨o, t, hrun, ?_⟩
  rw [hO'.shadow.ctree]
  have h1 := hst.size
  have h2 := hst.leafInds
  have h3 := hst.rootInds
  have h4 := hst.dims
  have h5 := hst.nInds
  rw [hvc] at h1 h2 h3 h4 h5
  refine ⟨hwf', h1, h2, h3, h4, indsExact_iff.2 (hI.sem out rfl), (ctree_isValid_iff hwf' _).2 ⟨?_, PTree.sem_loc (hI.sem out rfl), ?_⟩, ?_⟩
  · rw [h4, h5]; exact ((ctree_isValid_iff hwf _).1 hv).1
  · intro h; exact hI.shr (by simpa using h)
  · by_cases he : skip = ∅
    · rw [he]; exact Finset.disjoint_empty_right _
    · refine hO'.skip skip ?_
      rw [hs', hsk, if_neg he]

end

section
variable {σ P W : Type} [LE P] [DecidableLE P] [Add W] [Sub W] [LT W] [DecidableLT W] [LE W] [DecidableLE W]
variable {F : FloatFormat} {p kc : ℕ} {U : ISet} {m : CostModel (Fl F)} {wm : WidthModel W} {cost : ISet → ℕ}

/-- C67: after any history of updates, the total cost is the cost of the current tree with the current slices, with the error of `kc + n_tensors - 1`
roundings - however long the history is and whatever the widths are. -/
theorem C67_cost (over : W → Prop) [DecidablePred over] (g : FwPrng σ P) (c : CTree) (maxNew : ℕ) (seed : σ) (dis : Bool) (skip : ISet)
    (minC : Option CTree) (slices minSlices : Option ISet) (o0 o : FwOpt σ (Fl F) W) (ps : List ((Fl F → Fl F → P) × Bool))
    (hm : RoundedCosts F p kc U m cost) (htree : IsTree c.tree) (hU : ∀ q < c.tree.nLeaves, c.inds q ⊆ U)
    (hgiven : ∀ sl, slices = some sl → sl ⊆ U ∧ Disjoint sl skip)
    (hmk : FwOpt.pyMakeWith Fl.badLog over g m wm c maxNew seed dis skip minC slices minSlices = some (.ok o0)) (hrun : o0.run g m wm ps = .ok o) :
    ∃ t, WellFormed o.inf.ctree.tree t ∧
      Within F p (kc + (c.tree.size - 1)) o.inf.totalCost (treeCost (fun X => cost (X ∪ o.slices)) o.inf.ctree.inds t : ℕ) := by
  obtain ⟨t0, hwf⟩ := htree
  obtain ⟨v, hO, hc, -⟩ := fmake_shadow g (ledger_rel hm) (trivial_width wm U) hwf hU (Or.inl (by simp))
    (fun sl h => ⟨(hgiven sl h).1, fun k hk => by rw [skip_some hk]; exact (hgiven sl h).2⟩) (pyMakeWith_make hmk) (out? := none) (by simp)
  rcases fhistory_shadow g (ledger_rel hm) (trivial_width wm U) (by intro h; simp at h) ps hO with ⟨h, -⟩ | ⟨o', v', t, hrun', hO', hst, -⟩
  · rw [hrun] at h; cases h
  rw [hrun] at hrun'; cases hrun'
  obtain ⟨h1, -, h2⟩ := fshadow_total hO'
  have := hst.size
  rw [← hO'.shadow.ctree, ← hO.shadow.ctree, hc] at this
  exact ⟨t, h1, by rw [← this]; exact h2⟩

/-- C67: `(min_ctree, min_slices)` is the initial state or the state after an update, the recorded minimum is its cost up to the same error, and its exact
cost is at most the exact cost of every state visited, up to the errors of the two. -/
theorem C67_min (over : W → Prop) [DecidablePred over] (g : FwPrng σ P) (c : CTree) (maxNew : ℕ) (seed : σ) (dis : Bool) (skip : ISet)
    (slices : Option ISet) (o0 o : FwOpt σ (Fl F) W) (ps : List ((Fl F → Fl F → P) × Bool))
    (hm : RoundedCosts F p kc U m cost) (htree : IsTree c.tree) (hU : ∀ q < c.tree.nLeaves, c.inds q ⊆ U)
    (hgiven : ∀ sl, slices = some sl → sl ⊆ U ∧ Disjoint sl skip)
    (hmk : FwOpt.pyMakeWith Fl.badLog over g m wm c maxNew seed dis skip none slices none = some (.ok o0)) (hrun : o0.run g m wm ps = .ok o) :
    ((o.inf.minCtree = c ∧ o.minSlices = o0.slices) ∨ ∃ p1 p2 o1, p1 ≠ [] ∧ ps = p1 ++ p2 ∧ o0.run g m wm p1 = .ok o1 ∧
      o.inf.minCtree = o1.inf.ctree ∧ o.minSlices = o1.slices) ∧
    ∃ t, WellFormed o.inf.minCtree.tree t ∧
      Within F p (kc + (c.tree.size - 1)) o.inf.minTotal (treeCost (fun X => cost (X ∪ o.minSlices)) o.inf.minCtree.inds t : ℕ) ∧
      ∀ p1 p2 o1, ps = p1 ++ p2 → o0.run g m wm p1 = .ok o1 → ∃ t1, WellFormed o1.inf.ctree.tree t1 ∧
        (1 - 1 / 2 ^ p) ^ (kc + (c.tree.size - 1)) * ((treeCost (fun X => cost (X ∪ o.minSlices)) o.inf.minCtree.inds t : ℕ) : ℚ) ≤
          (1 + 1 / 2 ^ p) ^ (kc + (c.tree.size - 1)) * ((treeCost (fun X => cost (X ∪ o1.slices)) o1.inf.ctree.inds t1 : ℕ) : ℚ) := by
  obtain ⟨t0, hwf⟩ := htree
  obtain ⟨v, hO, hc, -, hmc, hms, hmt, hb1, hb2, hv, -⟩ := fmake_shadow g (ledger_rel hm) (trivial_width wm U) hwf hU (Or.inl (by simp))
    (fun sl h => ⟨(hgiven sl h).1, fun k hk => by rw [skip_some hk]; exact (hgiven sl h).2⟩) (pyMakeWith_make hmk) (out? := none) (by simp)
  simp only [Option.getD_none] at hmc hms hmt
  have hloc0 := ((ctree_isValid_iff hwf _).1 hv).2.1
  rw [hms] at hmt
  have hw0 := getCost_within (hm.sliced hO.slicesU) hwf hloc0 hU hmt
  have hfin : o0.inf.minTotal ≠ Flt.inf false := by intro e; rw [e] at hb2; exact hb2 trivial
  have hsz : o0.inf.ctree.tree.size ≠ 1 := by
    intro e
    obtain ⟨e1, e2, e3⟩ := hwf.size_eq
    have hl : t0.leaves.length = 1 := by rw [e2]; unfold Tree.nLeaves; rw [← hc, e]
    have hcost : treeCost (fun X => cost (X ∪ o0.slices)) c.inds t0 = 0 := by
      cases t0 with
      | leaf q => rfl
      | node q l r =>
        have p1 := l.inner_card
        have p2 := r.inner_card
        simp only [leaves, List.length_append] at hl
        omega
    rw [hcost] at hw0
    rcases hw0 with ⟨q, eq, -, -, h⟩ | ⟨eq, h⟩
    · rw [eq] at hb2
      refine hb2 ?_
      show q ≤ 0
      simpa using h
    · exact hfin eq
  have hmain := fmin_history_shadow hm (trivial_width wm U) g ps hO hsz hw0.ne_nan hrun
  have hminfin : o.inf.minTotal ≠ Flt.inf false := by
    intro e
    have h := hmain.2.1
    rw [e] at h
    rcases hw0 with ⟨q, eq, -⟩ | ⟨eq, -⟩
    · rw [eq] at h; exact h rfl
    · exact hfin eq
  have cur : ∀ qs o1, o0.run g m wm qs = .ok o1 → ∃ t, WellFormed o1.inf.ctree.tree t ∧
      Within F p (kc + (c.tree.size - 1)) o1.inf.totalCost (treeCost (fun X => cost (X ∪ o1.slices)) o1.inf.ctree.inds t : ℕ) :=
    fun qs o1 h1 => C67_cost over g c maxNew seed dis skip none slices none o0 o1 qs hm ⟨t0, hwf⟩ hU hgiven hmk h1
  obtain ⟨tm, hwm, hm1, hm2⟩ : ∃ t, WellFormed o.inf.minCtree.tree t ∧
      Within F p (kc + (c.tree.size - 1)) o.inf.minTotal (treeCost (fun X => cost (X ∪ o.minSlices)) o.inf.minCtree.inds t : ℕ) ∧
      ((o.inf.minCtree = c ∧ o.minSlices = o0.slices) ∨ ∃ p1 p2 o1, p1 ≠ [] ∧ ps = p1 ++ p2 ∧ o0.run g m wm p1 = .ok o1 ∧
        o.inf.minCtree = o1.inf.ctree ∧ o.minSlices = o1.slices) := by
    rcases hmain.2.2.2 with ⟨a, b, d⟩ | ⟨p1, p2, o1, h0, h1, h2, h3, h4, h5⟩
    · rw [b, a, d, hmc, hms]; exact ⟨t0, hwf, hw0, Or.inl ⟨rfl, rfl⟩⟩
    · obtain ⟨t, q1, q2⟩ := cur p1 o1 h2
      rw [h4, h3, h5]; exact ⟨t, q1, q2, Or.inr ⟨p1, p2, o1, h0, h1, h2, rfl, rfl⟩⟩
  refine ⟨hm2, tm, hwm, hm1, ?_⟩
  intro p1 p2 o1 hp h1
  subst hp
  rw [frun_append_raw, h1] at hrun
  change o1.run g m wm p2 = .ok o at hrun
  rcases fhistory_shadow g (ledger_rel hm) (trivial_width wm U) (by intro h; simp at h) p1 hO with ⟨h, -⟩ | ⟨o1', v1, t1, hr1, hO1, hs1, -⟩
  · rw [h1] at h; cases h
  rw [h1] at hr1; cases hr1
  have hsz1 : o1.inf.ctree.tree.size ≠ 1 := by rw [hO1.shadow.ctree, hs1.size, ← hO.shadow.ctree]; exact hsz
  have hm0 := fmin_history_shadow hm (trivial_width wm U) g p1 hO hsz hw0.ne_nan h1
  have hmm := fmin_history_shadow hm (trivial_width wm U) g p2 hO1 hsz1 hm0.1 hrun
  by_cases hp1 : p1 = []
  · subst hp1
    simp only [FwOpt.run, Except.ok.injEq] at h1; subst h1
    rw [hc]
    exact ⟨t0, hwf, within_compare hm1 hw0 hminfin hmm.2.1⟩
  · obtain ⟨t, q1, q2⟩ := cur p1 o1 h1
    exact ⟨t, q1, within_compare hm1 q2 hminfin (not_lt_trans' hm0.1 hmm.2.1 (hm0.2.2.1 hp1))⟩

end

section
variable {σ P R : Type} [Zero R] [Add R] [Sub R] [LT R] [DecidableLT R] [LE P] [DecidableLE P] {m : CostModel R}
variable {F : FloatFormat} {p n0 s : ℕ} {A μ : ℚ} {U ks : ISet} {wm : WidthModel (Fl F)} {ω : ISet → ℚ} {κ : ISet → ℕ}

/-- C67: in every reachable state the true width of every tensor of the current and of the best tree, after slicing, is at most `max_width` plus the error
of `n0 + (s + 1) n` roundings for `n` indices - however long the history is and whatever the costs are. (`s`, `n0`: see `C67_simple` and
`C67_sparse`; `ks`: the sparse indices.) -/
theorem C67_width_partial (bad : R → Prop) [DecidablePred bad] (over : Fl F → Prop) [DecidablePred over] (g : FwPrng σ P) (c : CTree) (maxNew : ℕ)
    (seed : σ) (dis : Bool) (skip : ISet) (slices : Option ISet) (o0 o : FwOpt σ R (Fl F)) (ps : List ((R → R → P) × Bool))
    (hw : WidthApprox F p n0 s A U ks wm ω μ) (htree : IsTree c.tree) (hU : ∀ q < c.tree.nLeaves, c.inds q ⊆ U) (hkeep : ks ⊆ skip ∨ maxNew = 0)
    (hgiven : ∀ sl, slices = some sl → sl ⊆ U ∧ Disjoint sl skip)
    (hmk : FwOpt.pyMakeWith bad over g m wm c maxNew seed dis skip none slices none = some (.ok o0)) (hrun : o0.run g m wm ps = .ok o) :
    (∀ q < o.inf.ctree.tree.size, ω (o.inf.ctree.inds q \ o.slices) ≤ μ + widthError p (n0 + (s + 1) * U.card) A) ∧
    ∀ q < o.inf.minCtree.tree.size, ω (o.inf.minCtree.inds q \ o.minSlices) ≤ μ + widthError p (n0 + (s + 1) * U.card) A := by
  rcases fhistory_from_py (approx_rel hw) g htree hU hkeep hgiven hmk ps with ⟨h, -⟩ | ⟨o', h, h1, h2, h3, h4⟩
  · rw [hrun] at h; cases h
  rw [hrun] at h; cases h
  refine ⟨fun q hq => ?_, fun q hq => ?_⟩
  · have := h2 q hq
    rwa [Finset.inter_eq_left.2 (Finset.sdiff_subset.trans (h1 q hq))] at this
  · have := h4 q hq
    rwa [Finset.inter_eq_left.2 (Finset.sdiff_subset.trans (h3 q hq))] at this

/-- C67: no history divides by zero if the skipped indices together fit in `max_width` with a margin for the roundings. -/
theorem C67_no_crash_partial (bad : R → Prop) [DecidablePred bad] (over : Fl F → Prop) [DecidablePred over] (g : FwPrng σ P) (c : CTree) (maxNew : ℕ)
    (seed : σ) (dis : Bool) (skip : ISet) (slices : Option ISet) (o0 : FwOpt σ R (Fl F)) (ps : List ((R → R → P) × Bool))
    (hw : WidthApprox F p n0 s A U ks wm ω μ) (htree : IsTree c.tree) (hU : ∀ q < c.tree.nLeaves, c.inds q ⊆ U) (hkeep : ks ⊆ skip ∨ maxNew = 0)
    (hgiven : ∀ sl, slices = some sl → sl ⊆ U ∧ Disjoint sl skip)
    (hmk : FwOpt.pyMakeWith bad over g m wm c maxNew seed dis skip none slices none = some (.ok o0))
    (hskip : ω (skip ∩ U) + widthError p (n0 + (s + 1) * U.card) A ≤ μ) : ∃ o, o0.run g m wm ps = .ok o := by
  rcases fhistory_from_py (approx_rel hw) g htree hU hkeep hgiven hmk ps with ⟨-, -, xs, hx1, hx2, hx3⟩ | ⟨o, h, -⟩
  · have := hw.mono (Finset.inter_subset_inter_right (u := U) hx2) Finset.inter_subset_right
    linarith
  · exact ⟨o, h⟩

/-- C67: if all dimensions are powers of two, the limit holds exactly (`max_width` as converted to the width type). -/
theorem C67_bits_width (bad : R → Prop) [DecidablePred bad] (over : Fl F → Prop) [DecidablePred over] (g : FwPrng σ P) (c : CTree) (maxNew : ℕ)
    (seed : σ) (dis : Bool) (skip : ISet) (slices : Option ISet) (o0 o : FwOpt σ R (Fl F)) (ps : List ((R → R → P) × Bool))
    (hw : WidthExact F U ks wm κ μ) (htree : IsTree c.tree) (hU : ∀ q < c.tree.nLeaves, c.inds q ⊆ U) (hkeep : ks ⊆ skip ∨ maxNew = 0)
    (hgiven : ∀ sl, slices = some sl → sl ⊆ U ∧ Disjoint sl skip)
    (hmk : FwOpt.pyMakeWith bad over g m wm c maxNew seed dis skip none slices none = some (.ok o0)) (hrun : o0.run g m wm ps = .ok o) :
    (∀ q < o.inf.ctree.tree.size, (κ (o.inf.ctree.inds q \ o.slices) : ℚ) ≤ μ) ∧
    ∀ q < o.inf.minCtree.tree.size, (κ (o.inf.minCtree.inds q \ o.minSlices) : ℚ) ≤ μ := by
  rcases fhistory_from_py (exact_rel hw) g htree hU hkeep hgiven hmk ps with ⟨h, -⟩ | ⟨o', h, h1, h2, h3, h4⟩
  · rw [hrun] at h; cases h
  rw [hrun] at h; cases h
  refine ⟨fun q hq => ?_, fun q hq => ?_⟩
  · have := h2 q hq
    rwa [Finset.inter_eq_left.2 (Finset.sdiff_subset.trans (h1 q hq))] at this
  · have := h4 q hq
    rwa [Finset.inter_eq_left.2 (Finset.sdiff_subset.trans (h3 q hq))] at this

/-- C67: if all dimensions are powers of two, no history divides by zero if the skipped indices together fit in `max_width`. -/
theorem C67_bits_no_crash (bad : R → Prop) [DecidablePred bad] (over : Fl F → Prop) [DecidablePred over] (g : FwPrng σ P) (c : CTree) (maxNew : ℕ)
    (seed : σ) (dis : Bool) (skip : ISet) (slices : Option ISet) (o0 : FwOpt σ R (Fl F)) (ps : List ((R → R → P) × Bool))
    (hw : WidthExact F U ks wm κ μ) (htree : IsTree c.tree) (hU : ∀ q < c.tree.nLeaves, c.inds q ⊆ U) (hkeep : ks ⊆ skip ∨ maxNew = 0)
    (hgiven : ∀ sl, slices = some sl → sl ⊆ U ∧ Disjoint sl skip)
    (hmk : FwOpt.pyMakeWith bad over g m wm c maxNew seed dis skip none slices none = some (.ok o0))
    (hskip : (κ (skip ∩ U) : ℚ) ≤ μ) : ∃ o, o0.run g m wm ps = .ok o := by
  rcases fhistory_from_py (exact_rel hw) g htree hU hkeep hgiven hmk ps with ⟨-, -, xs, hx1, hx2, hx3⟩ | ⟨o, h, -⟩
  · have h1 := hw.mono (Finset.inter_subset_inter_right (u := U) hx2)
    have h2 : (κ (xs ∩ U) : ℚ) ≤ κ (skip ∩ U) := by exact_mod_cast h1
    linarith
  · exact ⟨o, h⟩

end

section
variable {F : FloatFormat} {p : ℕ} {lg : ℕ → Fl float64} {ν : ℕ → ℚ} {dims : Dims} {U : ISet} {μ : ℚ}

/-- C67: the simple cost model rounds `2 n + 3` times for a width and once for a difference; `ν d` is the `double` that `log2(d)` returns. -/
theorem C67_simple (hF : WidthFits F p ν dims U (4 * U.card + 3)) (hν : LogTable lg ν) (hd : PosDims dims U)
    {wm : WidthModel (Fl F)} (hwm : floatWidthModel F lg dims (Fl.of (Flt.fin μ)) = some wm) :
    WidthApprox F p (2 * U.card + 3) 1 (simpleWidth ν dims U) U ∅ wm (simpleWidth ν dims) μ :=
  floatWidth_approx hF hν hd ∅ hwm

/-- C67: the cost model with sparse indices. -/
theorem C67_sparse {sparse : ISet} {nProjs : ℕ} (hF : WidthFits F p ν dims U (2 * U.card + 8 + (4 * U.card + 10) * U.card)) (hν : LogTable lg ν)
    (hd : PosDims dims U) {wm : WidthModel (Fl F)} (hwm : floatSparseWidthModel F lg dims (Fl.of (Flt.fin μ)) sparse nProjs = some wm) :
    WidthApprox F p (2 * U.card + 8) (4 * U.card + 9) (simpleWidth ν dims U) U sparse wm (sparseWidth ν dims sparse nProjs) μ :=
  floatSparseWidth_approx hF hν hd hwm

/-- C67: powers of two. -/
theorem C67_bits_simple (h : BitsFit F dims U) (hd : TwoDims dims U) (hl : LogTwo lg) {wm : WidthModel (Fl F)}
    (hwm : floatWidthModel F lg dims (Fl.of (Flt.fin μ)) = some wm) :
    WidthExact F U ∅ wm (bitWidth dims) μ ∧ ∀ xs ⊆ U, simpleGet dims xs = 2 ^ bitWidth dims xs := by
  refine ⟨floatWidth_exact h hd hl ∅ hwm, fun xs hx => simpleGet_two ?_⟩
  cases dims with
  | int d => exact hd
  | vec l => exact fun i hi => hd i (hx hi)

/-- C67: powers of two and sparse indices with `n_projs` a power of two. -/
theorem C67_bits_sparse {sparse : ISet} {nProjs : ℕ} (h : BitsFit F dims U) (hd : TwoDims dims U) (hl : LogTwo lg) (hn : ∃ e, nProjs = 2 ^ e)
    {wm : WidthModel (Fl F)} (hwm : floatSparseWidthModel F lg dims (Fl.of (Flt.fin μ)) sparse nProjs = some wm) :
    WidthExact F U sparse wm (sparseBitWidth dims sparse nProjs) μ :=
  floatSparseWidth_exact h hd hl hn hwm

/-- C67: the limit as stored in the width type. -/
theorem C67_max_width {M : ℚ} (hM : 0 ≤ M) (hF : p ≤ F.prec) (hr : M * (1 + 1 / 2 ^ p) < 2 ^ (F.emax + 1)) :
    ∃ μ, F.convert (Flt.fin M) = Fl.of (Flt.fin μ) ∧ |μ - M| ≤ M / 2 ^ p := by
  obtain ⟨q, e, h⟩ := near_round (F := F) (n := 0) (q := M) (a := M) hF (by simpa using hr) (le_of_eq (abs_of_nonneg hM)) (by simp)
  refine ⟨q, e, h.trans (le_of_eq ?_)⟩
  rw [zero_add, pow_one]; ring

/-- C67: the widths of the theorems against the true logarithms, for a `log2` with the error `η`. -/
theorem C67_log {η : ℝ} {xs : ISet} (h : ∀ i ∈ xs, |((ν (dims.get i) : ℚ) : ℝ) - Real.logb 2 (dims.get i)| ≤ η) :
    |((simpleWidth ν dims xs : ℚ) : ℝ) - ∑ i ∈ xs, Real.logb 2 (dims.get i)| ≤ xs.card * η := by
  rw [exactWidth_eq, Rat.cast_sum, ← Finset.sum_sub_distrib]
  refine (Finset.abs_sum_le_sum_abs _ _).trans ((Finset.sum_le_sum h).trans ?_)
  simp

end

/-! ## Violations -/

/-- `log2` as a `double`, for the dimensions of the examples. -/
def exNu (d : ℕ) : ℚ :=
  if d = 3 then 892254565955501 / 562949953421312 else if d = 7 then 6321601290437677 / 2251799813685248 else (Nat.log 2 d : ℚ)

def exLg (d : ℕ) : Fl float64 := Flt.fin (exNu d)

theorem exLg_table : LogTable exLg exNu := by
  refine ⟨fun d _ => rfl, fun d _ => ?_⟩
  unfold exNu
  split
  · norm_num
  · split
    · norm_num
    · positivity

/-- Tensors `{1} {0,2} {2}` of dimension 3, output `{0,1}`. -/
def crashCT : CTree where
  tree := fwTree
  nInds := 3
  inds := fun p => [{1}, {0, 2}, {2}, {0}, {0, 1}].getD p ∅
  dims := .int 3

theorem crashCT_exact : IndsExact crashCT.inds {0, 1} exCTree := by
  rw [indsExact_iff]
  simp only [exCTree, PTree.Sem, PTree.root, PTree.L, leaves, crashCT, leafInds]
  decide

/-- `max_width = 2 * log2(3)` as a Python number. -/
def crashMax : ℚ := 892254565955501 / 281474976710656

/-- The width model in single precision, the default. -/
def crashWm : WidthModel (Fl float32) :=
  ⟨floatWidth float32 exLg (.int 3), floatDelta float32 exLg (.int 3), floatLog float32 exLg (.int 3), true, float32.convert (Flt.fin crashMax)⟩

/-- Every move is accepted. -/
def fwBase (_ _ : Fl float64) : ℚ := 1

/-- **C67 is violated**: two skipped indices fit exactly, `2 * log2(3) <= max_width`, and no tensor needs a slice. A move makes a tensor with these and one
more index; in single precision its width minus `log2(3)` is larger than `max_width` after rounding, so no index is left to slice and `prng() % 0` is
evaluated. With exact widths the same update is fine. -/
theorem C67_violated :
    floatWidthModel float32 exLg crashCT.dims (float32.convert (Flt.fin crashMax)) = some crashWm ∧ WellFormed crashCT.tree exCTree ∧
    IndsExact crashCT.inds {0, 1} exCTree ∧ simpleWidth exNu crashCT.dims {0, 1} = crashMax ∧
    (∃ o0, FwOpt.pyMakeWith Fl.badLog (Fl.over (Fl.of (Flt.fin crashMax))) (constPrng 1) (floatModel float64 crashCT.dims) crashWm crashCT 2 () true
        {0, 1} none none none = some (.ok o0) ∧ o0.slices = ∅ ∧
      o0.run (constPrng 1) (floatModel float64 crashCT.dims) crashWm [(fwBase, true)] = .error .divByZero) ∧
    ∃ wm o0 o, simpleWidthModel exNu crashCT.dims crashMax = some wm ∧
      FwOpt.pyMake (constPrng 1) (simpleModel crashCT.dims) wm crashCT 2 () true {0, 1} none none none = some (.ok o0) ∧
      o0.run (constPrng 1) (simpleModel crashCT.dims) wm [(probBase, true)] = .ok o ∧ o.slices = {2} := by
  refine ⟨if_neg (by decide +kernel), fwTree_wf, crashCT_exact, by decide +kernel, ?_, ?_⟩
  · obtain ⟨a, b, h1, h2, h3⟩ := fw_eval
      (x := FwOpt.pyMakeWith Fl.badLog (Fl.over (Fl.of (Flt.fin crashMax))) (constPrng 1) (floatModel float64 crashCT.dims) crashWm crashCT 2 () true
        {0, 1} none none none)
      (f := fun o => (match o.run (constPrng 1) (floatModel float64 crashCT.dims) crashWm [(fwBase, true)] with
        | .error .divByZero => .ok () | _ => .error () : Except Unit Unit)) (Q := fun a _ => decide (a.slices = ∅)) (by decide +kernel)
    refine ⟨a, h1, by simpa using h3, ?_⟩
    split at h2
    · next h => exact h
    · cases h2
  · obtain ⟨a, b, h1, h2, h3⟩ := fw_eval
      (x := FwOpt.pyMake (constPrng 1) (simpleModel crashCT.dims) ⟨simpleWidth exNu (.int 3), simpleDelta exNu (.int 3), fun i => exNu ((Dims.int 3).get i),
        true, crashMax⟩ crashCT 2 () true {0, 1} none none none)
      (f := fun o => o.run (constPrng 1) (simpleModel crashCT.dims) ⟨simpleWidth exNu (.int 3), simpleDelta exNu (.int 3),
        fun i => exNu ((Dims.int 3).get i), true, crashMax⟩ [(probBase, true)]) (Q := fun _ b => decide (b.slices = {2})) (by decide +kernel)
    exact ⟨_, a, b, if_neg (by decide +kernel), h1, h2, by simpa using h3⟩

/-- Two tensors with one index of dimension 7. -/
def sevenCT : CTree where
  tree := Tree.ofList [⟨none, none, some 2⟩, ⟨none, none, some 2⟩, ⟨some 0, some 1, none⟩]
  nInds := 1
  inds := fun p => if p < 2 then {0} else ∅
  dims := .int 7

/-- **C67 is violated**: the Python check of `skip_slices` compares the width in single precision with `max_width` in double precision. With
`max_width = log2(7)` a skipped index of dimension 7 raises "Too many indices in 'skip_slices'.", although the width of all tensors is exactly `max_width` and
the C++ constructor accepts them. -/
theorem C67_violated_skip :
    ∃ wm, floatWidthModel float32 exLg sevenCT.dims (float32.convert (Flt.fin (exNu 7))) = some wm ∧ WellFormed sevenCT.tree bigTree ∧
      simpleWidth exNu sevenCT.dims {0} = exNu 7 ∧
      FwOpt.pyMakeWith Fl.badLog (Fl.over (Fl.of (Flt.fin (exNu 7)))) (constPrng 8) (floatModel float64 sevenCT.dims) wm sevenCT 0 () false {0} none none
        none = some (.error .tooManySkipped) ∧
      ∃ o, FwOpt.makeWith Fl.badLog (constPrng 8) (floatModel float64 sevenCT.dims) wm sevenCT 0 () false (some {0}) none none none = some (.ok o) := by
  refine ⟨⟨floatWidth float32 exLg (.int 7), floatDelta float32 exLg (.int 7), floatLog float32 exLg (.int 7), true, float32.convert (Flt.fin (exNu 7))⟩,
    if_neg (by decide +kernel), bigCT_wf, by decide +kernel, if_pos (by decide +kernel), ?_⟩
  obtain ⟨a, b, h1, h2, h3⟩ := fw_eval (α := FwOpt Unit (Fl float64) (Fl float32)) (β := Unit) (E := FwMakeErr) (F := Unit)
    (x := FwOpt.makeWith Fl.badLog (constPrng 8) (floatModel float64 sevenCT.dims) ⟨floatWidth float32 exLg (.int 7), floatDelta float32 exLg (.int 7),
      floatLog float32 exLg (.int 7), true, float32.convert (Flt.fin (exNu 7))⟩ sevenCT 0 () false (some {0}) none none none)
    (f := fun _ => .ok ()) (Q := fun _ _ => true) (by decide +kernel)
  exact ⟨a, h1⟩

/-- Two tensors with the same three indices of dimension 3. -/
def extraCT (d : ℕ) : CTree where
  tree := Tree.ofList [⟨none, none, some 2⟩, ⟨none, none, some 2⟩, ⟨some 0, some 1, none⟩]
  nInds := 3
  inds := fun p => if p < 2 then {0, 1, 2} else ∅
  dims := .int d

/-- **C67 is violated**: with `max_width = 2 * log2(3)` one of three indices of dimension 3 has to be sliced; in single precision the constructor slices
two, which makes the contraction three times as many slices. -/
theorem C67_violated_slices :
    (∃ o0, FwOpt.pyMakeWith Fl.badLog (Fl.over (Fl.of (Flt.fin crashMax))) (constPrng 8) (floatModel float64 (.int 3)) crashWm (extraCT 3) 0 () false
        ∅ none none none = some (.ok o0) ∧ o0.slices.card = 2) ∧
    ∃ wm o0, simpleWidthModel exNu (.int 3) crashMax = some wm ∧
      FwOpt.pyMake (constPrng 8) (simpleModel (.int 3)) wm (extraCT 3) 0 () false ∅ none none none = some (.ok o0) ∧ o0.slices.card = 1 := by
  constructor
  · obtain ⟨a, b, h1, h2, h3⟩ := fw_eval (α := FwOpt Unit (Fl float64) (Fl float32)) (β := Unit) (E := FwMakeErr) (F := Unit)
      (x := FwOpt.pyMakeWith Fl.badLog (Fl.over (Fl.of (Flt.fin crashMax))) (constPrng 8) (floatModel float64 (.int 3)) crashWm (extraCT 3) 0 () false
        ∅ none none none)
      (f := fun _ => .ok ()) (Q := fun a _ => decide (a.slices.card = 2)) (by decide +kernel)
    exact ⟨a, h1, by simpa using h3⟩
  · obtain ⟨a, b, h1, h2, h3⟩ := fw_eval (α := FwOpt Unit ℤ ℚ) (β := Unit) (E := FwMakeErr) (F := Unit)
      (x := FwOpt.pyMake (constPrng 8) (simpleModel (.int 3)) ⟨simpleWidth exNu (.int 3), simpleDelta exNu (.int 3), fun i => exNu ((Dims.int 3).get i),
        true, crashMax⟩ (extraCT 3) 0 () false ∅ none none none)
      (f := fun _ => .ok ()) (Q := fun a _ => decide (a.slices.card = 1)) (by decide +kernel)
    exact ⟨_, a, if_neg (by decide +kernel), h1, by simpa using h3⟩

/-- `max_width = 3 - 2^-30` -/
def nearThree : ℚ := 3 - 1 / 2 ^ 30

/-- **C67 is violated**: `max_width` is rounded to the width type. `3 - 2^-30` becomes 3 in single precision, and tensors of width 3 are not sliced. -/
theorem C67_violated_limit :
    ∃ wm o0, floatWidthModel float32 exLg (.int 2) (float32.convert (Flt.fin nearThree)) = some wm ∧
      FwOpt.pyMakeWith Fl.badLog (Fl.over (Fl.of (Flt.fin nearThree))) (constPrng 8) (floatModel float64 (.int 2)) wm (extraCT 2) 0 () false
        ∅ none none none = some (.ok o0) ∧ o0.slices = ∅ ∧ nearThree < simpleWidth exNu (.int 2) (o0.inf.ctree.inds 0 \ o0.slices) := by
  obtain ⟨a, b, h1, h2, h3⟩ := fw_eval (α := FwOpt Unit (Fl float64) (Fl float32)) (β := Unit) (E := FwMakeErr) (F := Unit)
    (x := FwOpt.pyMakeWith Fl.badLog (Fl.over (Fl.of (Flt.fin nearThree))) (constPrng 8) (floatModel float64 (.int 2))
      ⟨floatWidth float32 exLg (.int 2), floatDelta float32 exLg (.int 2), floatLog float32 exLg (.int 2), true, float32.convert (Flt.fin nearThree)⟩
      (extraCT 2) 0 () false ∅ none none none)
    (f := fun _ => .ok ()) (Q := fun a _ => decide (a.slices = ∅) && decide (nearThree < simpleWidth exNu (.int 2) (a.inf.ctree.inds 0 \ a.slices)))
    (by decide +kernel)
  simp only [Bool.and_eq_true, decide_eq_true_eq] at h3
  exact ⟨_, a, if_neg (by decide +kernel), h1, h3⟩

/-! ## Examples -/

theorem exLg_two : LogTwo exLg := by
  intro e
  have h3 : (2 : ℕ) ^ e ≠ 3 := by
    rcases e with _ | e
    · norm_num
    · rw [pow_succ]; omega
  have h7 : (2 : ℕ) ^ e ≠ 7 := by
    rcases e with _ | e
    · norm_num
    · rw [pow_succ]; omega
  unfold exLg exNu
  rw [if_neg h3, if_neg h7, Nat.log_pow (by norm_num)]; rfl

/-- The tree of `C67_violated` with `max_width = 7/2`, which leaves the margin of `C67_no_crash_partial`: the update which crashes there adds a slice. -/
example : ∃ wm, floatWidthModel float32 exLg crashCT.dims (Fl.of (Flt.fin (7 / 2))) = some wm ∧
    WidthApprox float32 24 9 1 (simpleWidth exNu (.int 3) {0, 1, 2}) {0, 1, 2} ∅ wm (simpleWidth exNu (.int 3)) (7 / 2) ∧
    (∀ q < crashCT.tree.nLeaves, crashCT.inds q ⊆ {0, 1, 2}) ∧
    simpleWidth exNu (.int 3) ({0, 1} ∩ {0, 1, 2}) + widthError 24 (9 + (1 + 1) * ({0, 1, 2} : ISet).card) (simpleWidth exNu (.int 3) {0, 1, 2}) ≤ 7 / 2 ∧
    RoundedCosts float64 53 8 {0, 1, 2} (floatModel float64 (.int 3)) (simpleGet (.int 3)) ∧
    ∃ o0 o, FwOpt.pyMakeWith Fl.badLog (Fl.over (Fl.of (Flt.fin (7 / 2)))) (constPrng 1) (floatModel float64 (.int 3)) wm crashCT 2 () true
        {0, 1} none none none = some (.ok o0) ∧
      o0.run (constPrng 1) (floatModel float64 (.int 3)) wm [(fwBase, true), (fwBase, false)] = .ok o ∧ o.slices = {2} := by
  have hF : WidthFits float32 24 exNu (.int 3) {0, 1, 2} (4 * ({0, 1, 2} : ISet).card + 3) :=
    ⟨by decide, by decide, by decide, by decide +kernel, by decide +kernel⟩
  have hneg : ¬ (Fl.of (Flt.fin (7 / 2)) : Fl float32) < 0 := by decide +kernel
  refine ⟨⟨floatWidth float32 exLg (.int 3), floatDelta float32 exLg (.int 3), floatLog float32 exLg (.int 3), true, Fl.of (Flt.fin (7 / 2))⟩,
    if_neg hneg, C67_simple (U := {0, 1, 2}) hF exLg_table (show 1 ≤ 3 by decide) (if_neg hneg), by decide, by decide +kernel,
    C66_simple_partial (U := {0, 1, 2}) (.int 3) (by decide) (by decide) (show 1 ≤ 3 by decide) ⟨by decide, by decide⟩, ?_⟩
  obtain ⟨a, b, h1, h2, h3⟩ := fw_eval
    (x := FwOpt.pyMakeWith Fl.badLog (Fl.over (Fl.of (Flt.fin (7 / 2)))) (constPrng 1) (floatModel float64 (.int 3))
      ⟨floatWidth float32 exLg (.int 3), floatDelta float32 exLg (.int 3), floatLog float32 exLg (.int 3), true, Fl.of (Flt.fin (7 / 2))⟩ crashCT 2 () true
      {0, 1} none none none)
    (f := fun o => o.run (constPrng 1) (floatModel float64 (.int 3)) ⟨floatWidth float32 exLg (.int 3), floatDelta float32 exLg (.int 3),
      floatLog float32 exLg (.int 3), true, Fl.of (Flt.fin (7 / 2))⟩ [(fwBase, true), (fwBase, false)])
    (Q := fun _ b => decide (b.slices = {2})) (by decide +kernel)
  exact ⟨a, b, h1, h2, by simpa using h3⟩

/-- The error in single precision is below `10^-5`. -/
example : widthError 24 (9 + (1 + 1) * ({0, 1, 2} : ISet).card) (simpleWidth exNu (.int 3) {0, 1, 2}) < 1 / 10 ^ 5 := by decide +kernel

/-- The sparse model. -/
example : ∃ wm, floatSparseWidthModel float32 exLg (.int 3) (Fl.of (Flt.fin 2)) {1} 2 = some wm ∧
    WidthApprox float32 24 14 21 (simpleWidth exNu (.int 3) {0, 1, 2}) {0, 1, 2} {1} wm (sparseWidth exNu (.int 3) {1} 2) 2 := by
  have hneg : ¬ (Fl.of (Flt.fin 2) : Fl float32) < 0 := by decide +kernel
  have h : floatSparseWidthModel float32 exLg (.int 3) (Fl.of (Flt.fin 2)) {1} 2 = some _ := (if_neg hneg).trans (if_neg (by decide))
  exact ⟨_, h, C67_sparse (U := {0, 1, 2}) ⟨by decide, by decide, by decide, by decide +kernel, by decide +kernel⟩ exLg_table (show PosDims (.int 3) _ from (by decide : 1 ≤ 3)) h⟩

/-- Qubits: six indices of dimension 2 in single precision, the tree of `C25_violated`. -/
example : BitsFit float32 (.int 2) {0, 1, 2, 3} ∧ TwoDims (.int 2) {0, 1, 2, 3} ∧
    (∃ wm, floatWidthModel float32 exLg (.int 2) (Fl.of (Flt.fin 2)) = some wm ∧ WidthExact float32 {0, 1, 2, 3} ∅ wm (bitWidth (.int 2)) 2) ∧
    (bitWidth (.int 2) ({0, 1} ∩ {0, 1, 2, 3}) : ℚ) ≤ 2 := by
  have hF : BitsFit float32 (.int 2) {0, 1, 2, 3} := ⟨by decide, by decide +kernel, by decide +kernel, by decide⟩
  have hneg : ¬ (Fl.of (Flt.fin 2) : Fl float32) < 0 := by decide +kernel
  exact ⟨hF, ⟨1, rfl⟩, ⟨_, if_neg hneg, (C67_bits_simple (U := {0, 1, 2, 3}) hF ⟨1, rfl⟩ exLg_two (if_neg hneg)).1⟩, by decide +kernel⟩

/-- Qubits with sparse indices. -/
example : ∃ wm, floatSparseWidthModel float32 exLg (.int 2) (Fl.of (Flt.fin 2)) {1, 2} 2 = some wm ∧
    WidthExact float32 {0, 1, 2, 3} {1, 2} wm (sparseBitWidth (.int 2) {1, 2} 2) 2 := by
  have hneg : ¬ (Fl.of (Flt.fin 2) : Fl float32) < 0 := by decide +kernel
  have h : floatSparseWidthModel float32 exLg (.int 2) (Fl.of (Flt.fin 2)) {1, 2} 2 = some _ := (if_neg hneg).trans (if_neg (by decide))
  exact ⟨_, h, C67_bits_sparse (U := {0, 1, 2, 3}) ⟨by decide, by decide +kernel, by decide +kernel, by decide⟩
    (show TwoDims (.int 2) _ from ⟨1, rfl⟩) exLg_two ⟨1, rfl⟩ h⟩

end TNCO
