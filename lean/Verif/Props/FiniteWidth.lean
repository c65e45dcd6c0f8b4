import Verif.Lemmas.FwReject
import Verif.Props.Width
import Verif.Props.InfMem

/-!
# Properties C21 - C25: the finite-width optimizer

`FwOpt.pyMake` is the Python constructor (`slices`, `min_slices`, `min_ctree` are only given when
unpickling), `FwOpt.run g m wm o history` a history of `update` calls (acceptance function and
`update_slices` flag of each call arbitrary), `g` an arbitrary random generator, `m` an arbitrary
cost function, `wm` one of the width models of the library.
-/

namespace TNCO
open PTree

variable {σ P R W : Type} [AddCommGroup R] [LinearOrder R] [LinearOrder P] [AddCommGroup W] [LinearOrder W]
  [IsOrderedAddMonoid W]

/-- C21: `get_slices` always returns; it slices only indices of tensors that are too wide, never a
skipped index, and if the skipped part of every tensor fits, every tensor fits after slicing. -/
theorem C21_get_slices (g : FwPrng σ P) (log2 : ℕ → W) (hlog : ∀ n, 0 ≤ log2 n) (wm : WidthModel W) (c : CTree)
    (hwm : OfferedWidth log2 c.dims wm) (skip : Option ISet) (htree : IsTree c.tree) (s : σ) :
    ∃ S s', getSlices g wm c skip (widthCache wm c) s = some (S, s') ∧
      (∀ x ∈ S, ∃ p < c.tree.size, x ∈ c.inds p ∧ wm.maxWidth < wm.width (c.inds p)) ∧
      (∀ k, skip = some k → Disjoint S k) ∧
      ((∀ p < c.tree.size, wm.width (c.inds p ∩ skip.getD ∅) ≤ wm.maxWidth) →
        ∀ p < c.tree.size, wm.width (c.inds p \ S) ≤ wm.maxWidth) := by
  obtain ⟨t, hwf⟩ := htree
  obtain ⟨S, s', h1, h2, h3, h4⟩ := getSlices_spec g (offered_lawful hlog hwm).1 (skip := skip) hwf
    (width := widthCache wm c) (fun _ _ => rfl) s
  exact ⟨S, s', h1, h2, h3, fun h p hp => h4 p hp (h p hp)⟩

/-- C21: nothing is sliced if every tensor already fits. -/
theorem C21_no_slices (g : FwPrng σ P) (log2 : ℕ → W) (hlog : ∀ n, 0 ≤ log2 n) (wm : WidthModel W) (c : CTree)
    (hwm : OfferedWidth log2 c.dims wm) (skip : Option ISet) (htree : IsTree c.tree) (s : σ)
    (hfit : ∀ p < c.tree.size, wm.width (c.inds p) ≤ wm.maxWidth) :
    ∃ s', getSlices g wm c skip (widthCache wm c) s = some (∅, s') := by
  obtain ⟨S, s', h1, h2, -⟩ := C21_get_slices g log2 hlog wm c hwm skip htree s
  refine ⟨s', ?_⟩
  rw [h1]
  have : S = ∅ := by
    rw [Finset.eq_empty_iff_forall_notMem]
    intro x hx
    obtain ⟨p, hp, -, hlt⟩ := h2 x hx
    exact absurd (hfit p hp) (not_le.2 hlt)
  rw [this]

/-- The Python constructor calls the C++ constructor. -/
theorem pyMake_make {g : FwPrng σ P} {m : CostModel R} {wm : WidthModel W} {c : CTree} {maxNew : ℕ}
    {seed : σ} {dis : Bool} {skip : ISet} {minC : Option CTree} {slices minSlices : Option ISet}
    {o : FwOpt σ R W} (h : FwOpt.pyMake g m wm c maxNew seed dis skip minC slices minSlices = some (.ok o)) :
    FwOpt.make g m wm c maxNew seed dis (if skip = ∅ then none else some skip) minC slices minSlices =
      some (.ok o) := by
  unfold FwOpt.pyMake FwOpt.pyMakeWith at h
  split at h
  · simp at h
  · exact h

/-- Conclusions about a constructed optimizer, with the Python conventions (helper). -/
theorem pyMake_inv {g : FwPrng σ P} {m : CostModel R} {wm : WidthModel W} (hw : wm.Lawful) {c : CTree} {maxNew : ℕ}
    {seed : σ} {dis : Bool} {skip : ISet} {minC : Option CTree} {slices minSlices : Option ISet}
    {o : FwOpt σ R W} {t : PTree} (hwf : WellFormed c.tree t)
    (hgiven : ∀ sl, slices = some sl → Disjoint sl skip)
    (h : FwOpt.pyMake g m wm c maxNew seed dis skip minC slices minSlices = some (.ok o)) {out? : Option ISet}
    (hsem : ∀ out, out? = some out → t.Sem c.inds out) :
    FInv m wm out? (out?.isSome && !dis) o t ∧ o.inf.ctree = c ∧ o.inf.disableShared = dis ∧
      o.inf.minCtree = minC.getD c ∧ o.minSlices = minSlices.getD o.slices ∧
      getCost (minC.getD c).fuel (m.sliced o.minSlices) (minC.getD c) = some o.inf.minTotal ∧
      0 < o.inf.totalCost ∧ 0 < o.inf.minTotal ∧ c.isValid (!dis) = true ∧ (minC.getD c).isValid (!dis) = true ∧
      o.skip = (if skip = ∅ then none else some skip) ∧ o.maxNew = maxNew ∧ FFit wm o ∧
      allFit wm (minC.getD c) o.minSlices = true := by
  refine fmake g m hw hwf ?_ (pyMake_make h) hsem
  intro sl k h1 h2
  split at h2
  · simp at h2
  · simp only [Option.some.injEq] at h2
    subst h2; exact hgiven sl h1

omit [IsOrderedAddMonoid W] in
theorem fw_run_append (g : FwPrng σ P) (m : CostModel R) (wm : WidthModel W) (p1 p2 : List ((R → R → P) × Bool))
    (o : FwOpt σ R W) :
    o.run g m wm (p1 ++ p2) = match o.run g m wm p1 with
      | .error e => .error e
      | .ok o' => o'.run g m wm p2 := by
  induction p1 generalizing o with
  | nil => rfl
  | cons p ps ih =>
    obtain ⟨prob, u⟩ := p
    simp only [List.cons_append, FwOpt.run]
    cases o.update g m wm prob u with
    | error e => rfl
    | ok o' => exact ih o'

/-- Minimum tracking along a history (helper). -/
theorem fmin_history (g : FwPrng σ P) (m : CostModel R) {wm : WidthModel W} (hw : wm.Lawful)
    (ps : List ((R → R → P) × Bool)) :
    ∀ {o o' : FwOpt σ R W} {t : PTree}, FInv m wm none false o t → o.inf.ctree.tree.size ≠ 1 →
      o.run g m wm ps = .ok o' →
      o'.inf.minTotal ≤ o.inf.minTotal ∧ (ps ≠ [] → o'.inf.minTotal ≤ o'.inf.totalCost) ∧
      ((o'.inf.minCtree = o.inf.minCtree ∧ o'.inf.minTotal = o.inf.minTotal ∧ o'.minSlices = o.minSlices) ∨
        ∃ p1 p2 o1, p1 ≠ [] ∧ ps = p1 ++ p2 ∧ o.run g m wm p1 = .ok o1 ∧ o'.inf.minCtree = o1.inf.ctree ∧
          o'.inf.minTotal = o1.inf.totalCost ∧ o'.minSlices = o1.slices) := by
  induction ps with
  | nil => rintro o o' t - - ⟨⟩; exact ⟨le_refl _, by simp, Or.inl ⟨rfl, rfl, rfl⟩⟩
  | cons p ps ih =>
    intro o o' t h hsz hrun
    obtain ⟨prob, u⟩ := p
    rcases fupdate g m hw prob u (by simp) h with ⟨h1, -⟩ | ⟨o1, t1, h1, hi1, hs1, hm, -⟩
    · simp only [FwOpt.run, h1] at hrun; cases hrun
    have hr1 : o.run g m wm [(prob, u)] = .ok o1 := by simp [FwOpt.run, h1]
    simp only [FwOpt.run, h1] at hrun
    have hsz1 : o1.inf.ctree.tree.size ≠ 1 := by rw [hs1.inf.size]; exact hsz
    obtain ⟨q1, q2, q3⟩ := ih hi1 hsz1 hrun
    have hm1 : o1.inf.minTotal ≤ o.inf.minTotal ∧ o1.inf.minTotal ≤ o1.inf.totalCost := by
      rcases hm with ⟨a, b, -⟩ | ⟨a | a, b, -⟩
      · rw [b]; exact ⟨le_of_lt a, le_refl _⟩
      · rw [b]; exact ⟨le_refl _, a⟩
      · exact absurd a hsz
    refine ⟨q1.trans hm1.1, ?_, ?_⟩
    · intro _
      cases ps with
      | nil => simp only [FwOpt.run, Except.ok.injEq] at hrun; subst hrun; exact hm1.2
      | cons a b => exact q2 (by simp)
    · rcases q3 with ⟨a, b, c⟩ | ⟨p1, p2, o2, hne, rfl, hr, hc, ht, hsl⟩
      · rcases hm with ⟨-, c1, c2, c3⟩ | ⟨-, c1, c2, c3⟩
        · exact Or.inr ⟨[(prob, u)], ps, o1, by simp, rfl, hr1, a.trans c2, b.trans c1, c.trans c3⟩
        · exact Or.inl ⟨a.trans c2, b.trans c1, c.trans c3⟩
      · refine Or.inr ⟨(prob, u) :: p1, p2, o2, by simp, rfl, ?_, hc, ht, hsl⟩
        simp only [FwOpt.run, h1, hr]

/-- A constructed optimizer has at least one contraction (helper). -/
theorem fmake_size {m : CostModel R} {wm : WidthModel W} {o : FwOpt σ R W} {t : PTree} {out? : Option ISet} {sh : Bool}
    (h : FInv m wm out? sh o t) (hpos : 0 < o.inf.totalCost) : o.inf.ctree.tree.size ≠ 1 := by
  intro h1
  have hwf : WellFormed o.inf.ctree.tree t := h.inv.wf
  have hz : 0 ∈ t.leaves := (hwf.leaves 0).2 (by omega)
  have := (h.inv.leaf 0 hz).2.2
  simp only at this
  unfold InfOpt.totalCost at hpos
  rw [h1] at hpos
  simp only [Nat.sub_self, this] at hpos
  exact lt_irrefl _ hpos

/-- Everything fits (current tree with the current slices, best tree with its slices). -/
def AllFit (wm : WidthModel W) (o : FwOpt σ R W) : Prop :=
  (∀ p < o.inf.ctree.tree.size, wm.width (o.inf.ctree.inds p \ o.slices) ≤ wm.maxWidth) ∧
  (∀ p < o.inf.minCtree.tree.size, wm.width (o.inf.minCtree.inds p \ o.minSlices) ≤ wm.maxWidth)

/-- C22 (partial): in every reachable state every tensor of the current tree and of the best tree
fits after slicing. Missing: the sparse cost model together with `max_number_new_slices > 0` and
sparse indices that may be sliced, see `C22_violated`. -/
theorem C22_width_limit_partial (g : FwPrng σ P) (m : CostModel R) (log2 : ℕ → W) (hlog : ∀ n, 0 ≤ log2 n)
    (wm : WidthModel W) (c : CTree) (maxNew : ℕ) (seed : σ) (dis : Bool) (skip : ISet) (minC : Option CTree)
    (slices minSlices : Option ISet) (o0 o : FwOpt σ R W) (ps : List ((R → R → P) × Bool))
    (htree : IsTree c.tree)
    (hgiven : ∀ sl, slices = some sl → Disjoint sl skip)
    (hmk : FwOpt.pyMake g m wm c maxNew seed dis skip minC slices minSlices = some (.ok o0))
    (hrun : o0.run g m wm ps = .ok o)
    (hmodel : (∃ mw, simpleWidthModel log2 c.dims mw = some wm) ∨
      ∃ mw sparse nProjs, sparseWidthModel log2 c.dims mw sparse nProjs = some wm ∧ (maxNew = 0 ∨ sparse ⊆ skip)) :
    AllFit wm o := by
  obtain ⟨t0, hwf⟩ := htree
  have hlaw : wm.Lawful ∧ (wm.LogExact skip ∨ maxNew = 0) := by
    rcases hmodel with ⟨mw, h⟩ | ⟨mw, sp, n, h, h0⟩
    · have := simple_lawful hlog h
      exact ⟨this.1, Or.inl fun hx _ => this.2.1 hx (by simp)⟩
    · exact ⟨(offered_lawful hlog (Or.inr ⟨mw, sp, n, h⟩)).1, h0.symm.imp (sparse_logExact h) id⟩
  obtain ⟨hI, rfl, -, hmc, hms, hmt, hp1, hp2, -, -, hsk, hmn, hfit, hfit2⟩ :=
    pyMake_inv hlaw.1 hwf hgiven hmk (out? := none) (by simp)
  have cur : ∀ qs o1, o0.run g m wm qs = .ok o1 → FFit wm o1 := by
    intro qs o1 h1
    rcases frun_history g m hlaw.1 (by simp) qs hI with ⟨h, -⟩ | ⟨o2, t2, h2, -, -, hf⟩
    · rw [h1] at h; cases h
    · rw [h1] at h2; cases h2
      refine hf ?_ hfit
      have hsk' : o0.skip.getD ∅ = skip := by
        rw [hsk]
        split
        · next h => rw [h]; rfl
        · rfl
      rw [hmn, hsk']; exact hlaw.2
  refine ⟨cur ps o hrun, ?_⟩
  rcases (fmin_history g m hlaw.1 ps hI (fmake_size hI hp1) hrun).2.2 with ⟨a, -, b⟩ | ⟨p1, p2, o1, -, -, h1, h2, -, h3⟩
  · rw [a, b, hmc]
    unfold allFit at hfit2
    rw [List.all_eq_true] at hfit2
    intro p hp
    simpa using hfit2 p (by simpa using hp)
  · rw [h2, h3]
    exact cur p1 o1 h1

/-- C23: no reachable state slices a skipped index, in the current and in the best state. -/
theorem C23_skip_never_sliced (g : FwPrng σ P) (m : CostModel R) (log2 : ℕ → W) (hlog : ∀ n, 0 ≤ log2 n)
    (wm : WidthModel W) (c : CTree) (maxNew : ℕ) (seed : σ) (dis : Bool) (skip : ISet) (minC : Option CTree)
    (slices minSlices : Option ISet) (o0 o : FwOpt σ R W) (ps : List ((R → R → P) × Bool))
    (hwm : OfferedWidth log2 c.dims wm) (htree : IsTree c.tree)
    (hgiven : ∀ sl, slices = some sl ∨ minSlices = some sl → Disjoint sl skip)
    (hmk : FwOpt.pyMake g m wm c maxNew seed dis skip minC slices minSlices = some (.ok o0))
    (hrun : o0.run g m wm ps = .ok o) :
    Disjoint o.slices skip ∧ Disjoint o.minSlices skip := by
  obtain ⟨t0, hwf⟩ := htree
  have hlaw := (offered_lawful hlog hwm).1
  obtain ⟨hI, rfl, -, hmc, hms, hmt, hp1, hp2, -, -, hsk, hmn, hfit, hfit2⟩ :=
    pyMake_inv hlaw hwf (fun sl h => hgiven sl (Or.inl h)) hmk (out? := none) (by simp)
  have cur : ∀ qs o1, o0.run g m wm qs = .ok o1 → Disjoint o1.slices skip := by
    intro qs o1 h1
    rcases frun_history g m hlaw (by simp) qs hI with ⟨h, -⟩ | ⟨o2, t2, h2, hI2, hs2, -⟩
    · rw [h1] at h; cases h
    · rw [h1] at h2; cases h2
      by_cases he : skip = ∅
      · rw [he]; exact Finset.disjoint_empty_right _
      · refine hI2.skip skip ?_
        have := hs2.skip
        rw [hsk, if_neg he] at this
        exact this
  refine ⟨cur ps o hrun, ?_⟩
  rcases (fmin_history g m hlaw ps hI (fmake_size hI hp1) hrun).2.2 with ⟨a, -, b⟩ | ⟨p1, p2, o1, -, -, h1, h2, -, h3⟩
  · rw [b, hms]
    cases minSlices with
    | none => exact cur [] o0 rfl
    | some sl => exact hgiven sl (Or.inr rfl)
  · rw [h3]; exact cur p1 o1 h1

/-- C24: after any history that returns: the tree is a tree on the same positions, with exact index
sets, the same leaves and output; total cost and all caches equal the recomputed ones (with the
current slices); it passes the tree part of `is_valid`. -/
theorem C24_caches_exact (g : FwPrng σ P) (m : CostModel R) (log2 : ℕ → W) (hlog : ∀ n, 0 ≤ log2 n)
    (wm : WidthModel W) (c : CTree) (maxNew : ℕ) (seed : σ) (dis : Bool) (skip : ISet) (minC : Option CTree)
    (slices minSlices : Option ISet) (o0 o : FwOpt σ R W) (ps : List ((R → R → P) × Bool)) (t0 : PTree) (out : ISet)
    (hwm : OfferedWidth log2 c.dims wm) (hwf : WellFormed c.tree t0) (hex : IndsExact c.inds out t0)
    (hgiven : ∀ sl, slices = some sl → Disjoint sl skip)
    (hmk : FwOpt.pyMake g m wm c maxNew seed dis skip minC slices minSlices = some (.ok o0))
    (hrun : o0.run g m wm ps = .ok o) :
    ∃ t, WellFormed o.inf.ctree.tree t ∧ o.inf.ctree.tree.size = c.tree.size ∧
      (∀ p < (c.tree.size + 1) / 2, o.inf.ctree.inds p = c.inds p) ∧
      o.inf.ctree.inds (c.tree.size - 1) = c.inds (c.tree.size - 1) ∧
      IndsExact o.inf.ctree.inds out t ∧ o.inf.ctree.isValid (!dis) = true ∧
      o.inf.totalCost = treeCost (fun X => m.get (X ∪ o.slices)) o.inf.ctree.inds t ∧
      getCost o.inf.ctree.fuel (m.sliced o.slices) o.inf.ctree = some o.inf.totalCost ∧
      (∃ k, CostCache.make o.inf.ctree.fuel (m.sliced o.slices) o.inf.ctree = some k ∧
        ∀ p < o.inf.ctree.tree.size, o.inf.cost.partialCost p = k.partialCost p ∧
          o.inf.cost.contractionCost p = k.contractionCost p) ∧
      (∀ p < o.inf.ctree.tree.size, o.inf.hyper p = hyperCache o.inf.ctree p) ∧
      ∀ p < o.inf.ctree.tree.size, o.width p = widthCache wm o.inf.ctree p := by
  have hlaw := (offered_lawful hlog hwm).1
  obtain ⟨hI0, rfl, hdis, -, -, -, -, -, hv, -, -, -, -, -⟩ :=
    pyMake_inv hlaw hwf hgiven hmk (out? := some out) (by rintro _ ⟨⟩; exact indsExact_iff.1 hex)
  rcases frun_history g m hlaw (by intro h; simp) ps hI0 with ⟨h, -⟩ | ⟨o2, t, h2, hF, hS, -⟩
  · rw [hrun] at h; cases h
  rw [hrun] at h2; cases h2
  have hI : OInv (m.sliced o.slices) (some out) _ o.inf t := hF.inv
  have hwft : WellFormed o.inf.ctree.tree t := hI.wf
  have hn : t.All (NodeInv (m.sliced o.slices) o.inf.ctree.inds o.inf.hyper o.inf.cost.contractionCost) := hI.nodes
  unfold NodeInv at hn
  rw [PTree.all_and, PTree.all_and] at hn
  obtain ⟨hloc, hhy, hcc⟩ := hn
  have hcost : o.inf.totalCost = treeCost (m.sliced o.slices).get o.inf.ctree.inds t := by
    exact hI.total.trans (sum_eq_treeCost hI.nodes fun p hp => (hI.leaf p hp).2.1)
  refine ⟨t, hwft, hS.inf.size, hS.inf.leafInds, hS.inf.rootInds, indsExact_iff.2 (hI.sem out rfl), ?_, hcost, ?_,
    ?_, ?_, fun p _ => hF.width p⟩
  · refine (ctree_isValid_iff hwft _).2 ⟨?_, PTree.sem_loc (hI.sem out rfl), ?_⟩
    · rw [hS.inf.dims, hS.inf.nInds]; exact ((ctree_isValid_iff hwf _).1 hv).1
    · intro h; exact hI.shr (by simpa using h)
  · rw [hcost]
    exact getCost_eq (m := m.sliced o.slices) hwft hloc (fuel := o.inf.ctree.fuel) (le_refl _)
  · obtain ⟨k, hk, k1, k2, k3⟩ := costCache_make (m := m.sliced o.slices) hwft hloc (fuel := o.inf.ctree.fuel) (le_refl _)
    refine ⟨k, hk, fun p hp => ?_⟩
    have := caches_unique hcc hI.part (fun p hp => ⟨(hI.leaf p hp).2.2, (hI.leaf p hp).2.1⟩) k2 k3 k1 p
      ((hwft.mem p).2 hp)
    exact ⟨this.2, this.1⟩
  · intro p hp
    have hl := hwft.linked
    rw [all_iff hwft.enc] at hhy
    unfold hyperCache
    cases h0 : (o.inf.ctree.tree.nodes p).c0 with
    | none => exact (hI.leaf p ((hwft.leaves p).2 ((hl.leaf0 p hp).1 h0))).1
    | some a =>
      cases h1 : (o.inf.ctree.tree.nodes p).c1 with
      | none =>
        have := (hl.leaf0 p hp).2 ((hl.leaf1 p hp).1 h1)
        rw [h0] at this; simp at this
      | some b => exact hhy p ((hwft.mem p).2 hp) a b h0 h1

/-- C24: `(min_ctree, min_slices, min_total_cost)` is the initial one or the state after some
earlier update, its cost is right, it is at most the cost after every update, and never increases. -/
theorem C24_min (g : FwPrng σ P) (m : CostModel R) (log2 : ℕ → W) (hlog : ∀ n, 0 ≤ log2 n)
    (wm : WidthModel W) (c : CTree) (maxNew : ℕ) (seed : σ) (dis : Bool) (skip : ISet) (minC : Option CTree)
    (slices minSlices : Option ISet) (o0 o : FwOpt σ R W) (ps : List ((R → R → P) × Bool)) (t0 : PTree) (out : ISet)
    (hwm : OfferedWidth log2 c.dims wm) (hwf : WellFormed c.tree t0) (hex : IndsExact c.inds out t0)
    (hgiven : ∀ sl, slices = some sl → Disjoint sl skip)
    (hmk : FwOpt.pyMake g m wm c maxNew seed dis skip minC slices minSlices = some (.ok o0))
    (hrun : o0.run g m wm ps = .ok o) :
    ((o.inf.minCtree = minC.getD c ∧ o.minSlices = minSlices.getD o0.slices) ∨
      ∃ p1 p2 o1, p1 ≠ [] ∧ ps = p1 ++ p2 ∧ o0.run g m wm p1 = .ok o1 ∧ o.inf.minCtree = o1.inf.ctree ∧
        o.minSlices = o1.slices) ∧
    getCost o.inf.minCtree.fuel (m.sliced o.minSlices) o.inf.minCtree = some o.inf.minTotal ∧
    (∀ p1 p2 o1, ps = p1 ++ p2 → o0.run g m wm p1 = .ok o1 →
      o.inf.minTotal ≤ o1.inf.minTotal ∧
      (p1 ≠ [] ∨ (minC = none ∧ minSlices = none) → o.inf.minTotal ≤ o1.inf.totalCost)) := by
  have hlaw := (offered_lawful hlog hwm).1
  obtain ⟨hI, rfl, -, hmc, hms, hmt, hp1, hp2, -, -, hsk, hmn, hfit, hfit2⟩ :=
    pyMake_inv hlaw hwf hgiven hmk (out? := none) (by simp)
  have hsz := fmake_size hI hp1
  have hmain := fmin_history g m hlaw ps hI hsz hrun
  have hcost : ∀ p1 o1, o0.run g m wm p1 = .ok o1 →
      getCost o1.inf.ctree.fuel (m.sliced o1.slices) o1.inf.ctree = some o1.inf.totalCost := by
    intro p1 o1 h1
    obtain ⟨t, -, -, -, -, -, -, -, h, -⟩ := C24_caches_exact g m log2 hlog wm o0.inf.ctree maxNew seed dis skip minC
      slices minSlices o0 o1 p1 t0 out hwm hwf hex hgiven hmk h1
    exact h
  refine ⟨?_, ?_, ?_⟩
  · rcases hmain.2.2 with ⟨a, -, b⟩ | ⟨p1, p2, o1, h0, h1, h2, h3, -, h5⟩
    · exact Or.inl ⟨a.trans hmc, b.trans hms⟩
    · exact Or.inr ⟨p1, p2, o1, h0, h1, h2, h3, h5⟩
  · rcases hmain.2.2 with ⟨a, b, d⟩ | ⟨p1, p2, o1, h0, h1, h2, h3, h4, h5⟩
    · rw [a, b, d, hmc]; exact hmt
    · rw [h3, h4, h5]; exact hcost p1 o1 h2
  · intro p1 p2 o1 hp h1
    subst hp
    rw [fw_run_append, h1] at hrun
    simp only at hrun
    rcases frun_history g m hlaw (by simp) p1 hI with ⟨h, -⟩ | ⟨o1', t1, hr1, hi1, hs1, -⟩
    · rw [h1] at h; cases h
    rw [h1] at hr1; cases hr1
    have hsz1 : o1.inf.ctree.tree.size ≠ 1 := by rw [hs1.inf.size]; exact hsz
    have hm1 := fmin_history g m hlaw p2 hi1 hsz1 hrun
    refine ⟨hm1.1, ?_⟩
    intro hne
    have hm0 := fmin_history g m hlaw p1 hI hsz h1
    by_cases hp1 : p1 = []
    · subst hp1
      simp only [ne_eq, not_true_eq_false, false_or] at hne
      simp only [FwOpt.run, Except.ok.injEq] at h1; subst h1
      obtain ⟨rfl, rfl⟩ := hne
      have e := hcost [] o0 rfl
      simp only [Option.getD_none] at hmt hmc hms
      rw [hms, e] at hmt
      have := hm1.1
      simp only [Option.some.injEq] at hmt
      rwa [← hmt] at this
    · exact hm1.1.trans (hm0.2.1 hp1)

/-- C24: if every proposed move of an update is rejected (and slices are not re-optimized), then
tree, index sets, slices, hyper-index and width caches and the total cost are exactly as before:
moves tried with extra slices are undone completely. -/
theorem C24_rejected_moves_undone (g : FwPrng σ P) (m : CostModel R) (log2 : ℕ → W) (hlog : ∀ n, 0 ≤ log2 n)
    (wm : WidthModel W) (c : CTree) (maxNew : ℕ) (seed : σ) (dis : Bool) (skip : ISet) (minC : Option CTree)
    (slices minSlices : Option ISet) (o0 o o' : FwOpt σ R W) (ps : List ((R → R → P) × Bool)) (prob : R → R → P)
    (hwm : OfferedWidth log2 c.dims wm) (htree : IsTree c.tree)
    (hgiven : ∀ sl, slices = some sl → Disjoint sl skip)
    (hmk : FwOpt.pyMake g m wm c maxNew seed dis skip minC slices minSlices = some (.ok o0))
    (hrun : o0.run g m wm ps = .ok o)
    (hrej : ∀ s x y, prob x y < (g.uniform s).1) (hup : o.update g m wm prob false = .ok o') :
    o'.inf.ctree = o.inf.ctree ∧ o'.slices = o.slices ∧ o'.inf.hyper = o.inf.hyper ∧ o'.width = o.width ∧
      o'.inf.totalCost = o.inf.totalCost := by
  obtain ⟨t0, hwf⟩ := htree
  have hlaw := (offered_lawful hlog hwm).1
  obtain ⟨hI0, -⟩ := pyMake_inv hlaw hwf hgiven hmk (out? := none) (by simp)
  rcases frun_history g m hlaw (by simp) ps hI0 with ⟨h, -⟩ | ⟨o2, t, h2, hF, hS, -⟩
  · rw [hrun] at h; cases h
  rw [hrun] at h2; cases h2
  have hI : OInv (m.sliced o.slices) none false o.inf t := hF.inv
  unfold FwOpt.update at hup
  simp only at hup
  split at hup
  · cases hup; exact ⟨rfl, rfl, rfl, rfl, rfl⟩
  · next B hB =>
    obtain ⟨K, s, hW, hf, hd⟩ := walk_start hI (g.next o.inf.prng).1 (g.next o.inf.prng).2 hB
    split at hup
    · cases hup
    · next w hw =>
      have hbase : FBase m wm none false ⟨{ o with inf := { o.inf with prng := (g.next o.inf.prng).2 } }, B,
          o.inf.totalCost⟩ K s := ⟨hW, hF.width, hF.skip⟩
      have hw' : FwWalk.run g m wm prob o.inf.ctree.tree.size
          ⟨{ o with inf := { o.inf with prng := (g.next o.inf.prng).2 } }, B, o.inf.totalCost⟩ = .ok w := hw
      obtain ⟨a, b⟩ := frun_reject g m wm prob hrej K _ w s o.inf.ctree.tree.size hbase hf hw'
      rcases frun g m wm prob (out? := none) (sh := false) (by simp) K _ s o.inf.ctree.tree.size hbase hf hd with
        ⟨hh, -⟩ | ⟨w', s', hh, hs⟩
      · rw [hw'] at hh; cases hh
      rw [hw'] at hh; cases hh
      obtain ⟨-, htot⟩ := finv_of_fbase hs.base
      simp only [FwOpt.updateSlices, Bool.false_and, Bool.false_eq_true, if_false, Except.ok.injEq] at hup
      have hmin : o'.inf.ctree = w.o.inf.ctree ∧ o'.slices = w.o.slices ∧ o'.inf.hyper = w.o.inf.hyper ∧
          o'.width = w.o.width ∧ o'.inf.totalCost = w.o.inf.totalCost := by
        rw [← hup]; unfold FwOpt.updateMin; split <;> exact ⟨rfl, rfl, rfl, rfl, rfl⟩
      obtain ⟨e1, e2, e3, e4, e5⟩ := hmin
      exact ⟨e1.trans a.ctree, e2.trans a.slices, e3.trans a.hyper, e4.trans a.width,
        e5.trans (htot.symm.trans b)⟩

/-- C25 (partial): no history of updates crashes or hangs if no index is skipped, if no new slices are
allowed, or if the skipped indices together are not wider than `max_width`. Missing: wider sets of
skipped indices together with `max_number_new_slices > 0`, see `C25_violated`. -/
theorem C25_no_crash_partial (g : FwPrng σ P) (m : CostModel R) (log2 : ℕ → W) (hlog : ∀ n, 0 ≤ log2 n)
    (wm : WidthModel W) (c : CTree) (maxNew : ℕ) (seed : σ) (dis : Bool) (skip : ISet) (minC : Option CTree)
    (slices minSlices : Option ISet) (o0 : FwOpt σ R W) (ps : List ((R → R → P) × Bool))
    (hwm : OfferedWidth log2 c.dims wm) (htree : IsTree c.tree)
    (hgiven : ∀ sl, slices = some sl → Disjoint sl skip)
    (hmk : FwOpt.pyMake g m wm c maxNew seed dis skip minC slices minSlices = some (.ok o0))
    (hcase : skip = ∅ ∨ maxNew = 0 ∨ wm.width skip ≤ wm.maxWidth) :
    ∃ o, o0.run g m wm ps = .ok o := by
  obtain ⟨t0, hwf⟩ := htree
  obtain ⟨hlaw, h0, hsub⟩ := offered_lawful hlog hwm
  obtain ⟨hI, rfl, -, -, -, -, -, -, -, -, hsk, hmn, -⟩ :=
    pyMake_inv hlaw hwf hgiven hmk (out? := none) (by simp)
  rcases frun_history g m hlaw (by simp) ps hI with ⟨-, h⟩ | ⟨o, t, h, -⟩
  · exfalso
    apply h
    rcases hcase with h1 | h1 | h1
    · right
      left
      rw [if_pos h1] at hsk
      exact ⟨hsk, h0, hsub⟩
    · left; rw [hmn]; exact h1
    · right
      by_cases h2 : skip = ∅
      · left
        rw [if_pos h2] at hsk
        exact ⟨hsk, h0, hsub⟩
      · right
        rw [if_neg h2] at hsk
        exact ⟨skip, hsk, h1, offered_split hlog hwm skip⟩
  · exact ⟨o, h⟩

/-- C25, the exact picture: whatever the settings, the only way an update can fail is the remainder
by zero (it never hangs). -/
theorem C25_only_div_by_zero (g : FwPrng σ P) (m : CostModel R) (log2 : ℕ → W) (hlog : ∀ n, 0 ≤ log2 n)
    (wm : WidthModel W) (c : CTree) (maxNew : ℕ) (seed : σ) (dis : Bool) (skip : ISet) (minC : Option CTree)
    (slices minSlices : Option ISet) (o0 : FwOpt σ R W) (ps : List ((R → R → P) × Bool))
    (hwm : OfferedWidth log2 c.dims wm) (htree : IsTree c.tree)
    (hgiven : ∀ sl, slices = some sl → Disjoint sl skip)
    (hmk : FwOpt.pyMake g m wm c maxNew seed dis skip minC slices minSlices = some (.ok o0)) :
    o0.run g m wm ps ≠ .error .noReturn := by
  obtain ⟨t0, hwf⟩ := htree
  obtain ⟨hlaw, h0, hsub⟩ := offered_lawful hlog hwm
  obtain ⟨hI, rfl, -⟩ := pyMake_inv hlaw hwf hgiven hmk (out? := none) (by simp)
  rcases frun_history g m hlaw (by simp) ps hI with ⟨h, -⟩ | ⟨o, t, h, -⟩ <;> rw [h] <;> simp

/-! ## Witnesses -/

/-- Generator that always returns `n`, draws 0 and does not shuffle. -/
def constPrng (n : ℕ) : FwPrng Unit ℚ where
  next _ := (n, ())
  uniform _ := (0, ())
  shuffle s l := (l, s)
  shuffle_perm _ l := List.Perm.refl l

/-- The integer base-2 logarithm (exact for dimensions that are powers of two). -/
def ilog2 (n : ℕ) : ℤ := (Nat.log 2 n : ℤ)

theorem ilog2_nonneg (n : ℕ) : 0 ≤ ilog2 n := by unfold ilog2; omega

/-- Tree `4 = (0, 3)`, `3 = (1, 2)`. -/
def fwTree : Tree := Tree.ofList [⟨none, none, some 4⟩, ⟨none, none, some 3⟩, ⟨none, none, some 3⟩,
    ⟨some 1, some 2, some 4⟩, ⟨some 0, some 3, none⟩]

theorem fwTree_wf : WellFormed fwTree exCTree := exCT_wf

/-- Tensors `{1,2,5} {0,3,4,5} {0,3,4}` of dimension 2, output `{1,2}`. -/
def sparseCT : CTree where
  tree := fwTree
  nInds := 6
  inds := fun p => [{5, 1, 2}, {0, 5, 3, 4}, {0, 3, 4}, {5}, {1, 2}].getD p ∅
  dims := .int 2

/-- Indices 3 and 4 sparse, at most two projections, width limit 3. -/
def sparseWm : WidthModel ℤ :=
  ⟨sparseWidth ilog2 (.int 2) {3, 4} 2, sparseDelta ilog2 (.int 2) {3, 4} 2, fun i => ilog2 ((Dims.int 2).get i),
    true, 3⟩

def sparseCm : CostModel ℤ := ⟨fun s => (sparseGet {3, 4} 2 (.int 2) s : ℤ)⟩

theorem fw_eval {α β E F : Type} {x : Option (Except E α)} {f : α → Except F β} {Q : α → β → Bool}
    (h : (match x with
      | some (.ok a) => (match f a with | .ok b => Q a b | .error _ => false)
      | _ => false) = true) : ∃ a b, x = some (.ok a) ∧ f a = .ok b ∧ Q a b = true := by
  split at h
  · split at h
    · next a _ b hb => exact ⟨a, b, rfl, hb, h⟩
    · simp at h
  · simp at h

/-- **C22 is violated** for the sparse cost model with `max_number_new_slices = 1`: the loop adding
slices subtracts `log2(dim)` for a sparse index although the width is capped; the accepted move
leaves tensor 3 = `{0,1,2,3,4}` with slices `{3}` at width 4 > 3. -/
theorem C22_violated :
    sparseWidthModel ilog2 sparseCT.dims 3 {3, 4} 2 = some sparseWm ∧
    sparseModel {3, 4} 2 sparseCT.dims = some sparseCm ∧
    WellFormed sparseCT.tree exCTree ∧
    ∃ o0 o, FwOpt.pyMake (constPrng 8) sparseCm sparseWm sparseCT 1 () false ∅ none none none = some (.ok o0) ∧
      o0.run (constPrng 8) sparseCm sparseWm [(probBase, true)] = .ok o ∧
      o.slices = {3} ∧ sparseWm.width (o.inf.ctree.inds 3 \ o.slices) = 4 ∧ sparseWm.maxWidth = 3 := by
  refine ⟨rfl, rfl, fwTree_wf, ?_⟩
  have := fw_eval (x := FwOpt.pyMake (constPrng 8) sparseCm sparseWm sparseCT 1 () false ∅ none none none)
    (f := fun o => o.run (constPrng 8) sparseCm sparseWm [(probBase, true)])
    (Q := fun _ b => decide (b.slices = {3}) && decide (sparseWm.width (b.inf.ctree.inds 3 \ b.slices) = 4))
    (by decide +kernel)
  obtain ⟨a, b, h1, h2, h3⟩ := this
  simp only [Bool.and_eq_true, decide_eq_true_eq] at h3
  exact ⟨a, b, h1, h2, h3.1, h3.2, rfl⟩

/-- The last case of `C22_width_limit_partial`: the tree of `C22_violated` with its sparse indices skipped, and one new slice. -/
example : sparseWidthModel ilog2 sparseCT.dims 3 {3, 4} 2 = some sparseWm ∧ ({3, 4} : ISet) ⊆ {3, 4} ∧
    ∃ o0 o, FwOpt.pyMake (constPrng 8) sparseCm sparseWm sparseCT 1 () false {3, 4} none none none = some (.ok o0) ∧
      o0.run (constPrng 8) sparseCm sparseWm [(probBase, true)] = .ok o ∧ o.slices ≠ ∅ := by
  refine ⟨rfl, Finset.Subset.refl _, ?_⟩
  obtain ⟨a, b, h1, h2, h3⟩ := fw_eval (x := FwOpt.pyMake (constPrng 8) sparseCm sparseWm sparseCT 1 () false {3, 4} none none none)
    (f := fun o => o.run (constPrng 8) sparseCm sparseWm [(probBase, true)]) (Q := fun _ b => decide (b.slices ≠ ∅)) (by decide +kernel)
  simp only [decide_eq_true_eq] at h3
  exact ⟨a, b, h1, h2, h3⟩

/-- Tensors `{2,3} {0,1,3} {0,1}` of dimension 2, output `{2}`. -/
def skipCT : CTree where
  tree := fwTree
  nInds := 4
  inds := fun p => [{2, 3}, {0, 1, 3}, {0, 1}, {3}, {2}].getD p ∅
  dims := .int 2

def skipWm : WidthModel ℤ :=
  ⟨simpleWidth ilog2 (.int 2), simpleDelta ilog2 (.int 2), fun i => ilog2 ((Dims.int 2).get i), true, 2⟩

/-- **C25 is violated**: with indices 0, 1, 2 skipped and one new slice allowed, the first update
evaluates `prng() % 0`. -/
theorem C25_violated :
    simpleWidthModel ilog2 skipCT.dims 2 = some skipWm ∧ WellFormed skipCT.tree exCTree ∧
    ∃ o0, FwOpt.pyMake (constPrng 8) (simpleModel skipCT.dims) skipWm skipCT 1 () false {0, 1, 2} none none none =
        some (.ok o0) ∧
      o0.run (constPrng 8) (simpleModel skipCT.dims) skipWm [(probBase, true)] = .error .divByZero := by
  refine ⟨rfl, fwTree_wf, ?_⟩
  have := fw_eval
    (x := FwOpt.pyMake (constPrng 8) (simpleModel skipCT.dims) skipWm skipCT 1 () false {0, 1, 2} none none none)
    (f := fun o => (match o.run (constPrng 8) (simpleModel skipCT.dims) skipWm [(probBase, true)] with
      | .error .divByZero => .ok () | _ => .error () : Except Unit Unit)) (Q := fun _ _ => true) (by decide +kernel)
  obtain ⟨a, b, h1, h2, -⟩ := this
  refine ⟨a, h1, ?_⟩
  split at h2
  · next h => exact h
  · cases h2

theorem skipCT_exact : IndsExact skipCT.inds {2} exCTree := by
  rw [indsExact_iff]
  simp only [exCTree, PTree.Sem, PTree.root, PTree.L, leaves, skipCT, leafInds]
  decide

/-- The hypotheses of C21 - C25 hold for the second tree: without skipped indices the same update is
accepted and moves the tree (index 0 is sliced at first). -/
example : (∀ n, 0 ≤ ilog2 n) ∧ OfferedWidth ilog2 skipCT.dims skipWm ∧ WellFormed skipCT.tree exCTree ∧
    IndsExact skipCT.inds {2} exCTree ∧
    ∃ o0 o, FwOpt.pyMake (constPrng 8) (simpleModel skipCT.dims) skipWm skipCT 1 () false ∅ none none none =
        some (.ok o0) ∧
      o0.run (constPrng 8) (simpleModel skipCT.dims) skipWm [(probBase, false), (probBase, true)] = .ok o ∧
      o0.slices = {0} ∧ o.inf.ctree.tree.nodes 3 ≠ o0.inf.ctree.tree.nodes 3 := by
  refine ⟨ilog2_nonneg, Or.inl ⟨2, rfl⟩, fwTree_wf, skipCT_exact, ?_⟩
  obtain ⟨a, b, h1, h2, h3⟩ := fw_eval
    (x := FwOpt.pyMake (constPrng 8) (simpleModel skipCT.dims) skipWm skipCT 1 () false ∅ none none none)
    (f := fun o => o.run (constPrng 8) (simpleModel skipCT.dims) skipWm [(probBase, false), (probBase, true)])
    (Q := fun a b => decide (a.slices = {0}) && decide (b.inf.ctree.tree.nodes 3 ≠ a.inf.ctree.tree.nodes 3))
    (by decide +kernel)
  simp only [Bool.and_eq_true, decide_eq_true_eq] at h3
  exact ⟨a, b, h1, h2, h3⟩

/-- The third case of `C25_no_crash_partial`: two skipped indices that fit, and one new slice. -/
example : skipWm.width {2, 3} ≤ skipWm.maxWidth ∧
    ∃ o0 o, FwOpt.pyMake (constPrng 8) (simpleModel skipCT.dims) skipWm skipCT 1 () false {2, 3} none none none =
        some (.ok o0) ∧
      o0.run (constPrng 8) (simpleModel skipCT.dims) skipWm [(probBase, false), (probBase, true)] = .ok o ∧ o.slices ≠ ∅ := by
  refine ⟨by decide +kernel, ?_⟩
  obtain ⟨a, b, h1, h2, h3⟩ := fw_eval
    (x := FwOpt.pyMake (constPrng 8) (simpleModel skipCT.dims) skipWm skipCT 1 () false {2, 3} none none none)
    (f := fun o => o.run (constPrng 8) (simpleModel skipCT.dims) skipWm [(probBase, false), (probBase, true)])
    (Q := fun _ b => decide (b.slices ≠ ∅)) (by decide +kernel)
  simp only [decide_eq_true_eq] at h3
  exact ⟨a, b, h1, h2, h3⟩

/-- The hypotheses of `C24_rejected_moves_undone`: one accepted update, then one in which every move
is refused. -/
example : (∀ s x y, (fun _ _ => -1 : ℤ → ℤ → ℚ) x y < ((constPrng 8).uniform s).1) ∧
    ∃ o0 o o', FwOpt.pyMake (constPrng 8) (simpleModel skipCT.dims) skipWm skipCT 1 () false ∅ none none none =
        some (.ok o0) ∧
      o0.run (constPrng 8) (simpleModel skipCT.dims) skipWm [(probBase, true)] = .ok o ∧
      o.update (constPrng 8) (simpleModel skipCT.dims) skipWm (fun _ _ => -1) false = .ok o' := by
  refine ⟨by intros; simp [constPrng], ?_⟩
  obtain ⟨a, b, h1, h2, -⟩ := fw_eval
    (x := FwOpt.pyMake (constPrng 8) (simpleModel skipCT.dims) skipWm skipCT 1 () false ∅ none none none)
    (f := fun o => match o.run (constPrng 8) (simpleModel skipCT.dims) skipWm [(probBase, true)] with
      | .ok o1 => (match o1.update (constPrng 8) (simpleModel skipCT.dims) skipWm (fun _ _ => -1) false with
        | .ok o2 => .ok (o1, o2) | .error _ => .error ())
      | .error _ => (.error () : Except Unit _))
    (Q := fun _ _ => true) (by decide +kernel)
  refine ⟨a, b.1, b.2, h1, ?_⟩
  split at h2
  · next o1 ho1 =>
    split at h2
    · next o2 ho2 => cases h2; exact ⟨ho1, ho2⟩
    · cases h2
  · cases h2

end TNCO
