import Verif.Lemmas.Blocked
import Verif.Props.Roomy
import Verif.Props.Reach

/-!
# Property C79: the finite-width search finds the best tree that fits

It does if no contraction of some of the tensors is wider than `max_width` (by C77 and C78). In general it does not: moves to trees that do
not fit are rejected, so the trees that fit may fall apart into groups that no sequence of moves joins.
-/

namespace TNCO
open PTree

section
variable {σ P R W : Type} [AddCommGroup R] [LinearOrder R] [LinearOrder P] [AddCommGroup W] [LinearOrder W] [IsOrderedAddMonoid W]

/-- C79, a trap: with `max_number_new_slices = 0`, if every exchange gives a tensor that does not fit with the slices that the constructor
found, no history of updates leaves the tree, whatever the generator, the cost model, the temperatures and the acceptance functions. -/
theorem C79_trap (g : FwPrng σ P) (m : CostModel R) (log2 : ℕ → W) (hlog : ∀ n, 0 ≤ log2 n) (wm : WidthModel W) (c : CTree)
    (seed : σ) (dis : Bool) (skip : ISet) (t : PTree) (out : ISet) (o0 : FwOpt σ R W) (hwm : OfferedWidth log2 c.dims wm)
    (hwf : WellFormed c.tree t) (hex : IndsExact c.inds out t)
    (hmk : FwOpt.pyMake g m wm c 0 seed dis skip none none none = some (.ok o0))
    (hblk : Blocked wm c.inds out c.tree.nLeaves o0.slices t) (ps : List ((R → R → P) × Bool))
    (hps : o0.slices = ∅ ∨ ∀ p ∈ ps, p.2 = false) :
    ∃ o, o0.run g m wm ps = .ok o ∧ o.inf.ctree = c ∧ o.slices = o0.slices ∧ o.inf.minCtree = c ∧ o.minSlices = o0.slices ∧
      o.inf.minTotal = o0.inf.minTotal ∧ o.inf.totalCost = o0.inf.totalCost := by
  have hlaw := (offered_lawful hlog hwm).1
  obtain ⟨hI0, hc, -, -, -, -, -, -, -, -, -, h0, -⟩ :=
    pyMake_inv hlaw hwf (by simp) hmk (out? := some out) (by rintro _ ⟨⟩; exact indsExact_iff.1 hex)
  have hi := hI0.inv
  have hI : FInv m wm (some out) false o0 t :=
    ⟨⟨hi.wf, hi.root, hi.nodes, hi.leaf, hi.part, hi.tail, hi.total, hi.sem, by simp, by simp⟩, hI0.width, hI0.skip⟩
  have cur : ∀ qs : List ((R → R → P) × Bool), (o0.slices = ∅ ∨ ∀ p ∈ qs, p.2 = false) →
      ∃ o, o0.run g m wm qs = .ok o ∧ o.inf.ctree = c ∧ o.slices = o0.slices := fun qs hqs =>
    frun_history_blocked g m hlaw hwf qs hblk hI hc h0 hqs
  obtain ⟨o, hrun, hoc, hos⟩ := cur ps hps
  have key : ∀ qs o1, o0.run g m wm qs = .ok o1 → o1.inf.ctree = c → o1.slices = o0.slices →
      getCost c.fuel (m.sliced o0.slices) c = some o1.inf.totalCost := by
    intro qs o1 h1 h2 h3
    obtain ⟨_, -, -, -, -, -, -, -, h4, -⟩ := C24_caches_exact g m log2 hlog wm c 0 seed dis skip none none none o0 o1 qs t out hwm hwf hex
      (by simp) hmk h1
    rwa [h2, h3] at h4
  obtain ⟨hmin, hcost, -⟩ := C24_min g m log2 hlog wm c 0 seed dis skip none none none o0 o ps t out hwm hwf hex (by simp) hmk hrun
  have hmc : o.inf.minCtree = c ∧ o.minSlices = o0.slices := by
    rcases hmin with h | ⟨p1, p2, o1, -, he, h1, h2, h3⟩
    · simpa using h
    · obtain ⟨o1', h1', h4, h5⟩ := cur p1 (hps.imp id fun hh q hq => hh q (by rw [he]; simp [hq]))
      rw [h1] at h1'; cases h1'
      exact ⟨h2.trans h4, h3.trans h5⟩
  have hcost0 := (C24_min g m log2 hlog wm c 0 seed dis skip none none none o0 o0 [] t out hwm hwf hex (by simp) hmk rfl).2.1
  have hmc0 : o0.inf.minCtree = c ∧ o0.minSlices = o0.slices := by
    rcases (C24_min g m log2 hlog wm c 0 seed dis skip none none none o0 o0 [] t out hwm hwf hex (by simp) hmk rfl).1 with h | ⟨p1, p2, o1, h1, h2, -⟩
    · simpa using h
    · simp at h2; exact absurd h2.1 h1
  rw [hmc.1, hmc.2] at hcost
  rw [hmc0.1, hmc0.2, hcost] at hcost0
  have k1 := key ps o hrun hoc hos
  have k0 := key [] o0 rfl hc rfl
  rw [k1] at k0
  exact ⟨o, hrun, hoc, hos, hmc.1, hmc.2, Option.some.inj hcost0, Option.some.inj k0⟩

end

/-! ### Four tensors in a ring -/

/-- The dimensions: four open indices and two bonds of dimension 4, two bonds of dimension 2. -/
def ringDims : Dims := .vec [4, 4, 4, 4, 4, 4, 2, 2]

/-- Four tensors in a ring, each with an open index: (0, 1), (2, 3). -/
def ringA : CTree :=
  ⟨.ofList [⟨none, none, some 4⟩, ⟨none, none, some 4⟩, ⟨none, none, some 5⟩, ⟨none, none, some 5⟩, ⟨some 0, some 1, some 6⟩,
    ⟨some 2, some 3, some 6⟩, ⟨some 4, some 5, none⟩],
    8, fun i => [{0, 4, 6}, {1, 5, 6}, {2, 4, 7}, {3, 5, 7}, {0, 1, 4, 5}, {2, 3, 4, 5}, {0, 1, 2, 3}].getD i ∅, ringDims⟩

/-- The same tensors: (0, 2), (1, 3). -/
def ringB : CTree :=
  ⟨.ofList [⟨none, none, some 4⟩, ⟨none, none, some 5⟩, ⟨none, none, some 4⟩, ⟨none, none, some 5⟩, ⟨some 0, some 2, some 6⟩,
    ⟨some 1, some 3, some 6⟩, ⟨some 4, some 5, none⟩],
    8, fun i => [{0, 4, 6}, {1, 5, 6}, {2, 4, 7}, {3, 5, 7}, {0, 2, 6, 7}, {1, 3, 6, 7}, {0, 1, 2, 3}].getD i ∅, ringDims⟩

def ringTA : PTree := .node 6 (.node 4 (.leaf 0) (.leaf 1)) (.node 5 (.leaf 2) (.leaf 3))
def ringTB : PTree := .node 6 (.node 4 (.leaf 0) (.leaf 2)) (.node 5 (.leaf 1) (.leaf 3))

/-- The width model with `max_width = 8`. -/
def ringWm : WidthModel ℤ :=
  ⟨simpleWidth ilog2 ringDims, simpleDelta ilog2 ringDims, fun i => ilog2 (ringDims.get i), false, 8⟩

theorem ringA_wf : WellFormed ringA.tree ringTA := by
  refine ⟨by simp [ringA, ringTA, Encodes, Tree.ofList, PTree.root], by decide, ?_, by decide, ?_⟩
  · intro p
    have : ringA.tree.size = 7 := rfl
    rw [this]; simp [ringTA, postorder]; omega
  · intro p
    have : (ringA.tree.size + 1) / 2 = 4 := rfl
    rw [this]; simp [ringTA, leaves]; omega

theorem ringB_wf : WellFormed ringB.tree ringTB := by
  refine ⟨by simp [ringB, ringTB, Encodes, Tree.ofList, PTree.root], by decide, ?_, by decide, ?_⟩
  · intro p
    have : ringB.tree.size = 7 := rfl
    rw [this]; simp [ringTB, postorder]; omega
  · intro p
    have : (ringB.tree.size + 1) / 2 = 4 := rfl
    rw [this]; simp [ringTB, leaves]; omega

theorem ringA_exact : IndsExact ringA.inds {0, 1, 2, 3} ringTA := by
  rw [indsExact_iff]
  simp only [ringTA, PTree.Sem, PTree.root, PTree.L, leaves, ringA, leafInds]
  decide +kernel

theorem ringB_exact : IndsExact ringB.inds {0, 1, 2, 3} ringTB := by
  rw [indsExact_iff]
  simp only [ringTB, PTree.Sem, PTree.root, PTree.L, leaves, ringB, leafInds]
  decide +kernel

theorem ring_blocked : Blocked ringWm ringA.inds {0, 1, 2, 3} ringA.tree.nLeaves ∅ ringTA := by
  unfold Blocked
  decide +kernel

theorem ringA_fits : ∀ p < ringA.tree.size, ringWm.width (ringA.inds p) ≤ ringWm.maxWidth := by decide +kernel

theorem ring_other : OtherTree false {0, 1, 2, 3} ringA ringB ringTB := by
  refine ⟨ringB_wf, rfl, ringB_exact, ?_, by decide +kernel⟩
  have : ringA.tree.nLeaves = 4 := rfl
  rw [this]
  decide

/-- C79, violated: there is a tree of cost 5120 that fits into the width 8, and another valid tree for the same tensors, of cost 1536, which
fits as well, without slices; and with `max_number_new_slices = 0`, the finite-width search that starts from the first stays there: for every
generator, all acceptance functions and all numbers of updates, the lowest cost found is 5120. -/
theorem C79_violated {σ P : Type} [LinearOrder P] (g : FwPrng σ P) (seed : σ) :
    simpleWidthModel ilog2 ringA.dims 8 = some ringWm ∧ WellFormed ringA.tree ringTA ∧ IndsExact ringA.inds {0, 1, 2, 3} ringTA ∧
    OtherTree false {0, 1, 2, 3} ringA ringB ringTB ∧ (∀ p < ringB.tree.size, ringWm.width (ringB.inds p) ≤ ringWm.maxWidth) ∧
    treeCost (simpleModel ringB.dims).get ringB.inds ringTB = 1536 ∧
    ∃ o0, FwOpt.pyMake g (simpleModel ringA.dims) ringWm ringA 0 seed false ∅ none none none = some (.ok o0) ∧
      ∀ ps : List ((ℤ → ℤ → P) × Bool), ∃ o, o0.run g (simpleModel ringA.dims) ringWm ps = .ok o ∧
        o.inf.ctree = ringA ∧ o.slices = ∅ ∧ o.inf.minCtree = ringA ∧ o.inf.minTotal = 5120 := by
  have hwm : OfferedWidth ilog2 ringA.dims ringWm := Or.inl ⟨8, rfl⟩
  refine ⟨rfl, ringA_wf, ringA_exact, ring_other, by decide +kernel, by decide +kernel, ?_⟩
  have hv : ringA.isValid true = true := by decide +kernel
  have hlf := ((ctree_isValid_iff ringA_wf _).1 hv).2.1
  have hcost : getCost ringA.fuel (simpleModel ringA.dims) ringA = some 5120 := by decide +kernel
  have hi : ∃ i, InfOpt.make (simpleModel ringA.dims) ringA seed false none = some (.ok i) := by
    obtain ⟨k, hk, -⟩ := costCache_make (m := simpleModel ringA.dims) ringA_wf hlf (fuel := ringA.fuel) (le_refl _)
    have hk2 : (CostCache.make ringA.fuel (simpleModel ringA.dims) ringA).map (fun k => k.partialCost (ringA.tree.size - 1)) = some 5120 := by
      decide +kernel
    rw [hk] at hk2
    simp only [Option.map_some, Option.some.injEq] at hk2
    unfold InfOpt.make InfOpt.makeWith
    simp only [Option.getD_none, bind, pure, hk, hcost, Option.bind_some, Bool.not_false, hv, Bool.not_true, Bool.or_self, Bool.false_eq_true, if_false]
    unfold InfOpt.totalCost
    dsimp only
    rw [hk2]
    rw [if_neg (by decide)]
    exact ⟨_, rfl⟩
  obtain ⟨i, hi⟩ := hi
  have hmk := fpyMake_room g (simpleModel ringA.dims) (wm := ringWm) (fun h => (offered_lawful ilog2_nonneg hwm).1.mono h) ringA_wf
    ringA_fits 0 seed false ∅
  rw [hi] at hmk
  refine ⟨_, hmk, fun ps => ?_⟩
  obtain ⟨o, h1, h2, h3, h4, h5, h6, -⟩ := C79_trap g (simpleModel ringA.dims) ilog2 ilog2_nonneg ringWm ringA seed false ∅ ringTA {0, 1, 2, 3} _ hwm
    ringA_wf ringA_exact hmk ring_blocked ps (Or.inl rfl)
  refine ⟨o, h1, h2, h3, h4, ?_⟩
  have := (C24_min g (simpleModel ringA.dims) ilog2 ilog2_nonneg ringWm ringA 0 seed false ∅ none none none _ o ps ringTA {0, 1, 2, 3} hwm
    ringA_wf ringA_exact (by simp) hmk h1).2.1
  rw [h4, h5] at this
  change getCost ringA.fuel ((simpleModel ringA.dims).sliced ∅) ringA = _ at this
  rw [sliced_empty, hcost] at this
  exact (Option.some.inj this).symm

section
variable {σ W : Type} [AddCommGroup W] [LinearOrder W] [IsOrderedAddMonoid W]

/-- C79 (partial): if no contraction of some of the tensors is wider than `max_width`, the chance that the lowest cost found is at most that of
any given valid tree for the same tensors tends to one with the number of updates, if the temperature stays above some value. The chance is
that of the infinite-memory optimizer in the state of the finite-width one, which does what that one does, whatever the generator and the
setting of the slicing. Missing: limits that matter, see `C79_violated`. -/
theorem C79_limit_partial (m : CostModel ℝ) (log2 : ℕ → W) (hlog : ∀ n, 0 ≤ log2 n) (wm : WidthModel W) (c c' : CTree) (t t' : PTree)
    (dis : Bool) (out : ISet) (beta : ℝ) (M : ℕ) (hwm : OfferedWidth log2 c.dims wm) (hwf : WellFormed c.tree t) (hex : IndsExact c.inds out t)
    (hroom : Roomy wm c.inds out c.tree.nLeaves) (h' : OtherTree dis out c c' t') (hpos : ∀ s, 0 < m.get s) (hb : 0 ≤ beta) (hM : 2 ≤ M)
    (hMl : c.tree.nLeaves ≤ M) (eta : ENNReal) (he : 0 < eta) :
    ∃ n0, ∀ (g : FwPrng σ ℝ) (maxNew : ℕ) (seed : σ) (skip : ISet) (o0 o : FwOpt σ ℝ W) (ps : List ((ℝ → ℝ → ℝ) × Bool)),
      FwOpt.pyMake g m wm c maxNew seed dis skip none none none = some (.ok o0) → o0.run g m wm ps = .ok o →
      (∀ (g' : FwPrng σ ℝ) (qs : List ((ℝ → ℝ → ℝ) × Bool)), ∃ o', o.run g' m wm qs = .ok o' ∧
        o.inf.run g'.toPrng m (qs.map Prod.fst) = some o'.inf ∧ o'.slices = ∅ ∧ o'.minSlices = ∅) ∧
      ∀ probs : List (ℝ → ℝ → ℝ), n0 ≤ probs.length → (∀ p ∈ probs, ∀ delta old, 0 < old → probMH beta delta old ≤ p delta old) →
        1 - eta ≤ o.inf.chance M m probs fun x => x.minTotal ≤ treeCost m.get c'.inds t' := by
  obtain ⟨n0, hn⟩ := C77_limit (σ := σ) m dis out c c' t' beta M h' hpos hb hM hMl eta he
  refine ⟨n0, fun g maxNew seed skip o0 o ps hmk hrun => ?_⟩
  have hr := room_of_roomy hroom
  have e := fpyMake_room g m (fun h => (offered_lawful hlog hwm).1.mono h) hwf (hr.self hwf hex) maxNew seed dis skip
  obtain ⟨i, hi⟩ : ∃ i, InfOpt.make m c seed dis none = some (.ok i) := by
    rw [hmk] at e
    revert e
    rcases InfOpt.make m c seed dis none with _ | x | i
    · simp
    · simp
    · exact fun _ => ⟨i, rfl⟩
  have e0 : o0 = FwOpt.ofInf wm c maxNew (if skip = ∅ then none else some skip) i := by
    rw [hi, hmk] at e
    simpa using e
  obtain ⟨o1, h1, h2, h3⟩ := frun_history_room g m wm hr ps
    (roomInv_make (wm := wm) hwf hex hi maxNew (if skip = ∅ then none else some skip))
  rw [← e0, hrun] at h1
  cases h1
  refine ⟨fun g' qs => ?_, fun probs hl hp => ?_⟩
  · obtain ⟨o2, h4, h5, h6⟩ := frun_history_room g' m wm hr qs h3
    exact ⟨o2, h4, h5, h6.slices, h6.minSlices⟩
  · exact hn g.toPrng o.inf probs ⟨⟨t, hwf, hex⟩, seed, none, i, ps.map Prod.fst, hi, by simpa [FwOpt.ofInf] using h2⟩ hl hp

/-- C79 (partial): under the same condition the chance that the search has not found a tree as good falls exponentially with the number of
updates. Missing: limits that matter, see `C79_violated`. -/
theorem C79_rate_partial (m : CostModel ℝ) (log2 : ℕ → W) (hlog : ∀ n, 0 ≤ log2 n) (wm : WidthModel W) (c c' : CTree) (t t' : PTree)
    (dis : Bool) (out : ISet) (beta : ℝ) (M : ℕ) (hwm : OfferedWidth log2 c.dims wm) (hwf : WellFormed c.tree t) (hex : IndsExact c.inds out t)
    (hroom : Roomy wm c.inds out c.tree.nLeaves) (h' : OtherTree dis out c c' t') (hpos : ∀ s, 0 < m.get s) (hb : 0 ≤ beta) (hM : 2 ≤ M)
    (hMl : c.tree.nLeaves ≤ M) :
    ∃ (k : ℕ) (r : ENNReal), r < 1 ∧ ∀ (j : ℕ) (g : FwPrng σ ℝ) (maxNew : ℕ) (seed : σ) (skip : ISet) (o0 o : FwOpt σ ℝ W)
      (ps : List ((ℝ → ℝ → ℝ) × Bool)),
      FwOpt.pyMake g m wm c maxNew seed dis skip none none none = some (.ok o0) → o0.run g m wm ps = .ok o →
      ∀ probs : List (ℝ → ℝ → ℝ), j * k < probs.length → (∀ p ∈ probs, ∀ delta old, 0 < old → probMH beta delta old ≤ p delta old) →
        1 - r ^ j ≤ o.inf.chance M m probs fun x => x.minTotal ≤ treeCost m.get c'.inds t' := by
  obtain ⟨k, r, hr1, hn⟩ := C77_rate (σ := σ) m dis out c c' t' beta M h' hpos hb hM hMl
  refine ⟨k, r, hr1, fun j g maxNew seed skip o0 o ps hmk hrun probs hl hp => ?_⟩
  have hr := room_of_roomy hroom
  have e := fpyMake_room g m (fun h => (offered_lawful hlog hwm).1.mono h) hwf (hr.self hwf hex) maxNew seed dis skip
  obtain ⟨i, hi⟩ : ∃ i, InfOpt.make m c seed dis none = some (.ok i) := by
    rw [hmk] at e
    revert e
    rcases InfOpt.make m c seed dis none with _ | x | i
    · simp
    · simp
    · exact fun _ => ⟨i, rfl⟩
  have e0 : o0 = FwOpt.ofInf wm c maxNew (if skip = ∅ then none else some skip) i := by
    rw [hi, hmk] at e
    simpa using e
  obtain ⟨o1, h1, h2, h3⟩ := frun_history_room g m wm hr ps
    (roomInv_make (wm := wm) hwf hex hi maxNew (if skip = ∅ then none else some skip))
  rw [← e0, hrun] at h1
  cases h1
  exact hn j g.toPrng o.inf probs ⟨⟨t, hwf, hex⟩, seed, none, i, ps.map Prod.fst, hi, by simpa [FwOpt.ofInf] using h2⟩ hl hp

end

/-- The hypotheses of `C79_limit_partial` and `C79_rate_partial` hold for the ring with the limit 16. -/
example : OfferedWidth ilog2 ringA.dims { ringWm with maxWidth := 16 } ∧ WellFormed ringA.tree ringTA ∧ IndsExact ringA.inds {0, 1, 2, 3} ringTA ∧
    Roomy { ringWm with maxWidth := 16 } ringA.inds {0, 1, 2, 3} ringA.tree.nLeaves ∧ OtherTree false {0, 1, 2, 3} ringA ringB ringTB ∧
    ¬ Roomy ringWm ringA.inds {0, 1, 2, 3} ringA.tree.nLeaves := by
  refine ⟨Or.inl ⟨16, rfl⟩, ringA_wf, ringA_exact, ?_, ring_other, ?_⟩
  · have h : ∀ S ∈ (Finset.range 4).powerset, ringWm.width (keptOf ringA.inds {0, 1, 2, 3} 4 S) ≤ 16 := by decide +kernel
    intro S hS
    exact h S (Finset.mem_powerset.2 hS)
  · intro h
    have := h {0, 1, 2} (by decide)
    revert this
    decide +kernel

end TNCO
