import Verif.Model.Width
import Verif.Lemmas.Slices
import Mathlib.Analysis.SpecialFunctions.Log.Base
import Mathlib.Algebra.BigOperators.Group.Finset.Piecewise
import Mathlib.Algebra.Order.BigOperators.Group.Finset

/-!
# Property C46: width bookkeeping of the finite-width cost models
-/

namespace TNCO

variable {W : Type} [AddCommGroup W] [LinearOrder W] [IsOrderedAddMonoid W]

omit [LinearOrder W] [IsOrderedAddMonoid W] in
theorem simpleWidth_eq_sum (log2 : ℕ → W) (dims : Dims) (xs : ISet) :
    simpleWidth log2 dims xs = ∑ i ∈ xs, log2 (dims.get i) := by
  cases dims with
  | int d => simp [simpleWidth, Dims.get]
  | vec l => rfl

omit [IsOrderedAddMonoid W] in
theorem minW_eq (x y : W) : minW x y = min x y := by
  unfold minW
  split
  · next h => rw [min_eq_left h.le]
  · next h => rw [min_eq_right (not_lt.1 h)]

omit [LinearOrder W] [IsOrderedAddMonoid W] in
/-- C46 (simple model): toggling an index changes the width by exactly `delta_width`. -/
theorem C46_delta_simple (log2 : ℕ → W) (dims : Dims) (xs : ISet) (pos : ℕ) :
    simpleWidth log2 dims (xs.toggle pos) = simpleWidth log2 dims xs + simpleDelta log2 dims xs pos := by
  rw [simpleWidth_eq_sum, simpleWidth_eq_sum]
  unfold ISet.toggle simpleDelta
  split
  · next h =>
    rw [← Finset.add_sum_erase xs _ h]
    simp
  · next h => rw [Finset.sum_insert h]; simp; abel

omit [IsOrderedAddMonoid W] in
/-- C46 (sparse model): toggling an index changes the width by exactly `delta_width`. -/
theorem C46_delta_sparse (log2 : ℕ → W) (dims : Dims) (sparse : ISet) (nProjs : ℕ) (xs : ISet) (pos : ℕ) :
    sparseWidth log2 dims sparse nProjs (xs.toggle pos) =
      sparseWidth log2 dims sparse nProjs xs + sparseDelta log2 dims sparse nProjs xs pos := by
  unfold sparseWidth sparseDelta
  split
  · next h =>
    have e : xs.toggle pos \ sparse = xs \ sparse := by
      unfold ISet.toggle; split <;> (ext y; simp only [Finset.mem_sdiff, Finset.mem_erase, Finset.mem_insert]) <;>
        (by_cases hy : y = pos
         · subst hy; simp [h]
         · simp [hy])
    rw [e]; abel
  · next h =>
    have e : xs.toggle pos ∩ sparse = xs ∩ sparse := by
      unfold ISet.toggle; split <;> (ext y; simp only [Finset.mem_inter, Finset.mem_erase, Finset.mem_insert]) <;>
        (by_cases hy : y = pos
         · subst hy; simp [h]
         · simp [hy])
    have e2 : xs.toggle pos \ sparse = (xs \ sparse).toggle pos := by
      unfold ISet.toggle
      have : (pos ∈ xs \ sparse) = (pos ∈ xs) := by simp [h]
      simp only [this]
      split <;> (ext y; simp only [Finset.mem_sdiff, Finset.mem_erase, Finset.mem_insert]) <;>
        (by_cases hy : y = pos
         · subst hy; simp [h]
         · simp [hy])
    have e3 : simpleDelta log2 dims (xs \ sparse) pos = simpleDelta log2 dims xs pos := by
      unfold simpleDelta; simp [h]
    rw [e, e2, C46_delta_simple, e3]; abel

/-- C46: widths are monotone in the set of indices (both models). -/
theorem C46_mono (log2 : ℕ → W) (hlog : ∀ n, 0 ≤ log2 n) (dims : Dims) (sparse : ISet) (nProjs : ℕ)
    {xs ys : ISet} (h : xs ⊆ ys) :
    simpleWidth log2 dims xs ≤ simpleWidth log2 dims ys ∧
    sparseWidth log2 dims sparse nProjs xs ≤ sparseWidth log2 dims sparse nProjs ys := by
  have hs : ∀ {xs ys : ISet}, xs ⊆ ys → simpleWidth log2 dims xs ≤ simpleWidth log2 dims ys := by
    intro xs ys h
    rw [simpleWidth_eq_sum, simpleWidth_eq_sum]
    exact Finset.sum_le_sum_of_subset_of_nonneg h fun _ _ _ => hlog _
  refine ⟨hs h, ?_⟩
  unfold sparseWidth
  rw [minW_eq, minW_eq]
  exact add_le_add (hs (Finset.sdiff_subset_sdiff h (Finset.Subset.refl _)))
    (min_le_min_right _ (hs (Finset.inter_subset_inter h (Finset.Subset.refl _))))

/-- C46: the sparse width is at most the simple width, and both are 0 for a scalar. -/
theorem C46_sparse_le_simple (log2 : ℕ → W) (hlog : ∀ n, 0 ≤ log2 n) (dims : Dims) (sparse : ISet) (nProjs : ℕ)
    (xs : ISet) :
    sparseWidth log2 dims sparse nProjs xs ≤ simpleWidth log2 dims xs ∧
    0 ≤ sparseWidth log2 dims sparse nProjs xs ∧
    simpleWidth log2 dims ∅ = 0 ∧ sparseWidth log2 dims sparse nProjs ∅ = 0 := by
  have h0 : simpleWidth log2 dims ∅ = 0 := by rw [simpleWidth_eq_sum]; simp
  have hz : sparseWidth log2 dims sparse nProjs ∅ = 0 := by
    unfold sparseWidth; rw [minW_eq]; simp [h0, hlog]
  refine ⟨?_, ?_, h0, hz⟩
  · unfold sparseWidth
    rw [minW_eq]
    refine (add_le_add (le_refl _) (min_le_left _ _)).trans ?_
    rw [simpleWidth_eq_sum, simpleWidth_eq_sum, simpleWidth_eq_sum, add_comm,
      Finset.sum_inter_add_sum_sdiff]
  · rw [← hz]; exact (C46_mono log2 hlog dims sparse nProjs (Finset.empty_subset xs)).2

/-- C46 (simple model): the cost with slices is the number of slices times the cost of one
slice. -/
theorem C46_sliced_cost (dims : Dims) (a b c slices : ISet) :
    ((simpleModel dims).sliced slices).contractionCost a b c =
      (∏ i ∈ slices, (dims.get i : ℤ)) * ∏ i ∈ (a ∪ b) \ slices, (dims.get i : ℤ) := by
  have hg : ∀ xs : ISet, (simpleGet dims xs : ℤ) = ∏ i ∈ xs, (dims.get i : ℤ) := by
    intro xs
    cases dims with
    | int d => simp [simpleGet, Dims.get]
    | vec l => simp [simpleGet, Dims.get]
  simp only [CostModel.contractionCost, CostModel.sliced, simpleModel, hg]
  rw [← Finset.prod_union (Finset.disjoint_sdiff)]
  congr 1
  ext y; simp only [Finset.mem_union, Finset.mem_sdiff]; tauto

/-- C46: the width is the base-2 logarithm of the number of entries. -/
theorem C46_width_is_log (dims : Dims) (xs : ISet) (h : ∀ i ∈ xs, dims.get i ≠ 0) :
    simpleWidth (fun n => Real.logb 2 n) dims xs = Real.logb 2 (simpleGet dims xs) := by
  have hg : (simpleGet dims xs : ℝ) = ∏ i ∈ xs, (dims.get i : ℝ) := by
    cases dims with
    | int d => simp [simpleGet, Dims.get]
    | vec l => simp [simpleGet, Dims.get]
  rw [simpleWidth_eq_sum, hg, Real.logb_prod]
  intro i hi
  exact_mod_cast h i hi

/-- The finite-width cost models offered by the library, for one tree. -/
def OfferedWidth (log2 : ℕ → W) (dims : Dims) (wm : WidthModel W) : Prop :=
  (∃ mw, simpleWidthModel log2 dims mw = some wm) ∨
  ∃ mw sparse nProjs, sparseWidthModel log2 dims mw sparse nProjs = some wm

omit [LinearOrder W] [IsOrderedAddMonoid W] in
theorem toggle_of_mem {xs : ISet} {x : ℕ} (h : x ∈ xs) : xs.toggle x = xs.erase x := by
  unfold ISet.toggle; rw [if_pos h]

theorem simple_lawful {log2 : ℕ → W} (hlog : ∀ n, 0 ≤ log2 n) {dims : Dims} {mw : W} {wm : WidthModel W}
    (h : simpleWidthModel log2 dims mw = some wm) : wm.Lawful ∧ wm.LogExact ∅ ∧ 0 ≤ wm.maxWidth ∧
      ∀ xs : ISet, wm.width xs ≤ ∑ x ∈ xs, wm.log2d x := by
  unfold simpleWidthModel at h
  split at h
  · simp at h
  next hmw =>
  simp only [Option.some.injEq] at h
  subst h
  refine ⟨⟨fun h => (C46_mono log2 hlog dims ∅ 0 h).1, fun {xs x} hx => ?_⟩, fun {xs x} hx _ => ?_, not_lt.1 hmw,
    fun xs => le_of_eq (simpleWidth_eq_sum log2 dims xs)⟩
  · simp only; rw [← toggle_of_mem hx, C46_delta_simple]
  · simp only; rw [← toggle_of_mem hx, C46_delta_simple]; simp [simpleDelta, hx]; abel

theorem offered_lawful {log2 : ℕ → W} (hlog : ∀ n, 0 ≤ log2 n) {dims : Dims} {wm : WidthModel W}
    (h : OfferedWidth log2 dims wm) : wm.Lawful ∧ 0 ≤ wm.maxWidth ∧
      ∀ xs : ISet, wm.width xs ≤ ∑ x ∈ xs, wm.log2d x := by
  rcases h with ⟨mw, h⟩ | ⟨mw, sparse, n, h⟩
  · have := simple_lawful hlog h
    exact ⟨this.1, this.2.2⟩
  · unfold sparseWidthModel at h
    split at h
    · simp at h
    next hmw =>
    split at h
    · simp at h
    simp only [Option.some.injEq] at h
    subst h
    refine ⟨⟨fun h => (C46_mono log2 hlog dims sparse n h).2, fun {xs x} hx => ?_⟩, not_lt.1 hmw, fun xs => ?_⟩
    · simp only; rw [← toggle_of_mem hx, C46_delta_sparse]
    · simp only
      rw [← simpleWidth_eq_sum]
      exact (C46_sparse_le_simple log2 hlog dims sparse n xs).1

/-- Removing an index that is not sparse reduces the width by its `log2_dims`. -/
theorem sparse_logExact {log2 : ℕ → W} {dims : Dims} {mw : W} {sparse : ISet} {n : ℕ} {wm : WidthModel W}
    (h : sparseWidthModel log2 dims mw sparse n = some wm) {k : ISet} (hk : sparse ⊆ k) : wm.LogExact k := by
  unfold sparseWidthModel at h
  split at h
  · simp at h
  split at h
  · simp at h
  simp only [Option.some.injEq] at h
  subst h
  intro xs x hx hxk
  have hxs : x ∉ sparse := fun h => hxk (hk h)
  simp only
  rw [← toggle_of_mem hx, C46_delta_sparse]
  simp [sparseDelta, hxs, simpleDelta, hx]
  abel

/-- A set of indices is at most as wide as the part in `k` and the other indices together. -/
theorem offered_split {log2 : ℕ → W} (hlog : ∀ n, 0 ≤ log2 n) {dims : Dims} {wm : WidthModel W} (h : OfferedWidth log2 dims wm)
    (k xs : ISet) : wm.width xs ≤ wm.width k + ∑ x ∈ xs \ k, wm.log2d x := by
  have hsum : ∀ a b : ISet, simpleWidth log2 dims a ≤ simpleWidth log2 dims (a ∩ b) + simpleWidth log2 dims (a \ b) := by
    intro a b
    rw [simpleWidth_eq_sum, simpleWidth_eq_sum, simpleWidth_eq_sum, Finset.sum_inter_add_sum_sdiff]
  rcases h with ⟨mw, h⟩ | ⟨mw, sparse, n, h⟩
  · unfold simpleWidthModel at h
    split at h
    · simp at h
    simp only [Option.some.injEq] at h
    subst h
    simp only
    rw [← simpleWidth_eq_sum]
    exact (hsum xs k).trans (add_le_add ((C46_mono log2 hlog dims ∅ 0 Finset.inter_subset_right).1) le_rfl)
  · unfold sparseWidthModel at h
    split at h
    · simp at h
    split at h
    · simp at h
    simp only [Option.some.injEq] at h
    subst h
    simp only
    rw [← simpleWidth_eq_sum]
    refine le_trans ?_ (add_le_add ((C46_mono log2 hlog dims sparse n (Finset.inter_subset_right (s₁ := xs) (s₂ := k))).2) le_rfl)
    unfold sparseWidth
    rw [minW_eq, minW_eq]
    have e1 : (xs \ sparse) ∩ k = (xs ∩ k) \ sparse := by
      ext y
      simp only [Finset.mem_inter, Finset.mem_sdiff]
      tauto
    have e2 : (xs ∩ sparse) ∩ k = (xs ∩ k) ∩ sparse := by
      ext y
      simp only [Finset.mem_inter]
      tauto
    have e3 : simpleWidth log2 dims (xs \ k) = simpleWidth log2 dims ((xs \ sparse) \ k) + simpleWidth log2 dims ((xs ∩ sparse) \ k) := by
      rw [simpleWidth_eq_sum, simpleWidth_eq_sum, simpleWidth_eq_sum, ← Finset.sum_inter_add_sum_sdiff (xs \ k) sparse, add_comm]
      congr 2
      · ext y
        simp only [Finset.mem_sdiff]
        tauto
      · ext y
        simp only [Finset.mem_inter, Finset.mem_sdiff]
        tauto
    have h1 := hsum (xs \ sparse) k
    have h2 := hsum (xs ∩ sparse) k
    rw [e1] at h1
    rw [e2] at h2
    have h3 : min (simpleWidth log2 dims (xs ∩ sparse)) (log2 n) ≤
        min (simpleWidth log2 dims (xs ∩ k ∩ sparse)) (log2 n) + simpleWidth log2 dims ((xs ∩ sparse) \ k) := by
      have h0 : 0 ≤ simpleWidth log2 dims ((xs ∩ sparse) \ k) := by
        rw [simpleWidth_eq_sum]
        exact Finset.sum_nonneg fun _ _ => hlog _
      rw [← min_add_add_right]
      exact min_le_min h2 (le_add_of_nonneg_right h0)
    rw [e3]
    refine (add_le_add h1 h3).trans (le_of_eq ?_)
    abel

/-- Non-trivial values: real widths of a tensor with dimensions 2, 4, 8 (index 1 sparse, at most
two projections), before and after removing index 1. -/
example : (∀ n : ℕ, 0 ≤ Real.logb 2 (n : ℝ)) ∧
    sparseWidth (fun n => (Nat.log 2 n : ℤ)) (.vec [2, 4, 8]) {1} 2 {0, 1, 2} = 5 ∧
    sparseDelta (fun n => (Nat.log 2 n : ℤ)) (.vec [2, 4, 8]) {1} 2 {0, 1, 2} 1 = -1 ∧
    simpleDelta (fun n => (Nat.log 2 n : ℤ)) (.vec [2, 4, 8]) {0, 1, 2} 1 = -2 := by
  refine ⟨fun n => ?_, by decide +kernel, by decide +kernel, by decide +kernel⟩
  rcases Nat.eq_zero_or_pos n with rfl | h
  · simp
  · exact Real.logb_nonneg (by norm_num) (by exact_mod_cast h)

end TNCO
