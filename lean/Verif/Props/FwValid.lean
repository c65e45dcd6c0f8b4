import Verif.Model.FwValid
import Verif.Props.FiniteWidth
import Verif.Props.InfValid
import Verif.Lemmas.AnnealFw

/-!
# Property C48: the cache validators detect wrong caches; `is_valid` of the finite-width optimizer
-/

namespace TNCO
open PTree

theorem foldl_and (l : List Bool) (b : Bool) : l.foldl (· && ·) b = (b && l.all id) := by
  induction l generalizing b with
  | nil => simp
  | cons a l ih => simp [ih, Bool.and_assoc]

/-- `compare` accepts exactly the vectors of equal length that agree entry by entry. -/
theorem compareArrays_iff (cmp : ℝ → ℝ → Bool) (x y : List ℝ) :
    compareArrays cmp x y = true ↔ x.length = y.length ∧
      ∀ (i : ℕ) (h1 : i < x.length) (h2 : i < y.length), cmp x[i] y[i] = true := by
  unfold compareArrays
  split
  · next h => simp [h]
  · next h =>
    push Not at h
    rw [foldl_and, Bool.true_and, List.all_eq_true]
    simp only [h, true_and, id_eq]
    constructor
    · intro hh i h1 h2
      exact hh _ (List.mem_iff_getElem.2 ⟨i, by simp; omega, by simp⟩)
    · intro hh b hb
      obtain ⟨i, hi, rfl⟩ := List.mem_iff_getElem.1 hb
      rw [List.length_zipWith] at hi
      simp only [List.getElem_zipWith]
      exact hh i (by omega) (by omega)

theorem isClose_iff (x y atol : ℝ) : isClose x y atol = true ↔ |x - y| ≤ atol := by
  unfold isClose; simp

theorem isLogClose_iff (x y atol : ℝ) : isLogClose x y atol = true ↔
    0 ≤ x ∧ 0 ≤ y ∧ ((x = 0 ∨ y = 0) → x = y) ∧ (x ≠ 0 → y ≠ 0 → |Real.log x - Real.log y| ≤ atol) := by
  unfold isLogClose
  split
  · next h => simp only [Bool.false_eq_true, false_iff]; rintro ⟨h1, h2, -⟩; rcases h with h | h <;> linarith
  · next h =>
    push Not at h
    split
    · next h' =>
      simp only [decide_eq_true_eq]
      constructor
      · intro e
        refine ⟨h.1, h.2, fun _ => e, fun hx hy => ?_⟩
        rcases h' with h' | h' <;> contradiction
      · rintro ⟨-, -, h3, -⟩; exact h3 h'
    · next h' =>
      push Not at h'
      simp only [decide_eq_true_eq]
      constructor
      · intro e
        exact ⟨h.1, h.2, fun hh => (by rcases hh with hh | hh; exacts [absurd hh h'.1, absurd hh h'.2]),
          fun _ _ => e⟩
      · rintro ⟨-, -, -, h4⟩; exact h4 h'.1 h'.2

/-- C48: the width cache is accepted exactly when no entry is off by more than the tolerance. -/
theorem C48_width_cache (x y : List ℝ) (atol : ℝ) :
    widthCacheIsCloseTo x y atol = true ↔ x.length = y.length ∧
      ∀ (i : ℕ) (h1 : i < x.length) (h2 : i < y.length), |x[i] - y[i]| ≤ atol := by
  unfold widthCacheIsCloseTo allClose
  simp only [compareArrays_iff, isClose_iff]

/-- C48: the cost cache is accepted exactly when in both vectors all entries are non-negative,
zeros agree, and the logarithms of the other entries are within the tolerance. -/
theorem C48_cost_cache (px cx py cy : List ℝ) (atol : ℝ) :
    costCacheIsCloseTo px cx py cy atol = true ↔
      ∀ q ∈ [(px, py), (cx, cy)], q.1.length = q.2.length ∧
        ∀ (i : ℕ) (h1 : i < q.1.length) (h2 : i < q.2.length), 0 ≤ q.1[i] ∧ 0 ≤ q.2[i] ∧
          ((q.1[i] = 0 ∨ q.2[i] = 0) → q.1[i] = q.2[i]) ∧
          (q.1[i] ≠ 0 → q.2[i] ≠ 0 → |Real.log q.1[i] - Real.log q.2[i]| ≤ atol) := by
  unfold costCacheIsCloseTo allLogCloseL
  rw [Bool.and_eq_true, compareArrays_iff, compareArrays_iff]
  simp only [isLogClose_iff]
  constructor
  · rintro ⟨h1, h2⟩ q hq
    simp only [List.mem_cons, List.not_mem_nil, or_false] at hq
    rcases hq with rfl | rfl
    · exact h1
    · exact h2
  · intro h
    exact ⟨h (px, py) (by simp), h (cx, cy) (by simp)⟩

/-- C48: the hyper-index cache is accepted exactly when it is equal. -/
theorem C48_hyper_cache (x y : List ISet) (atol : ℝ) : hyperCacheIsCloseTo x y atol = true ↔ x = y := by
  unfold hyperCacheIsCloseTo; exact decide_eq_true_iff

/-- C48 (partial): per-index `log2(dims)` caches are accepted exactly when no entry is off by more
than the tolerance, and never when one is a number and the other a vector. Missing: the case of one
common dimension, see `C48_violated`. -/
theorem C48_dims_cache_partial (x y : List ℝ) (a atol : ℝ) :
    (dimsCacheIsCloseTo (.many x) (.many y) atol = true ↔ x.length = y.length ∧
      ∀ (i : ℕ) (h1 : i < x.length) (h2 : i < y.length), |x[i] - y[i]| ≤ atol) ∧
    dimsCacheIsCloseTo (.one a) (.many y) atol = false ∧
    dimsCacheIsCloseTo (.many x) (.one a) atol = false := by
  refine ⟨?_, rfl, rfl⟩
  simp only [dimsCacheIsCloseTo, allClose, compareArrays_iff, isClose_iff]

/-- **C48 is violated**: if all dimensions agree, *every* wrong cached logarithm is accepted, for
every tolerance `≥ 0`: the stored value is compared with itself. -/
theorem C48_violated (x y atol : ℝ) (h : 0 ≤ atol) : dimsCacheIsCloseTo (.one x) (.one y) atol = true := by
  simp [dimsCacheIsCloseTo, isClose, h]

/-- A concrete wrong cache: dimension 2 (logarithm 1) recorded as 1000. -/
example : dimsCacheIsCloseTo (.one 1000) (Log2Dims.ofDims (.int 2)) 0 = true := C48_violated _ _ _ (le_refl _)

/-- Concrete non-trivial vectors: off by exactly the tolerance, and by more. -/
example : widthCacheIsCloseTo [1, 2] [1, 3] 1 = true ∧ widthCacheIsCloseTo [1, 2] [1, 4] 1 = false ∧
    widthCacheIsCloseTo [1] [1, 4] 1 = false := by
  refine ⟨?_, ?_, ?_⟩
  · rw [C48_width_cache]
    refine ⟨rfl, fun i h1 h2 => ?_⟩
    simp only [List.length_cons, List.length_nil] at h1
    match i, h1 with
    | 0, _ => norm_num
    | 1, _ => norm_num
  · rw [Bool.eq_false_iff, ne_eq, C48_width_cache]
    rintro ⟨-, h⟩
    have := h 1 (by simp) (by simp)
    norm_num at this
  · rw [Bool.eq_false_iff, ne_eq, C48_width_cache]
    simp

theorem allLogCloseL_self {n : ℕ} {f f' : ℕ → ℝ} {atol : ℝ} (ha : 0 ≤ atol) (h : ∀ p < n, f p = f' p ∧ 0 ≤ f' p) :
    allLogCloseL (tab n f) (tab n f') atol = true := by
  unfold allLogCloseL
  rw [compareArrays_iff]
  refine ⟨by simp [tab], fun i h1 _ => ?_⟩
  simp only [tab, List.length_map, List.length_range] at h1
  simp only [tab, List.getElem_map, List.getElem_range, (h i h1).1]
  exact isLogClose_self (h i h1).2 ha

/-- C24, as the user sees it (partial as C22): `is_valid` returns `True` after any history, for
exact non-negative costs and any tolerance. -/
theorem C24_is_valid_partial {σ P : Type} [LinearOrder P] (g : FwPrng σ P) (m : CostModel ℝ)
    (hm : ∀ s, 0 ≤ m.get s) (log2 : ℕ → ℝ) (hlog : ∀ n, 0 ≤ log2 n)
    (wm : WidthModel ℝ) (c : CTree) (maxNew : ℕ) (seed : σ) (dis : Bool) (skip : ISet) (minC : Option CTree)
    (slices minSlices : Option ISet) (o0 o : FwOpt σ ℝ ℝ) (ps : List ((ℝ → ℝ → P) × Bool)) (t0 : PTree) (out : ISet)
    (hwf : WellFormed c.tree t0) (hex : IndsExact c.inds out t0)
    (hgiven : ∀ sl, slices = some sl → Disjoint sl skip)
    (hmk : FwOpt.pyMake g m wm c maxNew seed dis skip minC slices minSlices = some (.ok o0))
    (hrun : o0.run g m wm ps = .ok o)
    (hmodel : (∃ mw, simpleWidthModel log2 c.dims mw = some wm) ∨
      ∃ mw sparse nProjs, sparseWidthModel log2 c.dims mw sparse nProjs = some wm ∧ (maxNew = 0 ∨ sparse ⊆ skip))
    (atol : ℝ) (ha : 0 ≤ atol) :
    o.isValid m wm (Log2Dims.ofDims c.dims) atol = some true := by
  have hwm : OfferedWidth log2 c.dims wm := by
    rcases hmodel with h | ⟨mw, sp, n, h, -⟩
    · exact Or.inl h
    · exact Or.inr ⟨mw, sp, n, h⟩
  have hfit := C22_width_limit_partial g m log2 hlog wm c maxNew seed dis skip minC slices minSlices o0 o ps
    ⟨t0, hwf⟩ hgiven hmk hrun hmodel
  have key := fun qs o1 h1 => C24_caches_exact g m log2 hlog wm c maxNew seed dis skip minC slices minSlices o0 o1 qs
    t0 out hwm hwf hex hgiven hmk h1
  have hI0 := pyMake_inv (offered_lawful hlog hwm).1 hwf hgiven hmk (out? := none) (by simp)
  obtain ⟨hmc, hmt, -⟩ := C24_min g m log2 hlog wm c maxNew seed dis skip minC slices minSlices o0 o ps t0 out
    hwm hwf hex hgiven hmk hrun
  obtain ⟨t, hw, hsz, -, -, -, hv, -, -, ⟨k, hk, hkk⟩, hhy, hwd⟩ := key ps o hrun
  have hloc := ((ctree_isValid_iff hw _).1 hv).2.1
  obtain ⟨k', hk', k1, k2, k3⟩ := costCache_make (m := m.sliced o.slices) hw hloc (fuel := o.inf.ctree.fuel) (le_refl _)
  rw [hk] at hk'; cases hk'
  have hnn : ∀ p < o.inf.ctree.tree.size, 0 ≤ k.partialCost p ∧ 0 ≤ k.contractionCost p := by
    intro p hp
    refine partial_nonneg (PTree.all_mono ?_ k2) k3 k1 p ((hw.mem p).2 hp)
    intro q a b _ _ _ h; rw [h]; exact hm _
  have hst : o.inf.disableShared = dis ∧ o.inf.ctree.dims = c.dims := by
    obtain ⟨hO, hc, hd, -⟩ := hI0
    rcases frun_history g m (offered_lawful hlog hwm).1 (by simp) ps hO with ⟨h, -⟩ | ⟨o', t', hrun', -, hS, -⟩
    · rw [hrun] at h; cases h
    rw [hrun] at hrun'; cases hrun'
    exact ⟨by rw [hS.inf.disable, hd], by rw [hS.inf.dims, hc]⟩
  have hmv : o.inf.minCtree.isValid (!dis) = true ∧ 0 ≤ o.inf.minTotal := by
    rcases hmc with ⟨h, h'⟩ | ⟨p1, p2, o1, -, -, h2, h3, h4⟩
    · obtain ⟨-, -, -, -, h5, h6, -, h8, -, h10, -⟩ := hI0
      rw [h]
      refine ⟨h10, ?_⟩
      rw [h, h', ← h5, h6] at hmt
      exact (Option.some.inj hmt) ▸ h8.le
    · obtain ⟨t1, hw1, -, -, -, -, hv1, -⟩ := key p1 o1 h2
      rw [h3]
      refine ⟨hv1, ?_⟩
      rw [h3, getCost_eq hw1 ((ctree_isValid_iff hw1 _).1 hv1).2.1 (fuel := o1.inf.ctree.fuel) (le_refl _)] at hmt
      rw [← Option.some.inj hmt]
      clear hw1 hv1 hmt
      induction t1 with
      | leaf => exact le_refl _
      | node p l r ihl ihr =>
        simp only [treeCost]
        have := hm ((o1.inf.ctree.inds l.root ∪ o1.inf.ctree.inds r.root) ∪ o.minSlices)
        simp only [CostModel.sliced] at *
        linarith
  have hf1 : allFit wm o.inf.ctree o.slices = true := by
    unfold allFit; simp only [List.all_eq_true, List.mem_range, decide_eq_true_eq]; exact hfit.1
  have hf2 : allFit wm o.inf.minCtree o.minSlices = true := by
    unfold allFit; simp only [List.all_eq_true, List.mem_range, decide_eq_true_eq]; exact hfit.2
  have e1 : costCacheIsCloseTo (tab o.inf.ctree.tree.size o.inf.cost.partialCost)
      (tab o.inf.ctree.tree.size o.inf.cost.contractionCost) (tab o.inf.ctree.tree.size k.partialCost)
      (tab o.inf.ctree.tree.size k.contractionCost) atol = true := by
    unfold costCacheIsCloseTo
    rw [Bool.and_eq_true]
    exact ⟨allLogCloseL_self ha fun p hp => ⟨(hkk p hp).1, (hnn p hp).1⟩,
      allLogCloseL_self ha fun p hp => ⟨(hkk p hp).2, (hnn p hp).2⟩⟩
  have e2 : hyperCacheIsCloseTo (tab o.inf.ctree.tree.size o.inf.hyper)
      (tab o.inf.ctree.tree.size (hyperCache o.inf.ctree)) atol = true := by
    rw [C48_hyper_cache]
    unfold tab
    apply List.map_congr_left
    intro p hp
    exact hhy p (by simpa using hp)
  have e3 : widthCacheIsCloseTo (tab o.inf.ctree.tree.size o.width)
      (tab o.inf.ctree.tree.size (widthCache wm o.inf.ctree)) atol = true := by
    rw [C48_width_cache]
    refine ⟨by simp [tab], fun i h1 _ => ?_⟩
    simp only [tab, List.length_map, List.length_range] at h1
    simp only [tab, List.getElem_map, List.getElem_range, hwd i h1, sub_self, abs_zero]
    exact ha
  have e4 : dimsCacheIsCloseTo (Log2Dims.ofDims c.dims) (Log2Dims.ofDims c.dims) atol = true := by
    cases hc : c.dims with
    | int d => exact C48_violated _ _ _ ha
    | vec l =>
      simp only [Log2Dims.ofDims]
      rw [(C48_dims_cache_partial _ _ 0 atol).1]
      exact ⟨rfl, fun i _ _ => by simpa using ha⟩
  unfold FwOpt.isValid
  simp only [hst.1, hst.2, hv, hmv.1, hmt, isLogClose_self hmv.2 ha, hk, hf1, hf2, e1, e2, e3, e4, bind, pure,
    Bool.not_true, Bool.false_eq_true, if_false, Option.bind_some]

/-- The hypotheses of `C24_is_valid_partial` for a tree of which an index must be sliced, and any sequence of updates. -/
example {P : Type} [LinearOrder P] (g : FwPrng Unit P) (ps : List ((ℝ → ℝ → P) × Bool)) :
    ∃ wm o0 o, simpleWidthModel (fun n => (Nat.log2 n : ℝ)) skipCT.dims 2 = some wm ∧ WellFormed skipCT.tree exCTree ∧ IndsExact skipCT.inds {2} exCTree ∧
      FwOpt.pyMake g (⟨fun s => 2 ^ s.card⟩ : CostModel ℝ) wm skipCT 0 () false ∅ none none none = some (.ok o0) ∧
      o0.run g ⟨fun s => 2 ^ s.card⟩ wm ps = .ok o ∧ o0.slices ≠ ∅ := by
  have hlog : ∀ n, (0 : ℝ) ≤ (Nat.log2 n : ℝ) := fun n => Nat.cast_nonneg _
  obtain ⟨wm, hwm⟩ : ∃ wm, simpleWidthModel (fun n => (Nat.log2 n : ℝ)) skipCT.dims 2 = some wm := by
    unfold simpleWidthModel
    rw [if_neg (by norm_num)]
    exact ⟨_, rfl⟩
  obtain ⟨o0, h0⟩ := fwMake_ok (g := g) (m := (⟨fun s => 2 ^ s.card⟩ : CostModel ℝ)) (seed := ()) hlog (Or.inl ⟨2, hwm⟩) fwTree_wf (c := skipCT) (n := 4)
    (by decide +kernel) (by decide) (by
      intro p
      have : ∀ p < 5, skipCT.inds p ⊆ Finset.range 4 := by decide
      by_cases hp : p < 5
      · exact this p hp
      · have : skipCT.inds p = ∅ := by
          unfold skipCT
          exact List.getD_eq_default _ _ (by simpa using hp)
        rw [this]; exact Finset.empty_subset _) (fun s _ => by positivity)
  obtain ⟨o, ho⟩ := C25_no_crash_partial g _ _ hlog wm skipCT 0 () false ∅ none none none o0 ps (Or.inl ⟨2, hwm⟩) ⟨_, fwTree_wf⟩ (by simp) h0 (Or.inl rfl)
  refine ⟨wm, o0, o, hwm, fwTree_wf, skipCT_exact, h0, ho, fun he => ?_⟩
  have hf := C22_width_limit_partial g _ _ hlog wm skipCT 0 () false ∅ none none none o0 o0 [] ⟨_, fwTree_wf⟩ (by simp) h0 rfl (Or.inl ⟨2, hwm⟩)
  obtain ⟨t, -, hsz, hl, -⟩ := C24_caches_exact g _ _ hlog wm skipCT 0 () false ∅ none none none o0 o0 [] exCTree {2} (Or.inl ⟨2, hwm⟩) fwTree_wf skipCT_exact (by simp) h0 rfl
  have h1 := hf.1 1 (by rw [hsz]; decide)
  rw [hl 1 (by decide), he, Finset.sdiff_empty] at h1
  unfold simpleWidthModel at hwm
  rw [if_neg (by norm_num)] at hwm
  cases hwm
  have hc : simpleWidth (fun n => (Nat.log2 n : ℝ)) skipCT.dims (skipCT.inds 1) = 3 := by
    have e1 : (skipCT.inds 1).card = 3 := by decide
    have e2 : Nat.log2 2 = 1 := by decide
    simp only [simpleWidth, skipCT, e2] at e1 ⊢
    rw [e1]; norm_num
  simp only [hc] at h1
  norm_num at h1

end TNCO
