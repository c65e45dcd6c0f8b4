import Verif.Lemmas.ShuffleSort
import Verif.Props.FiniteWidth
import Verif.Props.SliceGrow

/-!
# Property C95: no slice is superfluous

`getSlices` is `get_slices` of greedy/utils.hpp; a slice `x` of `S` is needed if some tensor does not fit with `S.erase x`.
-/

namespace TNCO
open PTree

variable {σ P R W : Type} [AddCommGroup R] [LinearOrder R] [LinearOrder P] [AddCommGroup W] [LinearOrder W]
  [IsOrderedAddMonoid W]

omit [AddCommGroup R] [LinearOrder R] [LinearOrder P] in
/-- Slices taken from the largest index on are all needed for the tensor (helper). -/
theorem sliceLoop_needed {wm : WidthModel W} (hw : wm.Lawful) (he : wm.LogExact ∅) :
    ∀ (l : List ℕ) (S xs : ISet), l.Nodup → (∀ x ∈ l, x ∈ xs) → l.Pairwise (fun x y => wm.log2d y ≤ wm.log2d x) →
      wm.maxWidth < wm.width xs →
      ∃ T ⊆ l.toFinset, sliceLoop wm l S xs (wm.width xs) = S ∪ T ∧ ∀ x ∈ T, wm.maxWidth < wm.width (xs \ T.erase x) := by
  intro l
  induction l with
  | nil => intro S xs _ _ _ _; exact ⟨∅, by simp, by simp [sliceLoop], by simp⟩
  | cons x l ih =>
    intro S xs hnd hsub hs hbig
    have hx : x ∈ xs := hsub x (by simp)
    simp only [sliceLoop, ← hw.delta hx]
    split
    · refine ⟨{x}, by simp, ?_, ?_⟩
      · ext y; simp [or_comm]
      · intro y hy
        rw [Finset.mem_singleton] at hy
        subst hy
        simpa using hbig
    · next h =>
      rw [List.nodup_cons] at hnd
      rw [List.pairwise_cons] at hs
      have hsub' : ∀ y ∈ l, y ∈ xs.erase x := by
        intro y hy
        exact Finset.mem_erase.2 ⟨by rintro rfl; exact hnd.1 hy, hsub y (by simp [hy])⟩
      obtain ⟨T, hT, e, hc⟩ := ih (insert x S) (xs.erase x) hnd.2 hsub' hs.2 (not_le.1 h)
      have hxT : x ∉ T := fun hx' => hnd.1 (by simpa using hT hx')
      refine ⟨insert x T, ?_, ?_, ?_⟩
      · rw [List.toFinset_cons]; exact Finset.insert_subset_insert _ hT
      · rw [e]; ext y; simp only [Finset.mem_union, Finset.mem_insert]; tauto
      · intro y hy
        rcases Finset.mem_insert.1 hy with rfl | hyT
        · rw [Finset.erase_insert hxT]
          rcases T.eq_empty_or_nonempty with rfl | ⟨z, hz⟩
          · simpa using hbig
          · have hzl : z ∈ l := by simpa using hT hz
            have h1 := hc z hz
            have e1 : xs.erase y \ T = (xs.erase y \ T.erase z).erase z := by
              ext a
              simp only [Finset.mem_sdiff, Finset.mem_erase]
              by_cases haz : a = z
              · subst haz; simp [hz]
              · simp [haz]
            have e2 : xs.erase y \ T = (xs \ T).erase y := by
              ext a
              simp only [Finset.mem_sdiff, Finset.mem_erase]
              tauto
            have w1 := he (xs := xs.erase y \ T.erase z) (x := z) (by
              rw [Finset.mem_sdiff]
              exact ⟨hsub' z hzl, by simp⟩) (by simp)
            have w2 := he (xs := xs \ T) (x := y) (Finset.mem_sdiff.2 ⟨hx, hxT⟩) (by simp)
            rw [← e1] at w1
            rw [← e2, w1] at w2
            have h2 := hs.1 z hzl
            refine h1.trans_le ?_
            have w3 : wm.width (xs \ T) = wm.width (xs.erase y \ T.erase z) + (wm.log2d y - wm.log2d z) := by
              rw [← sub_add_cancel (wm.width (xs \ T)) (wm.log2d y), ← w2]
              abel
            rw [w3]
            exact le_add_of_nonneg_right (sub_nonneg.2 h2)
        · have hne : y ≠ x := by rintro rfl; exact hxT hyT
          have e1 : xs \ (insert x T).erase y = xs.erase x \ T.erase y := by
            ext a
            simp only [Finset.mem_sdiff, Finset.mem_erase, Finset.mem_insert]
            constructor
            · rintro ⟨h1, h2⟩
              have hax : a ≠ x := by rintro rfl; exact h2 ⟨hne.symm, Or.inl rfl⟩
              exact ⟨⟨hax, h1⟩, fun h => h2 ⟨h.1, Or.inr h.2⟩⟩
            · rintro ⟨⟨h1, h2⟩, h3⟩
              exact ⟨h2, fun h => h.2.elim h1 fun h' => h3 ⟨h.1, h'⟩⟩
          rw [e1]
          exact hc y hyT

omit [AddCommGroup R] [LinearOrder R] [LinearOrder P] [IsOrderedAddMonoid W] in
/-- Tensors that fit are passed over (helper). -/
theorem sliceFold_skip (g : FwPrng σ P) (wm : WidthModel W) (c : CTree) (skip : Option ISet) (width : ℕ → W) (l : List ℕ)
    (h : ∀ q ∈ l, width q ≤ wm.maxWidth) (st : ISet × σ) : l.foldl (sliceVisit g wm c skip width) st = st := by
  induction l generalizing st with
  | nil => rfl
  | cons q l ih =>
    rw [List.foldl_cons]
    have : sliceVisit g wm c skip width st q = st := by
      unfold sliceVisit
      rw [if_neg (not_lt.2 (h q (by simp)))]
    rw [this]
    exact ih (fun q hq => h q (by simp [hq])) st

omit [AddCommGroup R] [LinearOrder R] in
/-- The slices if one tensor only is too wide: the loop over its indices, from the largest dimension on (helper). -/
theorem getSlices_single (g : FwPrng σ P) (log2 : ℕ → W) (hlog : ∀ n, 0 ≤ log2 n) (mw : W) (wm : WidthModel W) (c : CTree)
    (hwm : simpleWidthModel log2 c.dims mw = some wm) (skip : Option ISet) (htree : IsTree c.tree) (s : σ) (p : ℕ) (hp : p < c.tree.size)
    (hone : ∀ q < c.tree.size, q ≠ p → wm.width (c.inds q) ≤ wm.maxWidth) :
    ∃ S s', getSlices g wm c skip (widthCache wm c) s = some (S, s') ∧
      (S = ∅ ∨ ∃ l : List ℕ, l.Perm ((c.inds p).minus? skip).positions ∧ l.Pairwise (fun x y => wm.log2d y ≤ wm.log2d x) ∧
        wm.maxWidth < wm.width (c.inds p) ∧ S = sliceLoop wm l ∅ (c.inds p) (wm.width (c.inds p))) := by
  obtain ⟨t, hwf⟩ := htree
  have hsc : wm.scalar = true → ∀ x y, wm.log2d x = wm.log2d y := by
    unfold simpleWidthModel at hwm
    split at hwm
    · cases hwm
    · cases hwm
      intro h x y
      simp only at h ⊢
      cases hd : c.dims with
      | int d => rfl
      | vec l => rw [hd] at h; simp [Dims.isInt] at h
  unfold getSlices
  rw [traverse_eq (fuel := c.fuel) hwf (le_refl _), Option.map_some]
  refine ⟨_, _, rfl, ?_⟩
  obtain ⟨a, b, hab⟩ := List.append_of_mem ((hwf.mem p).2 hp)
  have hnd := hwf.nodup
  rw [hab] at hnd
  have hpa : ∀ q ∈ a, widthCache wm c q ≤ wm.maxWidth := by
    intro q hq
    refine hone q ((hwf.mem q).1 (by rw [hab]; simp [hq])) ?_
    rintro rfl
    exact (List.nodup_append.1 hnd).2.2 q hq q (by simp) rfl
  have hpb : ∀ q ∈ b, widthCache wm c q ≤ wm.maxWidth := by
    intro q hq
    refine hone q ((hwf.mem q).1 (by rw [hab]; simp [hq])) ?_
    rintro rfl
    exact (List.nodup_cons.1 (List.nodup_append.1 hnd).2.1).1 hq
  rw [hab, List.foldl_append, List.foldl_cons, sliceFold_skip g wm c skip _ a hpa, sliceFold_skip g wm c skip _ b hpb]
  unfold sliceVisit
  split
  · next hbig =>
    simp only [Finset.sdiff_empty]
    split
    · next hbig2 =>
      obtain ⟨big, hB⟩ : ∃ big, big = nBig wm c (widthCache wm c) := ⟨_, rfl⟩
      obtain ⟨L, hL⟩ : ∃ L, L = (g.shuffle s ((c.inds p).minus? skip).positions).1 := ⟨_, rfl⟩
      rw [← hB, ← hL]
      have hperm : (sliceSort wm big L).Perm ((c.inds p).minus? skip).positions := by
        rw [hL]; exact (sliceSort_perm _ _ _).trans (g.shuffle_perm _ _)
      have hin : ∀ x ∈ sliceSort wm big L, x ∈ c.inds p := by
        intro x hx
        rw [hperm.mem_iff, ISet.mem_positions] at hx
        exact ISet.minus?_subset _ _ hx
      have hone' : ∀ x ∈ c.inds p, big x = 1 := by
        intro x hx
        have hf : (List.range c.tree.size).filter (fun q => wm.maxWidth < widthCache wm c q ∧ x ∈ c.inds q) =
            (List.range c.tree.size).filter (fun q => q = p) := by
          refine List.filter_congr fun q hq => ?_
          rw [List.mem_range] at hq
          by_cases hqp : q = p
          · subst hqp; simp [hbig, hx]
          · have := not_lt.2 (hone q hq hqp)
            have h' : ¬ wm.maxWidth < widthCache wm c q := this
            simp [hqp, h']
        rw [hB]
        unfold nBig
        rw [hf, ← List.countP_eq_length_filter]
        have : (List.range c.tree.size).countP (fun q => decide (q = p)) = (List.range c.tree.size).count p := by
          unfold List.count
          exact List.countP_congr fun q _ => by simp
        rw [this, List.count_eq_one_of_mem List.nodup_range (by simpa using hp)]
      have hsorted : (sliceSort wm big L).Pairwise fun x y => wm.log2d y ≤ wm.log2d x := by
        refine (List.pairwise_iff_forall_sublist.2 ?_)
        intro x y hxy
        have hs := List.pairwise_iff_forall_sublist.1 (sliceSort_sorted wm big L) hxy
        have hx : x ∈ c.inds p := hin x (hxy.subset (by simp))
        have hy : y ∈ c.inds p := hin y (hxy.subset (by simp))
        by_cases hsc' : wm.scalar = true
        · exact (hsc hsc' y x).le
        · have hg : sliceGreater wm big y x = false := by
            rw [sliceGreater_key, decide_eq_false_iff_not, not_lt]
            exact hs
          unfold sliceGreater at hg
          rw [if_neg hsc', if_pos (by rw [hone' x hx, hone' y hy]), decide_eq_false_iff_not, not_lt] at hg
          exact hg
      exact Or.inr ⟨_, hperm, hsorted, hbig2, rfl⟩
    · exact Or.inl rfl
  · exact Or.inl rfl

omit [AddCommGroup R] [LinearOrder R] in
/-- C95 (partial): if one tensor only is too wide, every slice that `get_slices` returns is an index of it and needed, for the dense cost
model and all dimensions, generators and skipped indices. Missing: several tensors that are too wide, see `C95_violated`. -/
theorem C95_single_partial (g : FwPrng σ P) (log2 : ℕ → W) (hlog : ∀ n, 0 ≤ log2 n) (mw : W) (wm : WidthModel W) (c : CTree)
    (hwm : simpleWidthModel log2 c.dims mw = some wm) (skip : Option ISet) (htree : IsTree c.tree) (s : σ) (p : ℕ) (hp : p < c.tree.size)
    (hone : ∀ q < c.tree.size, q ≠ p → wm.width (c.inds q) ≤ wm.maxWidth) :
    ∃ S s', getSlices g wm c skip (widthCache wm c) s = some (S, s') ∧
      ∀ x ∈ S, x ∈ c.inds p ∧ wm.maxWidth < wm.width (c.inds p \ S.erase x) := by
  have hl := simple_lawful hlog hwm
  obtain ⟨S, s', h, hS⟩ := getSlices_single g log2 hlog mw wm c hwm skip htree s p hp hone
  refine ⟨S, s', h, ?_⟩
  rcases hS with rfl | ⟨l, hperm, hsorted, hbig, rfl⟩
  · intro x hx; simp at hx
  · have hin : ∀ x ∈ l, x ∈ c.inds p := by
      intro x hx
      rw [hperm.mem_iff, ISet.mem_positions] at hx
      exact ISet.minus?_subset _ _ hx
    obtain ⟨T, hT, e, hc⟩ := sliceLoop_needed hl.1 hl.2.1 l ∅ (c.inds p) (hperm.nodup_iff.2 (ISet.positions_nodup _)) hin hsorted hbig
    rw [e, Finset.empty_union]
    exact fun x hx => ⟨hin x (by simpa using hT hx), hc x hx⟩

omit [AddCommGroup R] [LinearOrder R] [LinearOrder P] [IsOrderedAddMonoid W] in
/-- The loop takes the first indices of its list (helper). -/
theorem sliceLoop_take (wm : WidthModel W) : ∀ (l : List ℕ) (S xs : ISet) (w : W),
    ∃ k, sliceLoop wm l S xs w = S ∪ (l.take k).toFinset := by
  intro l
  induction l with
  | nil => intro S xs w; exact ⟨0, by simp [sliceLoop]⟩
  | cons x l ih =>
    intro S xs w
    simp only [sliceLoop]
    split
    · exact ⟨1, by ext y; simp [or_comm]⟩
    · obtain ⟨k, e⟩ := ih (insert x S) (xs.erase x) (w + wm.delta xs x)
      refine ⟨k + 1, ?_⟩
      rw [e, List.take_succ_cons, List.toFinset_cons]
      ext y
      simp only [Finset.mem_union, Finset.mem_insert]
      tauto

omit [AddCommGroup R] [LinearOrder R] in
/-- C95 (partial): if one tensor only is too wide, `get_slices` returns as few slices as possible: no set of indices that may be sliced
and with which all tensors fit has fewer elements. Here the dense cost model, all dimensions, generators and skipped indices. -/
theorem C95_fewest_partial (g : FwPrng σ P) (log2 : ℕ → W) (hlog : ∀ n, 0 ≤ log2 n) (mw : W) (wm : WidthModel W) (c : CTree)
    (hwm : simpleWidthModel log2 c.dims mw = some wm) (skip : Option ISet) (htree : IsTree c.tree) (s : σ) (p : ℕ) (hp : p < c.tree.size)
    (hone : ∀ q < c.tree.size, q ≠ p → wm.width (c.inds q) ≤ wm.maxWidth) :
    ∃ S s', getSlices g wm c skip (widthCache wm c) s = some (S, s') ∧
      ∀ S' : ISet, (∀ k, skip = some k → Disjoint S' k) → (∀ q < c.tree.size, wm.width (c.inds q \ S') ≤ wm.maxWidth) →
        S.card ≤ S'.card := by
  have hl := simple_lawful hlog hwm
  obtain ⟨S, s', h, hS⟩ := getSlices_single g log2 hlog mw wm c hwm skip htree s p hp hone
  refine ⟨S, s', h, ?_⟩
  intro S' hskip hfit
  rcases hS with rfl | ⟨l, hperm, hsorted, hbig, rfl⟩
  · simp
  have hnd : l.Nodup := hperm.nodup_iff.2 (ISet.positions_nodup _)
  have hall : ∀ x, x ∈ l ↔ x ∈ (c.inds p).minus? skip := fun x => by rw [hperm.mem_iff, ISet.mem_positions]
  have hin : ∀ x ∈ l, x ∈ c.inds p := fun x hx => ISet.minus?_subset _ _ ((hall x).1 hx)
  obtain ⟨T, hT, e, hc⟩ := sliceLoop_needed hl.1 hl.2.1 l ∅ (c.inds p) hnd hin hsorted hbig
  obtain ⟨k, e'⟩ := sliceLoop_take wm l ∅ (c.inds p) (wm.width (c.inds p))
  rw [Finset.empty_union] at e e'
  have hTk : T = (l.take k).toFinset := e.symm.trans e'
  rw [e]
  by_contra hlt
  rw [not_le] at hlt
  -- the slice taken last has the smallest dimension
  have hne : T.Nonempty := Finset.card_pos.1 (by omega)
  obtain ⟨x, hxT, hmin⟩ := T.exists_min_image wm.log2d hne
  have hrest : ∀ y ∈ l, y ∉ T → wm.log2d y ≤ wm.log2d x := by
    intro y hy hyT
    have hsp := hsorted
    rw [← List.take_append_drop k l, List.pairwise_append] at hsp
    refine hsp.2.2 x (by simpa [hTk] using hxT) y ?_
    rw [← List.take_append_drop k l, List.mem_append] at hy
    exact hy.resolve_left fun h => hyT (by rw [hTk]; simpa using h)
  have hA : ∀ y ∈ (S' ∩ c.inds p) \ T.erase x, wm.log2d y ≤ wm.log2d x := by
    intro y hy
    rw [Finset.mem_sdiff, Finset.mem_inter, Finset.mem_erase] at hy
    by_cases hyx : y = x
    · rw [hyx]
    · refine hrest y ((hall y).2 ?_) fun h => hy.2 ⟨hyx, h⟩
      cases skip with
      | none => exact hy.1.2
      | some K => exact Finset.mem_sdiff.2 ⟨hy.1.2, Finset.disjoint_left.1 (hskip K rfl) hy.1.1⟩
  have hB : ∀ y ∈ T.erase x \ (S' ∩ c.inds p), wm.log2d x ≤ wm.log2d y := fun y hy =>
    hmin y (Finset.mem_of_mem_erase (Finset.mem_sdiff.1 hy).1)
  have h0 : 0 ≤ wm.log2d x := by
    unfold simpleWidthModel at hwm
    split at hwm
    · cases hwm
    · cases hwm; exact hlog _
  have hcard : ((S' ∩ c.inds p) \ T.erase x).card ≤ (T.erase x \ (S' ∩ c.inds p)).card := by
    rw [Finset.card_sdiff_le_card_sdiff_iff, Finset.card_erase_of_mem hxT]
    have := Finset.card_le_card (Finset.inter_subset_left (s₁ := S') (s₂ := c.inds p))
    omega
  have hsum : ∑ y ∈ S' ∩ c.inds p, wm.log2d y ≤ ∑ y ∈ T.erase x, wm.log2d y := by
    rw [← Finset.sum_inter_add_sum_sdiff (S' ∩ c.inds p) (T.erase x), ← Finset.sum_inter_add_sum_sdiff (T.erase x) (S' ∩ c.inds p),
      Finset.inter_comm (T.erase x)]
    gcongr _ + ?_
    calc _ ≤ ((S' ∩ c.inds p) \ T.erase x).card • wm.log2d x := Finset.sum_le_card_nsmul _ _ _ hA
      _ ≤ (T.erase x \ (S' ∩ c.inds p)).card • wm.log2d x := nsmul_le_nsmul_left h0 hcard
      _ ≤ _ := Finset.card_nsmul_le_sum _ _ _ hB
  have w1 := width_logExact hl.2.1 (c.inds p) (S' ∩ c.inds p) Finset.inter_subset_right (by simp)
  have w2 := width_logExact hl.2.1 (c.inds p) (T.erase x)
    (fun y hy => hin y (by simpa using hT (Finset.mem_of_mem_erase hy))) (by simp)
  have e3 : c.inds p \ (S' ∩ c.inds p) = c.inds p \ S' := by
    ext y
    simp only [Finset.mem_sdiff, Finset.mem_inter]
    exact ⟨fun h => ⟨h.1, fun h' => h.2 ⟨h', h.1⟩⟩, fun h => ⟨h.1, fun h' => h.2 h'.1⟩⟩
  rw [e3] at w1
  have h1 := hc x hxT
  have h2 := hfit p hp
  rw [w2] at h1
  rw [w1] at h2
  exact absurd (h1.trans_le (sub_le_sub_left hsum _)) (not_lt.2 h2)

omit [AddCommGroup R] [LinearOrder R] [LinearOrder P] [IsOrderedAddMonoid W] in
/-- The slice taken last is needed for the tensor (helper). -/
theorem sliceLoop_last {wm : WidthModel W} (hw : wm.Lawful) :
    ∀ (l : List ℕ) (S xs : ISet), l ≠ [] → l.Nodup → (∀ x ∈ l, x ∈ xs) → Disjoint xs S → wm.maxWidth < wm.width xs →
      S ⊆ sliceLoop wm l S xs (wm.width xs) ∧
        ∃ x ∈ l, x ∈ sliceLoop wm l S xs (wm.width xs) ∧ wm.maxWidth < wm.width (xs \ (sliceLoop wm l S xs (wm.width xs)).erase x) := by
  intro l
  induction l with
  | nil => intro S xs h; exact absurd rfl h
  | cons x l ih =>
    intro S xs _ hnd hsub hdis hbig
    have hx : x ∈ xs := hsub x (by simp)
    have hxS : x ∉ S := Finset.disjoint_left.1 hdis hx
    have hone : S ⊆ insert x S ∧ ∃ y ∈ x :: l, y ∈ insert x S ∧ wm.maxWidth < wm.width (xs \ (insert x S).erase y) := by
      refine ⟨Finset.subset_insert _ _, x, by simp, Finset.mem_insert_self _ _, ?_⟩
      rw [Finset.erase_insert hxS, Finset.sdiff_eq_self_of_disjoint hdis]
      exact hbig
    simp only [sliceLoop, ← hw.delta hx]
    split
    · exact hone
    · next h =>
      rcases eq_or_ne l [] with rfl | hl
      · simpa only [sliceLoop] using hone
      · rw [List.nodup_cons] at hnd
        obtain ⟨h1, y, hy, h2, h3⟩ := ih (insert x S) (xs.erase x) hl hnd.2
          (fun y hy => Finset.mem_erase.2 ⟨by rintro rfl; exact hnd.1 hy, hsub y (by simp [hy])⟩)
          (by
            rw [Finset.disjoint_left] at hdis ⊢
            intro a ha hb
            rw [Finset.mem_erase] at ha
            rcases Finset.mem_insert.1 hb with h | h
            · exact ha.1 h
            · exact hdis ha.2 h) (not_le.1 h)
        refine ⟨(Finset.subset_insert _ _).trans h1, y, by simp [hy], h2, lt_of_lt_of_le h3 (hw.mono ?_)⟩
        exact Finset.sdiff_subset_sdiff (Finset.erase_subset _ _) (Finset.Subset.refl _)

omit [AddCommGroup R] [LinearOrder R] [IsOrderedAddMonoid W] in
/-- C95 (partial): if `get_slices` returns any slices at all, one of them is needed, for every tree, generator, set of skipped indices and
width model. Hence a single slice is never superfluous. Missing: the other slices, see `C95_violated`. -/
theorem C95_last_partial (g : FwPrng σ P) {wm : WidthModel W} (hw : wm.Lawful) (c : CTree) (skip : Option ISet) (htree : IsTree c.tree) (s : σ) :
    ∃ S s', getSlices g wm c skip (widthCache wm c) s = some (S, s') ∧
      (S.Nonempty → ∃ x ∈ S, ∃ p < c.tree.size, wm.maxWidth < wm.width (c.inds p \ S.erase x)) := by
  obtain ⟨t, hwf⟩ := htree
  unfold getSlices
  rw [traverse_eq (fuel := c.fuel) hwf (le_refl _), Option.map_some]
  refine ⟨_, _, rfl, ?_⟩
  have key : ∀ (l : List ℕ) (st : ISet × σ), (∀ q ∈ l, q < c.tree.size) →
      (st.1.Nonempty → ∃ x ∈ st.1, ∃ p < c.tree.size, wm.maxWidth < wm.width (c.inds p \ st.1.erase x)) →
      (l.foldl (sliceVisit g wm c skip (widthCache wm c)) st).1.Nonempty →
        ∃ x ∈ (l.foldl (sliceVisit g wm c skip (widthCache wm c)) st).1, ∃ p < c.tree.size,
          wm.maxWidth < wm.width (c.inds p \ (l.foldl (sliceVisit g wm c skip (widthCache wm c)) st).1.erase x) := by
    intro l
    induction l with
    | nil => intro st _ h; exact h
    | cons q l ih =>
      intro st hq h
      rw [List.foldl_cons]
      refine ih _ (fun q' hq' => hq q' (by simp [hq'])) ?_
      unfold sliceVisit
      split
      · simp only
        split
        · next hbig2 =>
          obtain ⟨big, hB⟩ : ∃ big, big = nBig wm c (widthCache wm c) := ⟨_, rfl⟩
          obtain ⟨L, hL⟩ : ∃ L, L = (g.shuffle st.2 ((c.inds q \ st.1).minus? skip).positions).1 := ⟨_, rfl⟩
          rw [← hB, ← hL]
          have hperm : (sliceSort wm big L).Perm ((c.inds q \ st.1).minus? skip).positions := by
            rw [hL]; exact (sliceSort_perm _ _ _).trans (g.shuffle_perm _ _)
          rcases eq_or_ne (sliceSort wm big L) [] with he | hne
          · rw [he]; exact h
          · obtain ⟨h1, y, hy, h2, h3⟩ := sliceLoop_last hw (sliceSort wm big L) st.1 (c.inds q \ st.1) hne
              (hperm.nodup_iff.2 (ISet.positions_nodup _))
              (fun x hx => by
                rw [hperm.mem_iff, ISet.mem_positions] at hx
                exact ISet.minus?_subset _ _ hx)
              Finset.sdiff_disjoint hbig2
            intro _
            refine ⟨y, h2, q, hq q (by simp), lt_of_lt_of_le h3 (hw.mono ?_)⟩
            exact Finset.sdiff_subset_sdiff Finset.sdiff_subset (Finset.Subset.refl _)
        · exact h
      · exact h
  exact key _ _ (fun q hq => (hwf.mem q).1 hq) (by simp)

omit [AddCommGroup R] [LinearOrder R] [LinearOrder P] in
/-- What the slices for one tensor amount to (helper). -/
theorem sliceLoop_amount {wm : WidthModel W} (hw : wm.Lawful) (he : wm.LogExact ∅) (h0 : ∀ x, 0 ≤ wm.log2d x) {M : W} (hM0 : 0 ≤ M) :
    ∀ (l : List ℕ) (S xs : ISet), (∀ x ∈ xs, wm.log2d x ≤ M) → l.Nodup → (∀ x ∈ l, x ∈ xs) → wm.maxWidth < wm.width xs →
      ∑ x ∈ sliceLoop wm l S xs (wm.width xs), wm.log2d x ≤ ∑ x ∈ S, wm.log2d x + (wm.width xs - wm.maxWidth + M) := by
  intro l
  induction l with
  | nil =>
    intro S xs _ _ _ hbig
    simp only [sliceLoop]
    exact le_add_of_nonneg_right (add_nonneg (sub_nonneg.2 hbig.le) hM0)
  | cons x l ih =>
    intro S xs hM hnd hsub hbig
    have hx : x ∈ xs := hsub x (by simp)
    have hins : ∑ y ∈ insert x S, wm.log2d y ≤ ∑ y ∈ S, wm.log2d y + wm.log2d x := by
      by_cases hxS : x ∈ S
      · rw [Finset.insert_eq_self.2 hxS]; exact le_add_of_nonneg_right (h0 x)
      · rw [Finset.sum_insert hxS, add_comm]
    simp only [sliceLoop, ← hw.delta hx]
    split
    · exact hins.trans (by gcongr; exact (hM x hx).trans (le_add_of_nonneg_left (sub_nonneg.2 hbig.le)))
    · next h =>
      rw [List.nodup_cons] at hnd
      refine (ih (insert x S) (xs.erase x) (fun y hy => hM y (Finset.mem_of_mem_erase hy)) hnd.2
        (fun y hy => Finset.mem_erase.2 ⟨by rintro rfl; exact hnd.1 hy, hsub y (by simp [hy])⟩) (not_le.1 h)).trans ?_
      refine (add_le_add_left hins _).trans (le_of_eq ?_)
      rw [he hx (by simp)]
      abel

omit [AddCommGroup R] [LinearOrder R] in
/-- C95 (partial): however many slices are superfluous, all of them together amount to no more than what the tensors of the tree exceed the
limit by, plus the largest dimension once for each tensor that does. Here the dense cost model, all trees, generators and skipped indices. -/
theorem C95_amount_partial (g : FwPrng σ P) (log2 : ℕ → W) (hlog : ∀ n, 0 ≤ log2 n) (mw : W) (wm : WidthModel W) (c : CTree)
    (hwm : simpleWidthModel log2 c.dims mw = some wm) (skip : Option ISet) (htree : IsTree c.tree) (s : σ) {M : W} (hM0 : 0 ≤ M)
    (hM : ∀ p < c.tree.size, ∀ x ∈ c.inds p, wm.log2d x ≤ M) :
    ∃ S s', getSlices g wm c skip (widthCache wm c) s = some (S, s') ∧
      ∑ x ∈ S, wm.log2d x ≤
        ∑ p ∈ (Finset.range c.tree.size).filter (fun p => wm.maxWidth < wm.width (c.inds p)), (wm.width (c.inds p) - wm.maxWidth + M) := by
  obtain ⟨t, hwf⟩ := htree
  have hl := simple_lawful hlog hwm
  have h0 : ∀ x, 0 ≤ wm.log2d x := by
    unfold simpleWidthModel at hwm
    split at hwm
    · cases hwm
    · cases hwm; exact fun x => hlog _
  unfold getSlices
  rw [traverse_eq (fuel := c.fuel) hwf (le_refl _), Option.map_some]
  refine ⟨_, _, rfl, ?_⟩
  have key : ∀ (l : List ℕ) (st : ISet × σ), l.Nodup → (∀ q ∈ l, q < c.tree.size) →
      ∑ x ∈ (l.foldl (sliceVisit g wm c skip (widthCache wm c)) st).1, wm.log2d x ≤ ∑ x ∈ st.1, wm.log2d x +
        ∑ p ∈ l.toFinset.filter (fun p => wm.maxWidth < wm.width (c.inds p)), (wm.width (c.inds p) - wm.maxWidth + M) := by
    intro l
    induction l with
    | nil => intro st _ _; simp
    | cons q l ih =>
      intro st hnd hq
      rw [List.nodup_cons] at hnd
      rw [List.foldl_cons]
      refine (ih _ hnd.2 fun q' hq' => hq q' (by simp [hq'])).trans ?_
      rw [List.toFinset_cons, Finset.filter_insert]
      unfold sliceVisit
      split
      · next hbig =>
        have hbig' : wm.maxWidth < wm.width (c.inds q) := hbig
        rw [if_pos hbig', Finset.sum_insert (by simp [hnd.1]), ← add_assoc]
        refine add_le_add_left ?_ _
        simp only
        split
        · next hbig2 =>
          obtain ⟨big, hB⟩ : ∃ big, big = nBig wm c (widthCache wm c) := ⟨_, rfl⟩
          obtain ⟨L, hL⟩ : ∃ L, L = (g.shuffle st.2 ((c.inds q \ st.1).minus? skip).positions).1 := ⟨_, rfl⟩
          rw [← hB, ← hL]
          have hperm : (sliceSort wm big L).Perm ((c.inds q \ st.1).minus? skip).positions := by
            rw [hL]; exact (sliceSort_perm _ _ _).trans (g.shuffle_perm _ _)
          refine (sliceLoop_amount hl.1 hl.2.1 h0 hM0 (sliceSort wm big L) st.1 (c.inds q \ st.1)
            (fun x hx => hM q (hq q (by simp)) x (Finset.sdiff_subset hx)) (hperm.nodup_iff.2 (ISet.positions_nodup _))
            (fun x hx => by
              rw [hperm.mem_iff, ISet.mem_positions] at hx
              exact ISet.minus?_subset _ _ hx) hbig2).trans ?_
          gcongr
          exact hl.1.mono Finset.sdiff_subset
        · exact le_add_of_nonneg_right (add_nonneg (sub_nonneg.2 hbig'.le) hM0)
      · next hbig =>
        have hbig' : ¬ wm.maxWidth < wm.width (c.inds q) := hbig
        rw [if_neg hbig']
  have e : t.postorder.toFinset = Finset.range c.tree.size := by
    ext q
    rw [List.mem_toFinset, Finset.mem_range]
    exact hwf.mem q
  have := key _ (∅, s) hwf.nodup (fun q hq => (hwf.mem q).1 hq)
  simpa [e] using this

omit [AddCommGroup R] [LinearOrder R] in
/-- C95 (partial): if all indices have the same dimension, `get_slices` returns at most `n` times as many slices as any set of indices with
which all tensors fit, where `n` is the number of tensors that are too wide. Here the dense cost model, all trees, generators and skipped
indices. -/
theorem C95_ratio_partial (g : FwPrng σ P) (log2 : ℕ → W) (hlog : ∀ n, 0 ≤ log2 n) (mw : W) (wm : WidthModel W) (c : CTree)
    (hwm : simpleWidthModel log2 c.dims mw = some wm) (heq : ∀ x y, wm.log2d x = wm.log2d y) (skip : Option ISet) (htree : IsTree c.tree) (s : σ) :
    ∃ S s', getSlices g wm c skip (widthCache wm c) s = some (S, s') ∧
      ∀ S' : ISet, (∀ q < c.tree.size, wm.width (c.inds q \ S') ≤ wm.maxWidth) →
        S.card ≤ ((Finset.range c.tree.size).filter (fun p => wm.maxWidth < wm.width (c.inds p))).card * S'.card := by
  obtain ⟨t, hwf⟩ := htree
  have hl := simple_lawful hlog hwm
  have h0 : ∀ x, 0 ≤ wm.log2d x := by
    unfold simpleWidthModel at hwm
    split at hwm
    · cases hwm
    · cases hwm; exact fun x => hlog _
  unfold getSlices
  rw [traverse_eq (fuel := c.fuel) hwf (le_refl _), Option.map_some]
  refine ⟨_, _, rfl, ?_⟩
  intro S' hfit
  have key : ∀ (l : List ℕ) (st : ISet × σ), l.Nodup → (∀ q ∈ l, q < c.tree.size) →
      (l.foldl (sliceVisit g wm c skip (widthCache wm c)) st).1.card ≤ st.1.card +
        (l.toFinset.filter (fun p => wm.maxWidth < wm.width (c.inds p))).card * S'.card := by
    intro l
    induction l with
    | nil => intro st _ _; simp
    | cons q l ih =>
      intro st hnd hq
      rw [List.nodup_cons] at hnd
      rw [List.foldl_cons]
      refine (ih _ hnd.2 fun q' hq' => hq q' (by simp [hq'])).trans ?_
      rw [List.toFinset_cons, Finset.filter_insert]
      unfold sliceVisit
      split
      · next hbig =>
        have hbig' : wm.maxWidth < wm.width (c.inds q) := hbig
        rw [if_pos hbig', Finset.card_insert_of_notMem (by simp [hnd.1]), add_mul, one_mul, add_comm (_ * _) S'.card, ← add_assoc]
        refine Nat.add_le_add_right ?_ _
        simp only
        split
        · next hbig2 =>
          obtain ⟨big, hB⟩ : ∃ big, big = nBig wm c (widthCache wm c) := ⟨_, rfl⟩
          obtain ⟨L, hL⟩ : ∃ L, L = (g.shuffle st.2 ((c.inds q \ st.1).minus? skip).positions).1 := ⟨_, rfl⟩
          rw [← hB, ← hL]
          have hperm : (sliceSort wm big L).Perm ((c.inds q \ st.1).minus? skip).positions := by
            rw [hL]; exact (sliceSort_perm _ _ _).trans (g.shuffle_perm _ _)
          have hin : ∀ x ∈ sliceSort wm big L, x ∈ c.inds q \ st.1 := by
            intro x hx
            rw [hperm.mem_iff, ISet.mem_positions] at hx
            exact ISet.minus?_subset _ _ hx
          obtain ⟨T, hT, e, hc⟩ := sliceLoop_needed hl.1 hl.2.1 (sliceSort wm big L) st.1 (c.inds q \ st.1)
            (hperm.nodup_iff.2 (ISet.positions_nodup _)) hin (List.pairwise_iff_forall_sublist.2 fun {x y} _ => (heq y x).le) hbig2
          rw [e]
          refine (Finset.card_union_le _ _).trans (Nat.add_le_add_left ?_ _)
          by_contra hlt
          rw [not_le] at hlt
          obtain ⟨x, hx⟩ : T.Nonempty := Finset.card_pos.1 (by omega)
          have w1 := width_logExact hl.2.1 (c.inds q \ st.1) (S' ∩ (c.inds q \ st.1)) Finset.inter_subset_right (by simp)
          have w2 := width_logExact hl.2.1 (c.inds q \ st.1) (T.erase x)
            (fun y hy => hin y (by simpa using hT (Finset.mem_of_mem_erase hy))) (by simp)
          have h1 := hc x hx
          have h2 : wm.width ((c.inds q \ st.1) \ (S' ∩ (c.inds q \ st.1))) ≤ wm.maxWidth := by
            refine (hl.1.mono ?_).trans (hfit q (hq q (by simp)))
            intro y hy
            simp only [Finset.mem_sdiff, Finset.mem_inter] at hy ⊢
            exact ⟨hy.1.1, fun h => hy.2 ⟨h, hy.1⟩⟩
          rw [w2, Finset.sum_congr rfl fun y _ => heq y x, Finset.sum_const, Finset.card_erase_of_mem hx] at h1
          rw [w1, Finset.sum_congr rfl fun y _ => heq y x, Finset.sum_const] at h2
          have hcard := Finset.card_le_card (Finset.inter_subset_left (s₁ := S') (s₂ := c.inds q \ st.1))
          have h3 : (S' ∩ (c.inds q \ st.1)).card • wm.log2d x ≤ (T.card - 1) • wm.log2d x := nsmul_le_nsmul_left (h0 x) (by omega)
          exact absurd (h1.trans_le (sub_le_sub_left h3 _)) (not_lt.2 h2)
        · exact Nat.le_add_right _ _
      · next hbig =>
        have hbig' : ¬ wm.maxWidth < wm.width (c.inds q) := hbig
        rw [if_neg hbig']
  have e : t.postorder.toFinset = Finset.range c.tree.size := by
    ext q
    rw [List.mem_toFinset, Finset.mem_range]
    exact hwf.mem q
  have := key _ (∅, s) hwf.nodup (fun q hq => (hwf.mem q).1 hq)
  simpa [e] using this

omit [IsOrderedAddMonoid W] in
/-- A new optimizer has the slices of `get_slices` (helper). -/
theorem pyMake_slices {g : FwPrng σ P} {m : CostModel R} {wm : WidthModel W} {c : CTree} {maxNew : ℕ} {seed : σ} {dis : Bool} {skip : ISet}
    {minC : Option CTree} {o : FwOpt σ R W} (hmk : FwOpt.pyMake g m wm c maxNew seed dis skip minC none none = some (.ok o)) :
    (∃ s', getSlices g wm c (if skip = ∅ then none else some skip) (widthCache wm c) seed = some (o.slices, s')) ∧ o.minSlices = o.slices := by
  unfold FwOpt.pyMake FwOpt.pyMakeWith at hmk
  split at hmk
  · cases hmk
  unfold FwOpt.makeWith at hmk
  simp only [bind, pure, initSlices] at hmk
  split at hmk
  · cases hmk
  cases hS : getSlices g wm c (if skip = ∅ then none else some skip) (widthCache wm c) seed with
  | none => rw [hS] at hmk; cases hmk
  | some r =>
    obtain ⟨S, s'⟩ := r
    rw [hS] at hmk
    simp only [Option.bind_some, Option.getD_none] at hmk
    cases hk : CostCache.make c.fuel (m.sliced S) c with
    | none => rw [hk] at hmk; cases hmk
    | some k =>
      rw [hk] at hmk
      simp only [Option.bind_some] at hmk
      cases hg : getCost (minC.getD c).fuel (m.sliced S) (minC.getD c) with
      | none => rw [hg] at hmk; cases hmk
      | some mt =>
        rw [hg] at hmk
        simp only [Option.bind_some] at hmk
        split at hmk
        · cases hmk
        split at hmk
        · cases hmk
        cases hmk
        exact ⟨⟨s', rfl⟩, rfl⟩

/-- C95 (partial) for new optimizers with the dense cost model: `min_slices` is `slices`; if there are slices, one of them is needed; and if
one tensor only is too wide, every slice is needed and no set of indices outside `skip_slices` with which all tensors fit is smaller. -/
theorem C95_make_partial (g : FwPrng σ P) (m : CostModel R) (log2 : ℕ → W) (hlog : ∀ n, 0 ≤ log2 n) (mw : W) (wm : WidthModel W) (c : CTree)
    (hwm : simpleWidthModel log2 c.dims mw = some wm) (htree : IsTree c.tree) {maxNew : ℕ} {seed : σ} {dis : Bool} {skip : ISet}
    {minC : Option CTree} {o : FwOpt σ R W} (hmk : FwOpt.pyMake g m wm c maxNew seed dis skip minC none none = some (.ok o)) :
    o.minSlices = o.slices ∧
    (o.slices.Nonempty → ∃ x ∈ o.slices, ∃ p < c.tree.size, wm.maxWidth < wm.width (c.inds p \ o.slices.erase x)) ∧
    ∀ p < c.tree.size, (∀ q < c.tree.size, q ≠ p → wm.width (c.inds q) ≤ wm.maxWidth) →
      (∀ x ∈ o.slices, x ∈ c.inds p ∧ wm.maxWidth < wm.width (c.inds p \ o.slices.erase x)) ∧
      ∀ S' : ISet, Disjoint S' skip → (∀ q < c.tree.size, wm.width (c.inds q \ S') ≤ wm.maxWidth) → o.slices.card ≤ S'.card := by
  obtain ⟨⟨s', hs⟩, hmin⟩ := pyMake_slices hmk
  refine ⟨hmin, ?_, ?_⟩
  · obtain ⟨S, s1, h1, h2⟩ := C95_last_partial g (simple_lawful hlog hwm).1 c (if skip = ∅ then none else some skip) htree seed
    rw [hs] at h1
    cases h1
    exact h2
  · intro p hp hone
    obtain ⟨S, s1, h1, h2⟩ := C95_single_partial g log2 hlog mw wm c hwm (if skip = ∅ then none else some skip) htree seed p hp hone
    obtain ⟨S2, s2, h3, h4⟩ := C95_fewest_partial g log2 hlog mw wm c hwm (if skip = ∅ then none else some skip) htree seed p hp hone
    rw [hs] at h1 h3
    cases h1
    cases h3
    refine ⟨h2, fun S' hd hf => h4 S' (fun k hk => ?_) hf⟩
    split at hk
    · cases hk
    · cases hk; exact hd

/-- C95 (partial): after an update with `update_slices` the slices are those of the pass, or, if there are any, one of them is needed, for
the dense and the sparse width model. -/
theorem C95_update_partial (g : FwPrng σ P) (m : CostModel R) (log2 : ℕ → W) (hlog : ∀ n, 0 ≤ log2 n)
    (wm : WidthModel W) (c : CTree) (maxNew : ℕ) (seed : σ) (dis : Bool) (skip : ISet) (minC : Option CTree)
    (slices minSlices : Option ISet) (o0 o o1 o2 : FwOpt σ R W) (ps : List ((R → R → P) × Bool)) (prob : R → R → P)
    (hwm : OfferedWidth log2 c.dims wm) (htree : IsTree c.tree)
    (hgiven : ∀ sl, slices = some sl → Disjoint sl skip)
    (hmk : FwOpt.pyMake g m wm c maxNew seed dis skip minC slices minSlices = some (.ok o0))
    (hrun : o0.run g m wm ps = .ok o) (hup1 : o.update g m wm prob false = .ok o1)
    (hup2 : o.update g m wm prob true = .ok o2) :
    o2.slices = o1.slices ∨ (o2.slices.Nonempty → ∃ x ∈ o2.slices, ∃ p < o2.inf.ctree.tree.size,
      wm.maxWidth < wm.width (o2.inf.ctree.inds p \ o2.slices.erase x)) := by
  obtain ⟨t0, hwf⟩ := htree
  have hw := (offered_lawful hlog hwm).1
  obtain ⟨hI, rfl, -, -, -, -, -, -, -, -, -, hmn, -, -⟩ := pyMake_inv hw hwf hgiven hmk (out? := none) (by simp)
  have hrun1 : o0.run g m wm (ps ++ [(prob, false)]) = .ok o1 := by
    rw [fw_run_append, hrun]; simp [FwOpt.run, hup1]
  rcases frun_history g m hw (by simp) _ hI with ⟨h, -⟩ | ⟨o3, t3, h3, hI3, -⟩
  · rw [hrun1] at h; cases h
  rw [hrun1] at h3; cases h3
  unfold FwOpt.update at hup1 hup2
  simp only at hup1 hup2
  split at hup1
  · next hn =>
    rw [hn] at hup2
    cases hup1; cases hup2
    exact Or.inl rfl
  · next B hB =>
    rw [hB] at hup2
    simp only at hup2
    split at hup1
    · cases hup1
    · next w' hw' =>
      rw [hw'] at hup2
      simp only [FwOpt.updateSlices, Bool.false_and, Bool.false_eq_true, if_false, Bool.true_and,
        decide_eq_true_eq] at hup1 hup2
      cases hup1
      have hm : ∀ o : FwOpt σ R W, o.updateMin.inf.ctree = o.inf.ctree ∧ o.updateMin.width = o.width ∧
          o.updateMin.slices = o.slices := by
        intro o
        unfold FwOpt.updateMin
        split <;> exact ⟨rfl, rfl, rfl⟩
      obtain ⟨a1, a2, a3⟩ := hm w'.o
      rw [a3]
      by_cases hs : w'.o.slices = ∅
      · rw [if_neg (by simpa using hs)] at hup2
        cases hup2
        exact Or.inl a3
      · rw [if_pos hs] at hup2
        have hwf3 : WellFormed w'.o.inf.ctree.tree t3 := by have := hI3.inv.wf; rwa [a1] at this
        have hwd : ∀ p, w'.o.width p = wm.width (w'.o.inf.ctree.inds p) := by
          intro p; have := hI3.width p; rwa [a1, a2] at this
        have hwd' : w'.o.width = widthCache wm w'.o.inf.ctree := funext hwd
        obtain ⟨S, s', hS, q1⟩ := C95_last_partial g hw w'.o.inf.ctree w'.o.skip ⟨t3, hwf3⟩ w'.o.inf.prng
        rw [hwd', hS] at hup2
        simp only at hup2
        split at hup2
        · cases hup2
        · next o3 ho3 =>
          cases hup2
          obtain ⟨b1, b2, b3⟩ := hm o3
          rw [b1, b3]
          split at ho3
          · cases ho3
          · split at ho3
            · cases ho3
              exact Or.inr q1
            · cases ho3
              exact Or.inl rfl

/-- Tensors `{0,1,3} {2,3} {2}` of dimension 2, output `{0,1}`. -/
def needCT : CTree where
  tree := fwTree
  nInds := 4
  inds := fun p => [{0, 1, 3}, {2, 3}, {2}, {3}, {0, 1}].getD p ∅
  dims := .int 2

def needWm (w : ℤ) : WidthModel ℤ :=
  ⟨simpleWidth ilog2 (.int 2), simpleDelta ilog2 (.int 2), fun i => ilog2 ((Dims.int 2).get i), true, w⟩

/-- The hypotheses of `C95_single_partial` and `C95_fewest_partial`: with the limit 2 only tensor 0 is too wide, and one slice is taken. -/
example : (∀ n, 0 ≤ ilog2 n) ∧ simpleWidthModel ilog2 needCT.dims 2 = some (needWm 2) ∧ WellFormed needCT.tree exCTree ∧
    (∀ q < needCT.tree.size, q ≠ 0 → (needWm 2).width (needCT.inds q) ≤ (needWm 2).maxWidth) ∧
    (getSlices (constPrng 0) (needWm 2) needCT none (widthCache (needWm 2) needCT) ()).map Prod.fst = some {0} := by
  refine ⟨ilog2_nonneg, rfl, fwTree_wf, by decide +kernel, by decide +kernel⟩

/-- They are met with different dimensions as well: of the indices 0, 1, 3 with dimensions 2, 4, 2 the largest is sliced. -/
example : ∃ wm : WidthModel ℤ, simpleWidthModel ilog2 (.vec [2, 4, 2, 2]) 3 = some wm ∧
    (∀ q < needCT.tree.size, q ≠ 0 → wm.width (needCT.inds q) ≤ wm.maxWidth) ∧
    (getSlices (constPrng 0) wm { needCT with dims := .vec [2, 4, 2, 2] } none (widthCache wm needCT) ()).map Prod.fst = some {1} :=
  ⟨_, rfl, by decide +kernel, by decide +kernel⟩

/-- The hypotheses of `C95_make_partial`: an optimizer with the limit 2 can be made, and has one slice. -/
example : ∃ o : FwOpt Unit ℤ ℤ,
    FwOpt.pyMake (constPrng 0) (simpleModel needCT.dims) (needWm 2) needCT 0 () false ∅ none none none = some (.ok o) ∧ o.slices = {0} := by
  obtain ⟨a, b, h1, -, h3⟩ := fw_eval
    (x := FwOpt.pyMake (constPrng 0) (simpleModel needCT.dims) (needWm 2) needCT 0 () false ∅ none none none)
    (f := fun o => (.ok o : Except Unit _)) (Q := fun a _ => decide (a.slices = {0})) (by decide +kernel)
  exact ⟨a, h1, of_decide_eq_true h3⟩

/-- The hypotheses of `C95_amount_partial` with the limit 1: the slices amount to 3, the bound is 7. -/
example : (∀ n, 0 ≤ ilog2 n) ∧ simpleWidthModel ilog2 needCT.dims 1 = some (needWm 1) ∧ WellFormed needCT.tree exCTree ∧
    (∀ p < needCT.tree.size, ∀ x ∈ needCT.inds p, (needWm 1).log2d x ≤ 1) ∧ ∑ x ∈ ({0, 1, 3} : ISet), (needWm 1).log2d x = 3 ∧
    ∑ p ∈ (Finset.range needCT.tree.size).filter (fun p => (needWm 1).maxWidth < (needWm 1).width (needCT.inds p)),
      ((needWm 1).width (needCT.inds p) - (needWm 1).maxWidth + 1) = 7 := by
  refine ⟨ilog2_nonneg, rfl, fwTree_wf, by decide +kernel, by decide +kernel, by decide +kernel⟩

/-- The hypotheses of `C95_ratio_partial` with the limit 1: two slices suffice, three are taken. -/
example : simpleWidthModel ilog2 needCT.dims 1 = some (needWm 1) ∧ (∀ x y, (needWm 1).log2d x = (needWm 1).log2d y) ∧
    WellFormed needCT.tree exCTree ∧ (∀ q < needCT.tree.size, (needWm 1).width (needCT.inds q \ {1, 3}) ≤ (needWm 1).maxWidth) ∧
    ((Finset.range needCT.tree.size).filter (fun p => (needWm 1).maxWidth < (needWm 1).width (needCT.inds p))).card = 3 := by
  refine ⟨rfl, fun _ _ => rfl, fwTree_wf, by decide +kernel, by decide +kernel⟩

/-- The hypotheses of `C95_last_partial`: with the limit 1 several tensors are too wide, and three slices are taken. -/
example : (needWm 1).Lawful ∧ WellFormed needCT.tree exCTree ∧
    (getSlices (constPrng 0) (needWm 1) needCT none (widthCache (needWm 1) needCT) ()).map Prod.fst = some {0, 1, 3} :=
  ⟨(simple_lawful (dims := needCT.dims) (mw := 1) ilog2_nonneg rfl).1, fwTree_wf, by decide +kernel⟩

/-- **C95 is violated** if several tensors are too wide: with the limit 1, slices 0 and 1 are taken for the first tensor and 3 for the
second; then 0 is superfluous. The optimizer starts with a cost of 24, with the slices 1 and 3 it is 16. -/
theorem C95_violated : ∃ o o' : FwOpt Unit ℤ ℤ,
    FwOpt.pyMake (constPrng 0) (simpleModel needCT.dims) (needWm 1) needCT 0 () false ∅ none none none = some (.ok o) ∧
    FwOpt.pyMake (constPrng 0) (simpleModel needCT.dims) (needWm 1) needCT 0 () false ∅ none (some {1, 3}) (some {1, 3}) = some (.ok o') ∧
    o.slices = {0, 1, 3} ∧ (∀ p < needCT.tree.size, (needWm 1).width (needCT.inds p \ {1, 3}) ≤ (needWm 1).maxWidth) ∧
    o.inf.totalCost = 24 ∧ o'.inf.totalCost = 16 := by
  obtain ⟨a, b, h1, h2, h3⟩ := fw_eval
    (x := FwOpt.pyMake (constPrng 0) (simpleModel needCT.dims) (needWm 1) needCT 0 () false ∅ none none none)
    (f := fun _ => match FwOpt.pyMake (constPrng 0) (simpleModel needCT.dims) (needWm 1) needCT 0 () false ∅ none (some {1, 3}) (some {1, 3}) with
      | some (.ok o) => .ok o
      | _ => (.error () : Except Unit _))
    (Q := fun a b => decide (a.slices = {0, 1, 3}) && decide (a.inf.totalCost = 24) && decide (b.inf.totalCost = 16)) (by decide +kernel)
  simp only [Bool.and_eq_true, decide_eq_true_eq] at h3
  refine ⟨a, b, h1, ?_, h3.1.1, by decide +kernel, h3.1.2, h3.2⟩
  split at h2
  · next o ho => cases h2; exact ho
  · cases h2

/-- Tensors `{0,1} {1,2} {0,1}` of dimension 2, output `{2}`. -/
def keptCT : CTree where
  tree := fwTree
  nInds := 3
  inds := fun p => [{0, 1}, {1, 2}, {0, 1}, {0, 1, 2}, {2}].getD p ∅
  dims := .int 2

/-- **C95 is violated** in the course of the search: the optimizer starts with one slice, since a tensor is wider than 2. After two updates
without `update_slices` the best tree found fits without slices, but the slice is still reported with it, at a cost of more than without. -/
theorem C95_violated_kept : ∃ o o' o'' : FwOpt Unit ℤ ℤ,
    FwOpt.pyMake (constPrng 4) (simpleModel keptCT.dims) (needWm 2) keptCT 1 () false ∅ none none none = some (.ok o) ∧
    o.run (constPrng 4) (simpleModel keptCT.dims) (needWm 2) [(probBase, false), (probBase, false)] = .ok o' ∧
    o'.minSlices = {0} ∧ (∀ p < o'.inf.minCtree.tree.size, (needWm 2).width (o'.inf.minCtree.inds p) ≤ (needWm 2).maxWidth) ∧
    FwOpt.pyMake (constPrng 4) (simpleModel keptCT.dims) (needWm 2) o'.inf.minCtree 1 () false ∅ none none none = some (.ok o'') ∧
    o''.slices = ∅ ∧ o''.inf.totalCost < o'.inf.minTotal := by
  obtain ⟨a, b, h1, h2, h3⟩ := fw_eval
    (x := FwOpt.pyMake (constPrng 4) (simpleModel keptCT.dims) (needWm 2) keptCT 1 () false ∅ none none none)
    (f := fun o => match o.run (constPrng 4) (simpleModel keptCT.dims) (needWm 2) [(probBase, false), (probBase, false)] with
      | .ok o' => (match FwOpt.pyMake (constPrng 4) (simpleModel keptCT.dims) (needWm 2) o'.inf.minCtree 1 () false ∅ none none none with
        | some (.ok o'') => .ok (o', o'')
        | _ => .error ())
      | .error _ => (.error () : Except Unit _))
    (Q := fun _ b => decide (b.1.minSlices = {0}) &&
      decide (∀ p < b.1.inf.minCtree.tree.size, (needWm 2).width (b.1.inf.minCtree.inds p) ≤ (needWm 2).maxWidth) && decide (b.2.slices = ∅) &&
      decide (b.2.inf.totalCost < b.1.inf.minTotal)) (by decide +kernel)
  simp only [Bool.and_eq_true, decide_eq_true_eq] at h3
  split at h2
  · next o1 ho1 =>
    split at h2
    · next o2 ho2 => cases h2; exact ⟨a, _, _, h1, ho1, h3.1.1.1, h3.1.1.2, ho2, h3.1.2, h3.2⟩
    · cases h2
  · cases h2

/-- The hypotheses of `C95_update_partial`: here the flag makes a difference, as the slice is given up. -/
example : OfferedWidth ilog2 keptCT.dims (needWm 2) ∧ WellFormed keptCT.tree exCTree ∧ ∃ o0 o o1 o2 : FwOpt Unit ℤ ℤ,
    FwOpt.pyMake (constPrng 4) (simpleModel keptCT.dims) (needWm 2) keptCT 1 () false ∅ none none none = some (.ok o0) ∧
    o0.run (constPrng 4) (simpleModel keptCT.dims) (needWm 2) [(probBase, false)] = .ok o ∧
    o.update (constPrng 4) (simpleModel keptCT.dims) (needWm 2) probBase false = .ok o1 ∧
    o.update (constPrng 4) (simpleModel keptCT.dims) (needWm 2) probBase true = .ok o2 ∧ o1.slices = {0} ∧ o2.slices ≠ {0} := by
  refine ⟨Or.inl ⟨2, rfl⟩, fwTree_wf, ?_⟩
  obtain ⟨a, b, h1, h2, h3⟩ := fw_eval
    (x := FwOpt.pyMake (constPrng 4) (simpleModel keptCT.dims) (needWm 2) keptCT 1 () false ∅ none none none)
    (f := fun o => match o.run (constPrng 4) (simpleModel keptCT.dims) (needWm 2) [(probBase, false)] with
      | .ok o' => (match o'.update (constPrng 4) (simpleModel keptCT.dims) (needWm 2) probBase false with
        | .ok o1 => (match o'.update (constPrng 4) (simpleModel keptCT.dims) (needWm 2) probBase true with
          | .ok o2 => .ok (o', o1, o2)
          | .error _ => .error ())
        | .error _ => .error ())
      | .error _ => (.error () : Except Unit _))
    (Q := fun _ b => decide (b.2.1.slices = {0}) && decide (b.2.2.slices ≠ {0})) (by decide +kernel)
  simp only [Bool.and_eq_true, decide_eq_true_eq] at h3
  split at h2
  · next o' ho' =>
    split at h2
    · next o1 ho1 =>
      split at h2
      · next o2 ho2 => cases h2; exact ⟨a, _, _, _, h1, ho', ho1, ho2, h3.1, h3.2⟩
      · cases h2
    · cases h2
  · cases h2

/-- Tensors `{0,1,2} {1} {1}` of dimension 2, output `{0,2}`. -/
def needSparseCT : CTree where
  tree := fwTree
  nInds := 3
  inds := fun p => [{0, 1, 2}, {1}, {1}, {1}, {0, 2}].getD p ∅
  dims := .int 2

def needSparseWm : WidthModel ℤ :=
  ⟨sparseWidth ilog2 (.int 2) {0, 2} 2, sparseDelta ilog2 (.int 2) {0, 2} 2, fun i => ilog2 ((Dims.int 2).get i), true, 1⟩

def needSparseCm : CostModel ℤ := ⟨fun s => (sparseGet {0, 2} 2 (.int 2) s : ℤ)⟩

/-- **C95 is violated** with sparse indices even if one tensor only is too wide, so `C95_single_partial` does not hold for the sparse cost
model: slicing 0 does not change the width, as the other sparse index 2 is left; then 1 is sliced, which alone suffices. -/
theorem C95_violated_sparse : sparseWidthModel ilog2 needSparseCT.dims 1 {0, 2} 2 = some needSparseWm ∧
    sparseModel {0, 2} 2 needSparseCT.dims = some needSparseCm ∧ WellFormed needSparseCT.tree exCTree ∧
    (∀ q < needSparseCT.tree.size, q ≠ 0 → needSparseWm.width (needSparseCT.inds q) ≤ needSparseWm.maxWidth) ∧
    (∀ q < needSparseCT.tree.size, needSparseWm.width (needSparseCT.inds q \ {1}) ≤ needSparseWm.maxWidth) ∧
    ∃ o : FwOpt Unit ℤ ℤ,
      FwOpt.pyMake (constPrng 0) needSparseCm needSparseWm needSparseCT 0 () false ∅ none none none = some (.ok o) ∧
      o.slices = {0, 1} := by
  refine ⟨rfl, rfl, fwTree_wf, by decide +kernel, by decide +kernel, ?_⟩
  obtain ⟨a, b, h1, -, h3⟩ := fw_eval
    (x := FwOpt.pyMake (constPrng 0) needSparseCm needSparseWm needSparseCT 0 () false ∅ none none none)
    (f := fun o => (.ok o : Except Unit _)) (Q := fun a _ => decide (a.slices = {0, 1})) (by decide +kernel)
  exact ⟨a, h1, of_decide_eq_true h3⟩

end TNCO
