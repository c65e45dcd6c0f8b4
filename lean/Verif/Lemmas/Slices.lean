import Verif.Model.FiniteWidth
import Verif.Lemmas.InfMem
import Mathlib.Algebra.Order.BigOperators.Group.Finset

/-! Lemmas about choosing slices. -/

namespace TNCO
open PTree

theorem ISet.mem_positions {xs : ISet} {x : ℕ} : x ∈ xs.positions ↔ x ∈ xs := by
  unfold ISet.positions
  simp only [List.mem_filter, List.mem_range, decide_eq_true_eq, and_iff_right_iff_imp]
  intro h
  exact Nat.lt_succ_of_le (Finset.le_sup (f := id) h)

theorem ISet.positions_nodup (xs : ISet) : xs.positions.Nodup :=
  List.nodup_range.filter _

theorem ISet.minus?_subset (xs : ISet) (k : Option ISet) : xs.minus? k ⊆ xs := by
  cases k with
  | none => exact Finset.Subset.refl _
  | some k => exact Finset.sdiff_subset

variable {σ P R W : Type} [AddCommGroup R] [LinearOrder R] [LinearOrder P] [AddCommGroup W] [LinearOrder W]

/-- What the algorithm needs from a width model: smaller tensors are not wider, and
`delta_width` is the change of width. -/
structure WidthModel.Lawful (wm : WidthModel W) : Prop where
  mono : ∀ {xs ys : ISet}, xs ⊆ ys → wm.width xs ≤ wm.width ys
  delta : ∀ {xs : ISet} {x : ℕ}, x ∈ xs → wm.width (xs.erase x) = wm.width xs + wm.delta xs x

/-- Removing an index that is not in `k` reduces the width by its cached `log2_dims`. -/
def WidthModel.LogExact (wm : WidthModel W) (k : ISet) : Prop :=
  ∀ {xs : ISet} {x : ℕ}, x ∈ xs → x ∉ k → wm.width (xs.erase x) = wm.width xs - wm.log2d x

theorem sliceSort_perm (wm : WidthModel W) (big : ℕ → ℕ) (l : List ℕ) : (sliceSort wm big l).Perm l :=
  List.perm_insertionSort _ _

theorem sliceLoop_spec {wm : WidthModel W} (hw : wm.Lawful) :
    ∀ (l : List ℕ) (S xs : ISet), l.Nodup → (∀ x ∈ l, x ∈ xs) →
      ∃ T ⊆ l.toFinset, sliceLoop wm l S xs (wm.width xs) = S ∪ T ∧
        (wm.width (xs \ T) ≤ wm.maxWidth ∨ T = l.toFinset) := by
  intro l
  induction l with
  | nil => intro S xs _ _; exact ⟨∅, by simp, by simp [sliceLoop], Or.inr rfl⟩
  | cons x l ih =>
    intro S xs hnd hsub
    have hx : x ∈ xs := hsub x (by simp)
    simp only [sliceLoop, ← hw.delta hx]
    split
    · next h =>
      refine ⟨{x}, by simp, ?_, Or.inl ?_⟩
      · ext y; simp [or_comm]
      · rwa [Finset.sdiff_singleton_eq_erase]
    · next h =>
      rw [List.nodup_cons] at hnd
      obtain ⟨T, hT, he, hc⟩ := ih (insert x S) (xs.erase x) hnd.2 (by
        intro y hy
        exact Finset.mem_erase.2 ⟨by rintro rfl; exact hnd.1 hy, hsub y (by simp [hy])⟩)
      refine ⟨insert x T, ?_, ?_, ?_⟩
      · rw [List.toFinset_cons]; exact Finset.insert_subset_insert _ hT
      · rw [he]; ext y; simp only [Finset.mem_union, Finset.mem_insert]; tauto
      · rcases hc with hc | hc
        · left
          have : xs \ insert x T = xs.erase x \ T := by ext y; simp; tauto
          rwa [this]
        · right; rw [hc, List.toFinset_cons]

/-- One step of the traversal in `get_slices`. -/
theorem sliceVisit_spec (g : FwPrng σ P) {wm : WidthModel W} (hw : wm.Lawful) {c : CTree} {skip : Option ISet}
    {width : ℕ → W} {p : ℕ} (hwidth : width p = wm.width (c.inds p)) (st : ISet × σ)
    (hskip : ∀ k, skip = some k → Disjoint st.1 k) :
    st.1 ⊆ (sliceVisit g wm c skip width st p).1 ∧
    (sliceVisit g wm c skip width st p).1 ⊆ st.1 ∪ c.inds p ∧
    (wm.width (c.inds p) ≤ wm.maxWidth → (sliceVisit g wm c skip width st p).1 = st.1) ∧
    (∀ k, skip = some k → Disjoint (sliceVisit g wm c skip width st p).1 k) ∧
    (wm.width (c.inds p ∩ skip.getD ∅) ≤ wm.maxWidth →
      wm.width (c.inds p \ (sliceVisit g wm c skip width st p).1) ≤ wm.maxWidth) := by
  unfold sliceVisit
  rw [hwidth]
  split
  · next hbig =>
    simp only
    split
    · next hbig2 =>
      set xs := c.inds p \ st.1 with hxs
      set l := (g.shuffle st.2 (xs.minus? skip).positions).1 with hl
      have hperm : (sliceSort wm (nBig wm c width) l).Perm (xs.minus? skip).positions :=
        (sliceSort_perm _ _ _).trans (g.shuffle_perm _ _)
      have hmem : ∀ x, x ∈ sliceSort wm (nBig wm c width) l ↔ x ∈ xs.minus? skip := fun x => by
        rw [hperm.mem_iff, ISet.mem_positions]
      obtain ⟨T, hT, he, hc⟩ := sliceLoop_spec hw (sliceSort wm (nBig wm c width) l) st.1 xs
        (hperm.nodup_iff.2 (ISet.positions_nodup _))
        (fun x hx => ISet.minus?_subset _ _ ((hmem x).1 hx))
      have hT' : T ⊆ xs.minus? skip := fun x hx => (hmem x).1 (by simpa using hT hx)
      simp only [he]
      refine ⟨Finset.subset_union_left, ?_, ?_, ?_, ?_⟩
      · apply Finset.union_subset_union_right
        exact hT'.trans ((ISet.minus?_subset _ _).trans Finset.sdiff_subset)
      · intro h; exact absurd h (not_le.2 hbig)
      · intro k hk
        rw [Finset.disjoint_union_left]
        refine ⟨hskip k hk, ?_⟩
        subst hk
        exact Finset.disjoint_of_subset_left hT' Finset.sdiff_disjoint
      · intro hs
        have e : c.inds p \ (st.1 ∪ T) = xs \ T := by rw [hxs]; ext y; simp; tauto
        rw [e]
        rcases hc with hc | hc
        · exact hc
        · refine (hw.mono ?_).trans hs
          intro y hy
          rw [Finset.mem_sdiff, hc, List.mem_toFinset, hmem] at hy
          obtain ⟨h1, h2⟩ := hy
          have h1' : y ∈ c.inds p := (Finset.mem_sdiff.1 (hxs ▸ h1)).1
          cases skip with
          | none => exact absurd h1 h2
          | some k =>
            simp only [ISet.minus?, Finset.mem_sdiff, not_and, not_not] at h2
            simp only [Option.getD_some, Finset.mem_inter]
            exact ⟨h1', h2 h1⟩
    · next h2 =>
      refine ⟨Finset.Subset.refl _, Finset.subset_union_left, fun _ => rfl, hskip, fun _ => ?_⟩
      exact not_lt.1 h2
  · next h2 =>
    refine ⟨Finset.Subset.refl _, Finset.subset_union_left, fun _ => rfl, hskip, fun _ => ?_⟩
    exact (hw.mono Finset.sdiff_subset).trans (not_lt.1 h2)

theorem sliceFold_spec (g : FwPrng σ P) {wm : WidthModel W} (hw : wm.Lawful) {c : CTree} {skip : Option ISet}
    {width : ℕ → W} (l : List ℕ) (hwidth : ∀ p ∈ l, width p = wm.width (c.inds p)) :
    ∀ (st : ISet × σ), (∀ k, skip = some k → Disjoint st.1 k) →
    st.1 ⊆ (l.foldl (sliceVisit g wm c skip width) st).1 ∧
    (∀ x ∈ (l.foldl (sliceVisit g wm c skip width) st).1, x ∈ st.1 ∨ ∃ p ∈ l, x ∈ c.inds p ∧
      wm.maxWidth < wm.width (c.inds p)) ∧
    (∀ k, skip = some k → Disjoint (l.foldl (sliceVisit g wm c skip width) st).1 k) ∧
    (∀ p ∈ l, wm.width (c.inds p ∩ skip.getD ∅) ≤ wm.maxWidth →
      wm.width (c.inds p \ (l.foldl (sliceVisit g wm c skip width) st).1) ≤ wm.maxWidth) := by
  induction l with
  | nil => intro st h; exact ⟨Finset.Subset.refl _, fun x hx => Or.inl hx, h, by simp⟩
  | cons p l ih =>
    intro st hst
    obtain ⟨a1, a2, a3, a4, a5⟩ := sliceVisit_spec g hw (hwidth p (by simp)) st hst
    obtain ⟨b1, b2, b4, b5⟩ := ih (fun q hq => hwidth q (by simp [hq])) _ a4
    rw [List.foldl_cons]
    refine ⟨a1.trans b1, ?_, b4, ?_⟩
    · intro x hx
      rcases b2 x hx with h | ⟨q, hq, h⟩
      · by_cases hbig : wm.maxWidth < wm.width (c.inds p)
        · rcases Finset.mem_union.1 (a2 h) with h | h
          · exact Or.inl h
          · exact Or.inr ⟨p, by simp, h, hbig⟩
        · rw [a3 (not_lt.1 hbig)] at h; exact Or.inl h
      · exact Or.inr ⟨q, by simp [hq], h⟩
    · intro q hq hs
      rcases List.mem_cons.1 hq with rfl | hq
      · exact (hw.mono (Finset.sdiff_subset_sdiff (Finset.Subset.refl _) b1)).trans (a5 hs)
      · exact b5 q hq hs

/-- `get_slices`. -/
theorem getSlices_spec (g : FwPrng σ P) {wm : WidthModel W} (hw : wm.Lawful) {c : CTree} {skip : Option ISet}
    {width : ℕ → W} {t : PTree} (hwf : WellFormed c.tree t)
    (hwidth : ∀ p < c.tree.size, width p = wm.width (c.inds p)) (s : σ) :
    ∃ S s', getSlices g wm c skip width s = some (S, s') ∧
      (∀ x ∈ S, ∃ p < c.tree.size, x ∈ c.inds p ∧ wm.maxWidth < wm.width (c.inds p)) ∧
      (∀ k, skip = some k → Disjoint S k) ∧
      (∀ p < c.tree.size, wm.width (c.inds p ∩ skip.getD ∅) ≤ wm.maxWidth →
        wm.width (c.inds p \ S) ≤ wm.maxWidth) := by
  unfold getSlices
  rw [traverse_eq (fuel := c.fuel) hwf (le_refl _), Option.map_some]
  obtain ⟨-, b2, b3, b4⟩ := sliceFold_spec g hw (c := c) (skip := skip) (width := width) t.postorder
    (fun p hp => hwidth p ((hwf.mem p).1 hp)) (∅, s) (by simp)
  refine ⟨_, _, rfl, ?_, b3, fun p hp => b4 p ((hwf.mem p).2 hp)⟩
  intro x hx
  rcases b2 x hx with h | ⟨p, hp, h⟩
  · simp at h
  · exact ⟨p, (hwf.mem p).1 hp, h⟩

theorem swap_take_perm {l : List ℕ} {i : ℕ} (hi : i < l.length) :
    (l.getD i 0 :: (l.set i (l.getD (l.length - 1) 0)).take (l.length - 1)).Perm l := by
  obtain ⟨a, x, b, rfl, rfl⟩ : ∃ a x b, l = a ++ x :: b ∧ i = a.length := by
    refine ⟨l.take i, l[i], l.drop (i + 1), ?_, by simp; omega⟩
    rw [List.cons_getElem_drop_succ, List.take_append_drop]
  rcases List.eq_nil_or_concat b with rfl | ⟨b', z, rfl⟩
  · simp [List.set_append, List.perm_append_comm_assoc, List.take_append]
    exact (List.perm_append_singleton x a).symm
  · have e1 : (a ++ x :: b'.concat z).getD a.length 0 = x := by simp [List.getD_eq_getElem?_getD]
    have e2 : (a ++ x :: b'.concat z).length - 1 = (a ++ x :: b').length := by simp
    have e3 : (a ++ x :: b'.concat z).getD (a ++ x :: b').length 0 = z := by
      have : a ++ x :: b'.concat z = (a ++ x :: b') ++ [z] := by simp
      rw [this, List.getD_eq_getElem?_getD, List.getElem?_append_right (le_refl _)]; simp
    rw [e2, e1, e3]
    have e4 : (a ++ x :: b'.concat z).set a.length z = (a ++ z :: b') ++ [z] := by
      simp [List.set_append]
    have e5 : (a ++ x :: b').length = (a ++ z :: b').length := by simp
    rw [e4, e5, List.take_left]
    rw [List.perm_iff_count]
    intro y
    simp only [List.concat_eq_append, List.count_append, List.count_cons, List.count_nil]
    omega

/-- The loop adding random slices. -/
theorem newSliceLoop_spec (g : FwPrng σ P) (wm : WidthModel W) :
    ∀ (k : ℕ) (l : List ℕ) (S : ISet) (w : W) (s : σ), l.Nodup →
      (newSliceLoop g wm k l S w s = .error .divByZero ∧ wm.maxWidth < w - ∑ x ∈ l.toFinset, wm.log2d x ∧
        l.length < k) ∨
      ∃ T s', T ⊆ l.toFinset ∧ T.card ≤ k ∧
        newSliceLoop g wm k l S w s = .ok (S ∪ T, w - ∑ x ∈ T, wm.log2d x, s') := by
  intro k
  induction k with
  | zero => intro l S w s _; exact Or.inr ⟨∅, s, by simp, by simp, by simp [newSliceLoop]⟩
  | succ k ih =>
    intro l S w s hnd
    simp only [newSliceLoop]
    split
    · next hbig =>
      by_cases hl : l.length = 0
      · left
        have : l = [] := List.length_eq_zero_iff.1 hl
        subst this
        simpa using hbig
      · simp only [if_neg hl]
        set i := (g.next s).1 % l.length with hi
        have hil : i < l.length := Nat.mod_lt _ (Nat.pos_of_ne_zero hl)
        have hp := swap_take_perm hil
        set x := l.getD i 0 with hx
        set l' := (l.set i (l.getD (l.length - 1) 0)).take (l.length - 1) with hl'
        have hnd' := hp.nodup_iff.2 hnd
        rw [List.nodup_cons] at hnd'
        have hfs : l.toFinset = insert x l'.toFinset := by
          rw [← List.toFinset_cons]; exact (List.toFinset_eq_of_perm _ _ hp).symm
        have hxl : x ∉ l'.toFinset := by simpa using hnd'.1
        have hlen : l.length = l'.length + 1 := by simpa using hp.length_eq.symm
        rcases ih l' (insert x S) (w - wm.log2d x) (g.next s).2 hnd'.2 with ⟨h1, h2, h3⟩ | ⟨T, s', h1, h2, h3⟩
        · left
          refine ⟨h1, ?_, by omega⟩
          rw [hfs, Finset.sum_insert hxl, ← sub_sub]; exact h2
        · right
          have hxT : x ∉ T := fun h => hxl (h1 h)
          refine ⟨insert x T, s', ?_, ?_, ?_⟩
          · rw [hfs]; exact Finset.insert_subset_insert _ h1
          · rw [Finset.card_insert_of_notMem hxT]; omega
          · have e : insert x S ∪ T = S ∪ insert x T := by ext y; simp only [Finset.mem_union, Finset.mem_insert]; tauto
            rw [h3, Finset.sum_insert hxT, ← sub_sub, e]
    · exact Or.inr ⟨∅, s, by simp, by simp, by simp⟩

theorem width_logExact {wm : WidthModel W} {k : ISet} (hw : wm.LogExact k) (xs T : ISet) (hT : T ⊆ xs) (hk : Disjoint T k) :
    wm.width (xs \ T) = wm.width xs - ∑ x ∈ T, wm.log2d x := by
  induction T using Finset.induction_on with
  | empty => simp
  | insert x T hx ih =>
    rw [Finset.sum_insert hx]
    have e : xs \ insert x T = (xs \ T).erase x := by ext y; simp; tauto
    have h1 : x ∈ xs \ T := Finset.mem_sdiff.2 ⟨hT (Finset.mem_insert_self _ _), hx⟩
    rw [Finset.disjoint_insert_left] at hk
    rw [e, hw h1 hk.1, ih (fun y hy => hT (Finset.mem_insert_of_mem hy)) hk.2]
    abel

end TNCO
