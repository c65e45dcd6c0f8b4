import Verif.Lemmas.Shadow
import Verif.Lemmas.FiniteWidth

/-! A run of the finite-width optimizer with any arithmetic, followed by a run with exact costs. -/

namespace TNCO
open PTree

section
variable {σ P W : Type} [Add W] [Sub W] [LT W] [DecidableLT W] [LE W] [DecidableLE W]

/-- What is known about the computed widths. `V w xs`: `w` is a computed width of the indices `xs`; `Fits xs`: what `w ≤ max_width` says about `xs`;
`Over xs`: what `w > max_width` says about `xs`. Slicing an index of `ks` with the cached `log2_dims` says nothing. -/
structure WidthRel (wm : WidthModel W) (U ks : ISet) (V : W → ISet → Prop) (Fits Over : ISet → Prop) : Prop where
  fresh : ∀ {xs : ISet}, xs ⊆ U → V (wm.width xs) xs
  add : ∀ {w : W} {xs : ISet} {x : ℕ}, xs ⊆ U → x ∈ xs → V w xs → V (w + wm.delta xs x) (xs.erase x)
  sub : ∀ {w : W} {xs : ISet} {x : ℕ}, xs ⊆ U → x ∈ xs → x ∉ ks → V w xs → V (w - wm.log2d x) (xs.erase x)
  le : ∀ {w : W} {xs : ISet}, xs ⊆ U → V w xs → w ≤ wm.maxWidth → Fits xs
  nlt : ∀ {w : W} {xs : ISet}, xs ⊆ U → V w xs → ¬ wm.maxWidth < w → Fits xs
  lt : ∀ {w : W} {xs : ISet}, xs ⊆ U → V w xs → wm.maxWidth < w → Over xs
  mono : ∀ {xs ys : ISet}, xs ⊆ ys → Fits ys → Fits xs

variable {wm : WidthModel W} {U ks : ISet} {V : W → ISet → Prop} {Fits Over : ISet → Prop}

omit [Sub W] [LT W] [DecidableLT W] [LE W] [DecidableLE W] [Add W] in
theorem sliceSort_perm_raw [LT W] [DecidableLT W] (wm : WidthModel W) (big : ℕ → ℕ) (l : List ℕ) : (sliceSort wm big l).Perm l :=
  List.perm_insertionSort _ _

theorem sliceLoop_rel (hV : WidthRel wm U ks V Fits Over) :
    ∀ (l : List ℕ) (S xs : ISet) (w : W), xs ⊆ U → V w xs → l.Nodup → (∀ x ∈ l, x ∈ xs) →
      ∃ T ⊆ l.toFinset, sliceLoop wm l S xs w = S ∪ T ∧ (Fits (xs \ T) ∨ T = l.toFinset) := by
  intro l
  induction l with
  | nil => intro S xs w _ _ _ _; exact ⟨∅, by simp, by simp [sliceLoop], Or.inr rfl⟩
  | cons x l ih =>
    intro S xs w hU hw hnd hsub
    have hx : x ∈ xs := hsub x (by simp)
    have hw' := hV.add hU hx hw
    have hU' : xs.erase x ⊆ U := (Finset.erase_subset _ _).trans hU
    simp only [sliceLoop]
    split
    · next h =>
      refine ⟨{x}, by simp, ?_, Or.inl ?_⟩
      · ext y; simp [or_comm]
      · rw [Finset.sdiff_singleton_eq_erase]; exact hV.le hU' hw' h
    · next h =>
      rw [List.nodup_cons] at hnd
      obtain ⟨T, hT, he, hc⟩ := ih (insert x S) (xs.erase x) _ hU' hw' hnd.2 (by
        intro y hy
        exact Finset.mem_erase.2 ⟨by rintro rfl; exact hnd.1 hy, hsub y (by simp [hy])⟩)
      refine ⟨insert x T, ?_, ?_, ?_⟩
      · rw [List.toFinset_cons]; exact Finset.insert_subset_insert _ hT
      · rw [he]; ext y; simp only [Finset.mem_union, Finset.mem_insert]; tauto
      · rcases hc with hc | hc
        · left
          have : xs \ insert x T = xs.erase x \ T := by ext y; simp; tauto
          rwa [this]
        · right; rw [hc, List.toFinset_cons]

theorem sliceVisit_rel (g : FwPrng σ P) (hV : WidthRel wm U ks V Fits Over) {c : CTree} {skip : Option ISet} {width : ℕ → W} {p : ℕ}
    (hwidth : width p = wm.width (c.inds p)) (hU : c.inds p ⊆ U) (st : ISet × σ) (hskip : ∀ k, skip = some k → Disjoint st.1 k) :
    st.1 ⊆ (sliceVisit g wm c skip width st p).1 ∧ (sliceVisit g wm c skip width st p).1 ⊆ st.1 ∪ c.inds p ∧
    (∀ k, skip = some k → Disjoint (sliceVisit g wm c skip width st p).1 k) ∧
    (Fits (c.inds p ∩ skip.getD ∅) → Fits (c.inds p \ (sliceVisit g wm c skip width st p).1)) := by
  unfold sliceVisit
  rw [hwidth]
  split
  · next hbig =>
    simp only
    have hUx : c.inds p \ st.1 ⊆ U := Finset.sdiff_subset.trans hU
    split
    · next hbig2 =>
      set xs := c.inds p \ st.1 with hxs
      set l := (g.shuffle st.2 (xs.minus? skip).positions).1 with hl
      have hperm : (sliceSort wm (nBig wm c width) l).Perm (xs.minus? skip).positions :=
        (sliceSort_perm_raw _ _ _).trans (g.shuffle_perm _ _)
      have hmem : ∀ x, x ∈ sliceSort wm (nBig wm c width) l ↔ x ∈ xs.minus? skip := fun x => by
        rw [hperm.mem_iff, ISet.mem_positions]
      obtain ⟨T, hT, he, hc⟩ := sliceLoop_rel hV (sliceSort wm (nBig wm c width) l) st.1 xs (wm.width xs) hUx (hV.fresh hUx)
        (hperm.nodup_iff.2 (ISet.positions_nodup _))
        (fun x hx => ISet.minus?_subset _ _ ((hmem x).1 hx))
      have hT' : T ⊆ xs.minus? skip := fun x hx => (hmem x).1 (by simpa using hT hx)
      simp only [he]
      refine ⟨Finset.subset_union_left, ?_, ?_, ?_⟩
      · apply Finset.union_subset_union_right
        exact hT'.trans ((ISet.minus?_subset _ _).trans Finset.sdiff_subset)
      · intro k hk
        rw [Finset.disjoint_union_left]
        refine ⟨hskip k hk, ?_⟩
        subst hk
        exact Finset.disjoint_of_subset_left hT' Finset.sdiff_disjoint
      · intro hs
        have e : c.inds p \ (st.1 ∪ T) = xs \ T := by rw [hxs]; ext y; simp; tauto
        rw [e]
        rcases hc with hc | hc
        · exact hc
        · refine hV.mono ?_ hs
          intro y hy
          rw [Finset.mem_sdiff, hc, List.mem_toFinset, hmem] at hy
          obtain ⟨h1, h2⟩ := hy
          have h1' : y ∈ c.inds p := (Finset.mem_sdiff.1 (hxs ▸ h1)).1
          cases skip with
          | none => exact absurd h1 h2
          | some k =>
            simp only [ISet.minus?, Finset.mem_sdiff, not_and, not_not] at h2
            simp only [Option.getD_some, Finset.mem_inter]
            exact ⟨h1', h2 h1⟩
    · next h2 =>
      exact ⟨Finset.Subset.refl _, Finset.subset_union_left, hskip, fun _ => hV.nlt hUx (hV.fresh hUx) h2⟩
  · next h2 =>
    exact ⟨Finset.Subset.refl _, Finset.subset_union_left, hskip, fun _ => hV.mono Finset.sdiff_subset (hV.nlt hU (hV.fresh hU) h2)⟩

theorem sliceFold_rel (g : FwPrng σ P) (hV : WidthRel wm U ks V Fits Over) {c : CTree} {skip : Option ISet} {width : ℕ → W} (l : List ℕ)
    (hwidth : ∀ p ∈ l, width p = wm.width (c.inds p)) (hU : ∀ p ∈ l, c.inds p ⊆ U) :
    ∀ (st : ISet × σ), (∀ k, skip = some k → Disjoint st.1 k) → st.1 ⊆ U →
    st.1 ⊆ (l.foldl (sliceVisit g wm c skip width) st).1 ∧ (l.foldl (sliceVisit g wm c skip width) st).1 ⊆ U ∧
    (∀ k, skip = some k → Disjoint (l.foldl (sliceVisit g wm c skip width) st).1 k) ∧
    (∀ p ∈ l, Fits (c.inds p ∩ skip.getD ∅) → Fits (c.inds p \ (l.foldl (sliceVisit g wm c skip width) st).1)) := by
  induction l with
  | nil => intro st h hs; exact ⟨Finset.Subset.refl _, hs, h, by simp⟩
  | cons p l ih =>
    intro st hst hs
    obtain ⟨a1, a2, a4, a5⟩ := sliceVisit_rel g hV (hwidth p (by simp)) (hU p (by simp)) st hst
    obtain ⟨b1, b2, b4, b5⟩ := ih (fun q hq => hwidth q (by simp [hq])) (fun q hq => hU q (by simp [hq])) _ a4
      (a2.trans (Finset.union_subset hs (hU p (by simp))))
    rw [List.foldl_cons]
    refine ⟨a1.trans b1, b2, b4, ?_⟩
    intro q hq hf
    rcases List.mem_cons.1 hq with rfl | hq
    · exact hV.mono (Finset.sdiff_subset_sdiff (Finset.Subset.refl _) b1) (a5 hf)
    · exact b5 q hq hf

theorem getSlices_rel (g : FwPrng σ P) (hV : WidthRel wm U ks V Fits Over) {c : CTree} {skip : Option ISet} {width : ℕ → W} {t : PTree}
    (hwf : WellFormed c.tree t) (hwidth : ∀ p < c.tree.size, width p = wm.width (c.inds p)) (hU : ∀ p < c.tree.size, c.inds p ⊆ U) (s : σ) :
    ∃ S s', getSlices g wm c skip width s = some (S, s') ∧ S ⊆ U ∧ (∀ k, skip = some k → Disjoint S k) ∧
      (∀ p < c.tree.size, Fits (c.inds p ∩ skip.getD ∅) → Fits (c.inds p \ S)) := by
  unfold getSlices
  rw [traverse_eq (fuel := c.fuel) hwf (le_refl _), Option.map_some]
  obtain ⟨-, b2, b3, b4⟩ := sliceFold_rel g hV (c := c) (skip := skip) (width := width) t.postorder
    (fun p hp => hwidth p ((hwf.mem p).1 hp)) (fun p hp => hU p ((hwf.mem p).1 hp)) (∅, s) (by simp) (by simp)
  exact ⟨_, _, rfl, b2, b3, fun p hp => b4 p ((hwf.mem p).2 hp)⟩

theorem newSliceLoop_rel (g : FwPrng σ P) (hV : WidthRel wm U ks V Fits Over) :
    ∀ (k : ℕ) (l : List ℕ) (S xs : ISet) (w : W) (s : σ), l.Nodup → (∀ x ∈ l, x ∈ xs ∧ x ∉ ks) → xs ⊆ U → V w xs →
      (newSliceLoop g wm k l S w s = .error .divByZero ∧ Over (xs \ l.toFinset) ∧ l.length < k) ∨
      ∃ T w' s', T ⊆ l.toFinset ∧ T.card ≤ k ∧ newSliceLoop g wm k l S w s = .ok (S ∪ T, w', s') ∧ V w' (xs \ T) := by
  intro k
  induction k with
  | zero => intro l S xs w s _ _ _ hw; exact Or.inr ⟨∅, w, s, by simp, by simp, by simp [newSliceLoop], by simpa using hw⟩
  | succ k ih =>
    intro l S xs w s hnd hl hU hw
    simp only [newSliceLoop]
    split
    · next hbig =>
      by_cases hl0 : l.length = 0
      · left
        have : l = [] := List.length_eq_zero_iff.1 hl0
        subst this
        simpa using hV.lt hU hw hbig
      · simp only [if_neg hl0]
        set i := (g.next s).1 % l.length with hi
        have hil : i < l.length := Nat.mod_lt _ (Nat.pos_of_ne_zero hl0)
        have hp := swap_take_perm hil
        set x := l.getD i 0 with hx
        set l' := (l.set i (l.getD (l.length - 1) 0)).take (l.length - 1) with hl'
        have hnd' := hp.nodup_iff.2 hnd
        rw [List.nodup_cons] at hnd'
        have hfs : l.toFinset = insert x l'.toFinset := by
          rw [← List.toFinset_cons]; exact (List.toFinset_eq_of_perm _ _ hp).symm
        have hxl : x ∉ l'.toFinset := by simpa using hnd'.1
        have hlen : l.length = l'.length + 1 := by simpa using hp.length_eq.symm
        have hxm := hl x (hp.mem_iff.1 (by simp))
        rcases ih l' (insert x S) (xs.erase x) (w - wm.log2d x) (g.next s).2 hnd'.2 (by
            intro y hy
            have hy' := hl y (hp.mem_iff.1 (by simp [hy]))
            exact ⟨Finset.mem_erase.2 ⟨by rintro rfl; exact hnd'.1 hy, hy'.1⟩, hy'.2⟩)
          ((Finset.erase_subset _ _).trans hU) (hV.sub hU hxm.1 hxm.2 hw) with ⟨h1, h2, h3⟩ | ⟨T, w', s', h1, h2, h3, h4⟩
        · left
          refine ⟨h1, ?_, by omega⟩
          have e : xs \ l.toFinset = xs.erase x \ l'.toFinset := by rw [hfs]; ext y; simp; tauto
          rw [e]; exact h2
        · right
          have hxT : x ∉ T := fun h => hxl (h1 h)
          refine ⟨insert x T, w', s', ?_, ?_, ?_, ?_⟩
          · rw [hfs]; exact Finset.insert_subset_insert _ h1
          · rw [Finset.card_insert_of_notMem hxT]; omega
          · have e : insert x S ∪ T = S ∪ insert x T := by ext y; simp only [Finset.mem_union, Finset.mem_insert]; tauto
            rw [h3, e]
          · have e : xs \ insert x T = xs.erase x \ T := by ext y; simp; tauto
            rw [e]; exact h4
    · exact Or.inr ⟨∅, w, s, by simp, by simp, by simp, by simpa using hw⟩

end

section
variable {σ P R W G : Type} [Zero R] [Add R] [Sub R] [LT R] [DecidableLT R] [LE P] [DecidableLE P]
variable [Add W] [Sub W] [LT W] [DecidableLT W] [LE W] [DecidableLE W]
variable [AddCommGroup G] [LinearOrder G]
variable {m : CostModel R} {m' : CostModel G} {C D : R → G → Prop}
variable {wm : WidthModel W} {U ks : ISet} {V : W → ISet → Prop} {Fits Over : ISet → Prop}

omit [Sub R] [LT R] [DecidableLT R] [LinearOrder G] in
theorem ShadowRel.sliced (h : ShadowRel m m' C D) (S : ISet) : ShadowRel (m.sliced S) (m'.sliced S) C D :=
  ⟨fun s => h.get (s ∪ S), h.zero, h.fresh, h.sum⟩

omit [Sub R] [LT R] [DecidableLT R] [LinearOrder G] in
/-- Fresh caches. -/
theorem cache_shadow (hr : ShadowRel m m' C D) {c : CTree} {t : PTree} (hwf : WellFormed c.tree t) {k' : CostCache G}
    (hk' : CostCache.make c.fuel m' c = some k') :
    ∃ k, CostCache.make c.fuel m c = some k ∧ (∀ p, D (k.partialCost p) (k'.partialCost p)) ∧
      ∀ p, (c.tree.size + 1) / 2 ≤ p → p < c.tree.size → C (k.contractionCost p) (k'.contractionCost p) := by
  unfold CostCache.make CTree.fuel at *
  rw [traverse_eq hwf (le_refl _), Option.map_some, Option.some.injEq] at *
  obtain ⟨s1, s2⟩ := visit_shadow hr (c := c) t.postorder ⟨fun _ => 0, fun _ => 0⟩ ⟨fun _ => 0, fun _ => 0⟩ (fun _ => hr.zero)
  rw [hk'] at s1 s2
  refine ⟨_, rfl, s1, fun p p1 p2 => ?_⟩
  have hl := hwf.linked
  refine s2 p (Or.inl ((hwf.mem p).2 p2)) (fun e => ?_) fun e => ?_
  · exact absurd ((hl.leaf0 p p2).1 e) (not_lt.2 p1)
  · exact absurd ((hl.leaf1 p p2).1 e) (not_lt.2 p1)

/-- All index sets of a tree stay within those of the leaves. -/
theorem inds_subset {c : CTree} {t : PTree} (hwf : WellFormed c.tree t) (hloc : t.All (LocQ c.inds))
    (hU : ∀ q < c.tree.nLeaves, c.inds q ⊆ U) : ∀ p < c.tree.size, c.inds p ⊆ U := by
  have key : ∀ s : PTree, s.All (LocQ c.inds) → (∀ q ∈ s.leaves, c.inds q ⊆ U) → ∀ p ∈ s.postorder, c.inds p ⊆ U := by
    intro s
    induction s with
    | leaf q => intro _ h p hp; simp only [postorder, List.mem_singleton] at hp; subst hp; exact h p (by simp [leaves])
    | node q l r ihl ihr =>
      intro h hl p hp
      obtain ⟨h1, h2, h3⟩ := h
      simp only [leaves, List.mem_append] at hl
      have a := ihl h2 fun i hi => hl i (Or.inl hi)
      have b := ihr h3 fun i hi => hl i (Or.inr hi)
      simp only [postorder, List.mem_append, List.mem_singleton] at hp
      rcases hp with (hp | hp) | hp
      · exact a p hp
      · exact b p hp
      · subst hp; exact h1.2.trans (Finset.union_subset (a _ l.root_mem) (b _ r.root_mem))
  intro p hp
  exact key t hloc (fun q hq => hU q (by unfold Tree.nLeaves; exact (hwf.leaves q).1 hq)) p ((hwf.mem p).2 hp)

/-- The walk and its shadow. -/
structure FShadow (m' : CostModel G) (C D : R → G → Prop) (wm : WidthModel W) (U ks : ISet) (out? : Option ISet) (sh : Bool) (w : FwWalk σ R W)
    (v : Walk σ G) (K : Ctx) (s : PTree) : Prop where
  inv : WInv (m'.sliced w.o.slices) out? sh v K s
  shadow : Shadow C D w.o.inf v.o
  pos : w.posB = v.posB
  width : ∀ p, w.o.width p = wm.width (w.o.inf.ctree.inds p)
  skip : ∀ k, w.o.skip = some k → Disjoint w.o.slices k
  leafU : ∀ q < w.o.inf.ctree.tree.nLeaves, w.o.inf.ctree.inds q ⊆ U
  slicesU : w.o.slices ⊆ U
  keep : ks ⊆ w.o.skip.getD ∅ ∨ w.o.maxNew = 0

theorem FShadow.indsU {out? : Option ISet} {sh : Bool} {w : FwWalk σ R W} {v : Walk σ G} {K : Ctx} {s : PTree}
    (h : FShadow m' C D wm U ks out? sh w v K s) : ∀ p < w.o.inf.ctree.tree.size, w.o.inf.ctree.inds p ⊆ U := by
  have hn := h.inv.nodes
  unfold NodeInv at hn
  rw [PTree.all_and] at hn
  have hl := h.leafU
  rw [h.shadow.ctree] at hl ⊢
  exact inds_subset h.inv.wf hn.1 hl

/-- Every tensor fits. -/
def FitsAll (Fits : ISet → Prop) (o : FwOpt σ R W) : Prop :=
  ∀ p < o.inf.ctree.tree.size, Fits (o.inf.ctree.inds p \ o.slices)

/-- The loop that adds slices may run out of indices. -/
def MayCrash (U : ISet) (Over : ISet → Prop) (o : FwOpt σ R W) : Prop :=
  0 < o.maxNew ∧ ∃ xs ⊆ U, xs ⊆ o.skip.getD ∅ ∧ Over xs

structure FStepR (m' : CostModel G) (C D : R → G → Prop) (wm : WidthModel W) (U ks : ISet) (Fits : ISet → Prop) (out? : Option ISet) (sh : Bool)
    (w w' : FwWalk σ R W) (v v' : Walk σ G) (K : Ctx) (s : PTree) : Prop where
  base : FShadow m' C D wm U ks out? sh w' v' K s
  stat : Static v.o v'.o
  skip : w'.o.skip = w.o.skip
  maxNew : w'.o.maxNew = w.o.maxNew
  minC : w'.o.inf.minCtree = w.o.inf.minCtree
  minT : w'.o.inf.minTotal = w.o.inf.minTotal
  minS : w'.o.minSlices = w.o.minSlices
  fit : FitsAll Fits w.o → FitsAll Fits w'.o

theorem fits_update (hV : WidthRel wm U ks V Fits Over) {T T' : Tree} {inds : ℕ → ISet} {S S' B : ISet} {b : ℕ} (hs : T'.size = T.size)
    (hSS : S ⊆ S') (hB : Fits (B \ S')) (h : ∀ p < T.size, Fits (inds p \ S)) :
    ∀ p < T'.size, Fits (Function.update inds b B p \ S') := by
  intro p hp
  by_cases hpb : p = b
  · subst hpb; simpa using hB
  · rw [Function.update_of_ne hpb]
    exact hV.mono (Finset.sdiff_subset_sdiff (Finset.Subset.refl _) hSS) (h p (by omega))

theorem fbody_shadow (g : FwPrng σ P) (hr : ShadowRel m m' C D) (hV : WidthRel wm U ks V Fits Over) (prob : R → R → P) {out? : Option ISet}
    {sh : Bool} {w : FwWalk σ R W} {v : Walk σ G} {K : Ctx} {o o' : Bool} {A : ℕ} {d e c : PTree}
    (h : FShadow m' C D wm U ks out? sh w v (.frame o A c K) (fork o' v.posB d e))
    (hsh : sh = true → out?.isSome = true ∧ (v.o.ctree.inds d.root ∩ v.o.ctree.inds c.root).Nonempty) :
    (FwWalk.body g m wm prob w A c.root d.root e.root = .error .divByZero ∧ MayCrash U Over w.o) ∨
    ∃ w' v' s', FwWalk.body g m wm prob w A c.root d.root e.root = .ok w' ∧
      FStepR m' C D wm U ks Fits out? sh w w' v v' K s' ∧ (∃ o'' l r, s' = fork o'' A l r) ∧ w'.posB = A ∧ v'.posB = A := by
  set iw : Walk σ R := ⟨w.o.inf, w.posB, w.total⟩ with hiw
  have hA : (v.o.ctree.tree.size + 1) / 2 ≤ A ∧ A < v.o.ctree.tree.size := fork_inner (K := K) (o := o) h.inv.wf
  have hB' := fork_inner h.inv.wf
  have hstep : ∀ (gr : Prng σ ℕ), ∃ v' s', WInv (m'.sliced w.o.slices) out? sh v' K s' ∧ (∃ o'' l r, s' = fork o'' A l r) ∧ Static v.o v'.o ∧
      Shadow C D (Walk.body gr (m.sliced w.o.slices) (fun _ _ => 0) iw A c.root d.root e.root).o v'.o ∧ v'.posB = A := by
    intro gr
    obtain ⟨b, hS2, -, hB3, -, -⟩ := body_shadow (w := iw) (v := v) (hr.sliced w.o.slices) gr (fun _ _ => 0) h.shadow h.pos
      (c := c.root) (d := d.root) (e := e.root) hA hB'
    obtain ⟨s2, hw2, hs2, hst, -, -⟩ := body_inv (deciding gr b) (m'.sliced w.o.slices) (fun _ _ => 0) h.inv hsh
    exact ⟨_, s2, hw2, hs2, hst, hS2, hB3⟩
  have hacc : ∀ pr, ∃ v' s', WInv (m'.sliced w.o.slices) out? sh v' K s' ∧ (∃ o'' l r, s' = fork o'' A l r) ∧ Static v.o v'.o ∧
      Shadow C D (Walk.accept (m.sliced w.o.slices) iw pr A c.root d.root e.root).o v'.o ∧ v'.posB = A := fun pr => hstep _
  have hrej : ∀ pr, ∃ v' s', WInv (m'.sliced w.o.slices) out? sh v' K s' ∧ (∃ o'' l r, s' = fork o'' A l r) ∧ Static v.o v'.o ∧
      Shadow C D (Walk.reject (m.sliced w.o.slices) iw pr A c.root d.root e.root).o v'.o ∧ v'.posB = A := fun pr => hstep _
  have hleaf : ∀ {v' : Walk σ G}, Static v.o v'.o → ∀ {c2 : CTree}, c2 = v'.o.ctree →
      ∀ q < c2.tree.nLeaves, c2.inds q ⊆ U := by
    intro v' hst c2 e q hq
    have hl := h.leafU
    rw [h.shadow.ctree] at hl
    have hn : v'.o.ctree.tree.nLeaves = v.o.ctree.tree.nLeaves := by unfold Tree.nLeaves; rw [hst.size]
    rw [e] at hq ⊢
    rw [hst.leafInds q (hn ▸ hq)]
    exact hl q (hn ▸ hq)
  -- a rejected move
  have hR : ∀ pr, ∃ v' s', FStepR m' C D wm U ks Fits out? sh w ⟨{ w.o with inf := { w.o.inf with
      prng := pr, cost := propagate w.o.inf.cost A w.posB c.root d.root e.root } }, A, w.total⟩ v v' K s' ∧
      (∃ o'' l r, s' = fork o'' A l r) ∧ v'.posB = A := by
    intro pr
    obtain ⟨v', s', h1, h2, h3, h4, h5⟩ := hrej pr
    rw [Walk.reject_eq] at h4
    exact ⟨v', s', ⟨⟨h1, h4, h5.symm, h.width, h.skip, h.leafU, h.slicesU, h.keep⟩, h3, rfl, rfl, rfl, rfl, rfl, fun hf => hf⟩, h2, h5⟩
  have hsize : ∀ E, (w.o.inf.ctree.tree.swapWithNN E).size = w.o.inf.ctree.tree.size := fun E => size_swapWithNN _ E
  set newB := iw.newB A c.root d.root with hnewB
  have hnB : (w.o.inf.ctree.inds d.root).xor (w.o.inf.ctree.inds c.root) ∪ w.o.inf.hyper A ∪
      w.o.inf.hyper w.posB = newB := rfl
  -- the new index set stays within `U`
  have hnU : newB ⊆ U := by
    obtain ⟨v', s', h1, h2, h3, h4, h5⟩ := hacc w.o.inf.prng
    rw [Walk.accept_eq] at h4
    have hn := h1.nodes
    unfold NodeInv at hn
    rw [PTree.all_and] at hn
    have e1 := h4.ctree
    simp only at e1
    have hl := hleaf h3 e1
    have h6 := inds_subset (c := v'.o.ctree) h1.wf hn.1 (U := U) (by rw [← e1]; exact hl) w.posB (by rw [h3.size, h.pos]; exact hB'.2)
    rw [← e1] at h6
    have e2 : Function.update iw.o.ctree.inds iw.posB newB w.posB = newB := Function.update_self _ _ _
    exact e2 ▸ h6
  have hUs : newB \ w.o.slices ⊆ U := Finset.sdiff_subset.trans hnU
  unfold FwWalk.body
  simp only [hnB]
  split
  · next hfits =>
    right
    split
    · next hu =>
      obtain ⟨v', s', h1, h2, h3, h4, h5⟩ := hacc (g.uniform w.o.inf.prng).2
      rw [Walk.accept_eq] at h4
      refine ⟨_, v', s', rfl, ⟨⟨h1, h4, h5.symm, ?_, h.skip, ?_, h.slicesU, h.keep⟩, h3, rfl, rfl, rfl, rfl, rfl, ?_⟩, h2, rfl, h5⟩
      · intro p
        simp only
        by_cases hp : p = w.posB
        · subst hp; simp
        · rw [Function.update_of_ne hp, Function.update_of_ne hp]; exact h.width p
      · exact hleaf h3 h4.ctree
      · intro hf
        exact fits_update hV (hsize _) (Finset.Subset.refl _) (hV.le hUs (hV.fresh hUs) hfits) hf
    · obtain ⟨v', s', h1, h2, h3⟩ := hR (g.uniform w.o.inf.prng).2
      exact ⟨_, v', s', rfl, h1, h2, rfl, h3⟩
  · next hbig =>
    split
    · next hmax =>
      have hnd := ISet.positions_nodup ((newB \ w.o.slices).minus? w.o.skip)
      have hfs : ((newB \ w.o.slices).minus? w.o.skip).positions.toFinset =
          (newB \ w.o.slices).minus? w.o.skip := by ext y; simp [ISet.mem_positions]
      have hkk : ∀ x ∈ ((newB \ w.o.slices).minus? w.o.skip).positions, x ∈ newB \ w.o.slices ∧ x ∉ ks := by
        intro x hx
        rw [ISet.mem_positions] at hx
        refine ⟨ISet.minus?_subset _ _ hx, fun hxk => ?_⟩
        rcases h.keep with hk | hk
        · have := hk hxk
          cases hsk : w.o.skip with
          | none => rw [hsk] at this; simp at this
          | some q =>
            rw [hsk] at this hx
            exact (Finset.mem_sdiff.1 hx).2 this
        · omega
      rcases newSliceLoop_rel g hV w.o.maxNew _ w.o.slices (newB \ w.o.slices) (wm.width (newB \ w.o.slices)) w.o.inf.prng hnd hkk hUs
        (hV.fresh hUs) with ⟨h1, h2, -⟩ | ⟨T, w2, s1, hT, hcard, hok, hV2⟩
      · left
        rw [h1]
        refine ⟨rfl, hmax, _, Finset.sdiff_subset.trans hUs, ?_, h2⟩
        rw [hfs]
        intro y hy
        cases hsk : w.o.skip with
        | none => rw [hsk] at hy; simp [ISet.minus?] at hy
        | some q =>
          rw [hsk] at hy
          simp only [ISet.minus?, Finset.mem_sdiff, not_and, not_not] at hy
          exact hy.2 hy.1
      · right
        rw [hok]
        simp only
        rw [hfs] at hT
        have hT1 : T ⊆ newB \ w.o.slices := hT.trans (ISet.minus?_subset _ _)
        split
        · next hfits =>
          set c' : CTree := { w.o.inf.ctree with tree := w.o.inf.ctree.tree.swapWithNN e.root, inds := Function.update w.o.inf.ctree.inds w.posB newB } with hc'
          obtain ⟨v', s', h1, h2, h3, h4, h5⟩ := hacc (g.uniform s1).2
          rw [Walk.accept_eq] at h4
          obtain ⟨k', hk', hW'⟩ := WInv.recache (m' := m'.sliced (w.o.slices ∪ T)) h1 (g.uniform s1).2
          have ec : c' = v'.o.ctree := h4.ctree
          obtain ⟨k, hk, hk1, hk2⟩ := cache_shadow (hr.sliced (w.o.slices ∪ T)) (c := v'.o.ctree) h1.wf hk'
          rw [← ec] at hk
          rw [hk]
          simp only
          split
          · refine ⟨_, _, s', rfl, ⟨⟨hW', ⟨h4.ctree, h4.hyper, rfl, h4.dis, hk2, hk1⟩, h5.symm, ?_, ?_, ?_, ?_, h.keep⟩,
              ⟨h3.size, h3.nInds, h3.dims, h3.disable, h3.leafInds, h3.rootInds⟩, rfl, rfl, rfl, rfl, rfl, ?_⟩, h2, rfl, h5⟩
            · intro p
              simp only [hc']
              by_cases hp : p = w.posB
              · subst hp; simp
              · rw [Function.update_of_ne hp, Function.update_of_ne hp]; exact h.width p
            · intro k hk
              simp only at hk
              simp only
              rw [Finset.disjoint_union_left]
              refine ⟨h.skip k hk, ?_⟩
              rw [hk] at hT
              exact Finset.disjoint_of_subset_left hT Finset.sdiff_disjoint
            · exact hleaf h3 h4.ctree
            · exact Finset.union_subset h.slicesU (hT1.trans hUs)
            · intro hf
              refine fits_update hV (hsize _) Finset.subset_union_left ?_ hf
              have e1 : newB \ (w.o.slices ∪ T) = (newB \ w.o.slices) \ T := by
                ext y; simp only [Finset.mem_sdiff, Finset.mem_union]; tauto
              rw [e1]
              exact hV.le (Finset.sdiff_subset.trans hUs) hV2 hfits
          · obtain ⟨v2, s', h1, h2, h3⟩ := hR (g.uniform s1).2
            have hwf2 : WellFormed w.o.inf.ctree.tree ((Ctx.frame o A c K).plug (fork o' v.posB d e)) := by
              rw [h.shadow.ctree]; exact h.inv.wf
            have e1 : c'.tree.swapWithNN c.root = w.o.inf.ctree.tree := swap_back hwf2
            have e2 : Function.update c'.inds w.posB (w.o.inf.ctree.inds w.posB) = w.o.inf.ctree.inds := by
              simp [hc']
            have e3 : ({ c' with tree := c'.tree.swapWithNN c.root, inds := Function.update c'.inds w.posB (w.o.inf.ctree.inds w.posB) } : CTree) = w.o.inf.ctree := by
              rw [e1, e2]
            refine ⟨_, v2, s', rfl, ?_, h2, rfl, h3⟩
            rw [e3]
            exact h1
        · obtain ⟨v', s', h1, h2, h3⟩ := hR s1
          exact ⟨_, v', s', rfl, h1, h2, rfl, h3⟩
    · obtain ⟨v', s', h1, h2, h3⟩ := hR w.o.inf.prng
      exact Or.inr ⟨_, v', s', rfl, h1, h2, rfl, h3⟩

/-- The walk stops at the root. -/
theorem frun_shadow (g : FwPrng σ P) (hr : ShadowRel m m' C D) (hV : WidthRel wm U ks V Fits Over) (prob : R → R → P) {out? : Option ISet}
    {sh : Bool} (hout : sh = true → out?.isSome = true) :
    ∀ (K : Ctx) (w : FwWalk σ R W) (v : Walk σ G) (s : PTree) (fuel : ℕ), FShadow m' C D wm U ks out? sh w v K s →
      (∃ o l r, s = fork o v.posB l r) → K.depth < fuel →
      (FwWalk.run g m wm prob fuel w = .error .divByZero ∧ MayCrash U Over w.o) ∨
      ∃ w' v' s', FwWalk.run g m wm prob fuel w = .ok w' ∧ FStepR m' C D wm U ks Fits out? sh w w' v v' .top s' := by
  intro K
  induction K with
  | top =>
    rintro w v s fuel h - hf
    obtain ⟨f, rfl⟩ : ∃ f, fuel = f + 1 := ⟨fuel - 1, by omega⟩
    have hnn : getCtreeNN g.toPrng w.o.inf.ctree w.o.inf.disableShared w.o.inf.prng w.posB = (none, w.o.inf.prng) := by
      rw [h.shadow.ctree, h.pos, ← h.inv.root]
      exact getCtreeNN_top g.toPrng _ _ h.inv.wf
    exact Or.inr ⟨w, v, s, by simp only [FwWalk.run, hnn], h, Static.rfl' _, rfl, rfl, rfl, rfl, rfl, fun hf => hf⟩
  | frame o A c K ih =>
    rintro w v s fuel h ⟨o1, x, y, rfl⟩ hf
    obtain ⟨f, rfl⟩ : ∃ f, fuel = f + 1 := ⟨fuel - 1, by simp only [Ctx.depth] at hf; omega⟩
    obtain ⟨o', d, e, s', hnn, hfork, hint⟩ :=
      getCtreeNN_frame g.toPrng (c := v.o.ctree) v.o.disableShared v.o.prng h.inv.wf
    have hnn' : getCtreeNN g.toPrng w.o.inf.ctree w.o.inf.disableShared w.o.inf.prng w.posB = (some (A, c.root, d.root, e.root), s') := by
      rw [h.shadow.ctree, h.shadow.dis, h.shadow.prng, h.pos]; exact hnn
    simp only [FwWalk.run, hnn']
    have hi := h.inv
    set w1 : FwWalk σ R W := { w with o := { w.o with inf := { w.o.inf with prng := s' } } } with hw1
    set v1 : Walk σ G := { v with o := { v.o with prng := s' } } with hv1
    have h1 : FShadow m' C D wm U ks out? sh w1 v1 (.frame o A c K) (fork o' v1.posB d e) := by
      change FShadow m' C D wm U ks out? sh w1 v1 (.frame o A c K) (fork o' v.posB d e)
      rw [← hfork]
      exact ⟨⟨hi.wf, hi.root, hi.nodes, hi.leaf, hi.part, hi.tail, hi.total, hi.sem, hi.shr, hi.dis⟩,
        ⟨h.shadow.ctree, h.shadow.hyper, rfl, h.shadow.dis, h.shadow.cc, h.shadow.pc⟩, h.pos, h.width, h.skip, h.leafU, h.slicesU, h.keep⟩
    have hsh : sh = true → out?.isSome = true ∧ (v.o.ctree.inds d.root ∩ v.o.ctree.inds c.root).Nonempty := by
      intro hs
      refine ⟨hout hs, hint (hi.dis hs) ?_⟩
      have a1 := hi.shr hs
      have a2 := hi.nodes
      simp only [Ctx.plug] at a1 a2
      rw [Ctx.all_plug, all_fork_symm ShQ.symm] at a1
      rw [Ctx.all_plug, all_fork_symm NodeInv.symm, all_fork_symm NodeInv.symm] at a2
      simp only [root_fork] at a1 a2
      obtain ⟨z, hz⟩ := a1.2.1
      have hz' := Finset.mem_inter.1 hz
      have := a2.2.2.1.1.1.2 hz'.1
      rcases Finset.mem_union.1 this with h | h
      · exact Or.inl ⟨z, Finset.mem_inter.2 ⟨h, hz'.2⟩⟩
      · exact Or.inr ⟨z, Finset.mem_inter.2 ⟨h, hz'.2⟩⟩
    rcases fbody_shadow g hr hV prob h1 hsh with ⟨hb, hn⟩ | ⟨w2, v2, s2, hb, hs2, ⟨o2, l2, r2, hf2⟩, hp2, hp3⟩
    · left; rw [hb]; exact ⟨rfl, hn⟩
    · rw [hb]
      simp only
      have hst : Static v.o v2.o := ⟨hs2.stat.size, hs2.stat.nInds, hs2.stat.dims, hs2.stat.disable, hs2.stat.leafInds, hs2.stat.rootInds⟩
      rcases ih w2 v2 s2 f hs2.base ⟨o2, l2, r2, by rw [hp3]; exact hf2⟩
        (by simp only [Ctx.depth] at hf; omega) with ⟨h3, hn⟩ | ⟨w3, v3, s3, h3, hs3⟩
      · left
        refine ⟨h3, ?_⟩
        unfold MayCrash at *
        rw [hs2.maxNew, hs2.skip] at hn; exact hn
      · right
        exact ⟨w3, v3, s3, h3, hs3.base, hst.trans hs3.stat, hs3.skip.trans hs2.skip, hs3.maxNew.trans hs2.maxNew, hs3.minC.trans hs2.minC,
          hs3.minT.trans hs2.minT, hs3.minS.trans hs2.minS, fun hf => hs3.fit (hs2.fit hf)⟩

/-- Invariant between updates. -/
structure FOShadow (m' : CostModel G) (C D : R → G → Prop) (wm : WidthModel W) (U ks : ISet) (out? : Option ISet) (sh : Bool) (o : FwOpt σ R W)
    (v : InfOpt σ G) (t : PTree) : Prop where
  inv : OInv (m'.sliced o.slices) out? sh v t
  shadow : Shadow C D o.inf v
  width : ∀ p, o.width p = wm.width (o.inf.ctree.inds p)
  skip : ∀ k, o.skip = some k → Disjoint o.slices k
  leafU : ∀ q < o.inf.ctree.tree.nLeaves, o.inf.ctree.inds q ⊆ U
  slicesU : o.slices ⊆ U
  keep : ks ⊆ o.skip.getD ∅ ∨ o.maxNew = 0

theorem FOShadow.indsU {out? : Option ISet} {sh : Bool} {o : FwOpt σ R W} {v : InfOpt σ G} {t : PTree}
    (h : FOShadow m' C D wm U ks out? sh o v t) : ∀ p < o.inf.ctree.tree.size, o.inf.ctree.inds p ⊆ U := by
  have hn := h.inv.nodes
  unfold NodeInv at hn
  rw [PTree.all_and] at hn
  have hl := h.leafU
  rw [h.shadow.ctree] at hl ⊢
  exact inds_subset h.inv.wf hn.1 hl

/-- Looking for better slices at the end of an update. -/
theorem updateSlices_shadow (g : FwPrng σ P) (hr : ShadowRel m m' C D) (hV : WidthRel wm U ks V Fits Over) {out? : Option ISet} {sh : Bool}
    {o : FwOpt σ R W} {v : InfOpt σ G} {t : PTree} (h : FOShadow m' C D wm U ks out? sh o v t) (u : Bool) :
    ∃ o' v', o.updateSlices g m wm u = .ok o' ∧ FOShadow m' C D wm U ks out? sh o' v' t ∧ Static v v' ∧ o'.skip = o.skip ∧ o'.maxNew = o.maxNew ∧
      o'.inf.minCtree = o.inf.minCtree ∧ o'.inf.minTotal = o.inf.minTotal ∧ o'.minSlices = o.minSlices ∧ (FitsAll Fits o → FitsAll Fits o') := by
  unfold FwOpt.updateSlices
  have hi := h.inv
  split
  · have hwf : WellFormed o.inf.ctree.tree t := by rw [h.shadow.ctree]; exact hi.wf
    obtain ⟨S, s', hS, h1, h2, h3⟩ := getSlices_rel g hV (skip := o.skip) hwf (fun p _ => h.width p) h.indsU o.inf.prng
    simp only [hS]
    obtain ⟨k', hk', hW⟩ := WInv.recache (m' := m'.sliced S) hi s'
    obtain ⟨k, hk, hk1, hk2⟩ := cache_shadow (hr.sliced S) (c := v.ctree) hi.wf hk'
    rw [← h.shadow.ctree] at hk
    rw [hk]
    simp only
    split
    · next hlt =>
      refine ⟨_, { v with prng := s', cost := k' }, rfl, ⟨(oinv_of_winv hW).1, ⟨h.shadow.ctree, h.shadow.hyper, rfl, h.shadow.dis, hk2, hk1⟩, h.width, h2,
        h.leafU, h1, h.keep⟩, ⟨rfl, rfl, rfl, rfl, fun _ _ => rfl, rfl⟩, rfl, rfl, rfl, rfl, rfl, ?_⟩
      intro hfit p hp
      refine h3 p hp (hV.mono ?_ (hfit p hp))
      cases hsk : o.skip with
      | none => simp
      | some q =>
        intro y hy
        simp only [Option.getD_some, Finset.mem_inter] at hy
        exact Finset.mem_sdiff.2 ⟨hy.1, fun hys => Finset.disjoint_left.1 (h.skip q hsk) hys hy.2⟩
    · exact ⟨_, { v with prng := s' }, rfl, ⟨⟨hi.wf, hi.root, hi.nodes, hi.leaf, hi.part, hi.tail, hi.total, hi.sem, hi.shr, hi.dis⟩,
        ⟨h.shadow.ctree, h.shadow.hyper, rfl, h.shadow.dis, h.shadow.cc, h.shadow.pc⟩, h.width, h.skip, h.leafU, h.slicesU, h.keep⟩,
        ⟨rfl, rfl, rfl, rfl, fun _ _ => rfl, rfl⟩, rfl, rfl, rfl, rfl, rfl, fun hf => hf⟩
  · exact ⟨o, v, rfl, h, Static.rfl' _, rfl, rfl, rfl, rfl, rfl, fun hf => hf⟩

/-- How an update treats the recorded minimum. -/
def FMinStepR (o o' : FwOpt σ R W) : Prop :=
  (o'.inf.totalCost < o.inf.minTotal ∧ o'.inf.minTotal = o'.inf.totalCost ∧ o'.inf.minCtree = o'.inf.ctree ∧ o'.minSlices = o'.slices) ∨
  ((¬ o'.inf.totalCost < o.inf.minTotal ∨ o.inf.ctree.tree.size = 1) ∧ o'.inf.minTotal = o.inf.minTotal ∧
    o'.inf.minCtree = o.inf.minCtree ∧ o'.minSlices = o.minSlices)

theorem fupdate_shadow (g : FwPrng σ P) (hr : ShadowRel m m' C D) (hV : WidthRel wm U ks V Fits Over) (prob : R → R → P) (u : Bool)
    {out? : Option ISet} {sh : Bool} (hout : sh = true → out?.isSome = true) {o : FwOpt σ R W} {v : InfOpt σ G} {t : PTree}
    (h : FOShadow m' C D wm U ks out? sh o v t) :
    (o.update g m wm prob u = .error .divByZero ∧ MayCrash U Over o) ∨
    ∃ o' v' t', o.update g m wm prob u = .ok o' ∧ FOShadow m' C D wm U ks out? sh o' v' t' ∧ Static v v' ∧ o'.skip = o.skip ∧
      o'.maxNew = o.maxNew ∧ FMinStepR o o' ∧ (FitsAll Fits o → FitsAll Fits o') := by
  unfold FwOpt.update
  simp only
  have hi := h.inv
  have hwf : WellFormed o.inf.ctree.tree t := by rw [h.shadow.ctree]; exact hi.wf
  split
  · next hpar =>
    right
    have hsz : o.inf.ctree.tree.size = 1 := by
      obtain ⟨h1, h2, h3⟩ := hwf.size_eq
      have hn : 0 < o.inf.ctree.tree.nLeaves := by unfold Tree.nLeaves; omega
      have hlt := Nat.mod_lt (g.next o.inf.prng).1 hn
      have hq : (g.next o.inf.prng).1 % o.inf.ctree.tree.nLeaves < o.inf.ctree.tree.size := by omega
      have hroot := (hwf.linked.root _ hq).1 hpar
      unfold Tree.nLeaves at hlt hroot
      omega
    exact ⟨_, { v with prng := (g.next o.inf.prng).2 }, t, rfl,
      ⟨⟨hi.wf, hi.root, hi.nodes, hi.leaf, hi.part, hi.tail, hi.total, hi.sem, hi.shr, hi.dis⟩,
        ⟨h.shadow.ctree, h.shadow.hyper, rfl, h.shadow.dis, h.shadow.cc, h.shadow.pc⟩, h.width, h.skip, h.leafU, h.slicesU, h.keep⟩,
      ⟨rfl, rfl, rfl, rfl, fun _ _ => rfl, rfl⟩, rfl, rfl, Or.inr ⟨Or.inr hsz, rfl, rfl, rfl⟩, fun hf => hf⟩
  · next B hB =>
    rw [h.shadow.ctree] at hB
    obtain ⟨K, s, hW, hf, hd⟩ := walk_start hi (g.next o.inf.prng).1 (g.next o.inf.prng).2 hB
    set o1 : FwOpt σ R W := { o with inf := { o.inf with prng := (g.next o.inf.prng).2 } } with ho1
    have hF : FShadow m' C D wm U ks out? sh ⟨o1, B, o1.inf.totalCost⟩ ⟨{ v with prng := (g.next o.inf.prng).2 }, B, v.totalCost⟩ K s :=
      ⟨hW, ⟨h.shadow.ctree, h.shadow.hyper, rfl, h.shadow.dis, h.shadow.cc, h.shadow.pc⟩, rfl, h.width, h.skip, h.leafU, h.slicesU, h.keep⟩
    rcases frun_shadow g hr hV prob hout K _ _ s o.inf.ctree.tree.size hF hf (by rw [h.shadow.ctree]; exact hd) with
      ⟨h1, hn⟩ | ⟨w', v', s', h1, hs⟩
    · left; rw [h1]; exact ⟨rfl, hn⟩
    · right
      rw [h1]
      simp only
      have hb := hs.base
      have hfo : FOShadow m' C D wm U ks out? sh w'.o v'.o s' :=
        ⟨(oinv_of_winv hb.inv).1, hb.shadow, hb.width, hb.skip, hb.leafU, hb.slicesU, hb.keep⟩
      obtain ⟨o2, v2, h2, hI2, hst2, hsk2, hmn2, hc2, ht2, hms2, hfit2⟩ := updateSlices_shadow g hr hV hfo u
      rw [h2]
      simp only
      have hst0 : Static v v'.o := ⟨hs.stat.size, hs.stat.nInds, hs.stat.dims, hs.stat.disable, hs.stat.leafInds, hs.stat.rootInds⟩
      have hst := hst0.trans hst2
      have hmt : o2.inf.minTotal = o.inf.minTotal := ht2.trans hs.minT
      have hmc : o2.inf.minCtree = o.inf.minCtree := hc2.trans hs.minC
      have hms : o2.minSlices = o.minSlices := hms2.trans hs.minS
      have hff : FitsAll Fits o → FitsAll Fits o2 := fun hfit => hfit2 (hs.fit hfit)
      have hsk := hsk2.trans hs.skip
      have hmn := hmn2.trans hs.maxNew
      unfold FwOpt.updateMin
      split
      · next hlt =>
        refine ⟨_, v2, s', rfl, ⟨hI2.inv, ⟨hI2.shadow.ctree, hI2.shadow.hyper, hI2.shadow.prng, hI2.shadow.dis, hI2.shadow.cc, hI2.shadow.pc⟩,
          hI2.width, hI2.skip, hI2.leafU, hI2.slicesU, hI2.keep⟩, hst, hsk, hmn, Or.inl ⟨?_, rfl, rfl, rfl⟩, hff⟩
        rw [← hmt]; exact hlt
      · next hlt =>
        refine ⟨o2, v2, s', rfl, hI2, hst, hsk, hmn, Or.inr ⟨Or.inl ?_, hmt, hmc, hms⟩, hff⟩
        rw [← hmt]; exact hlt

/-- A successfully constructed optimizer has a shadow. -/
theorem fmake_shadow (g : FwPrng σ P) (hr : ShadowRel m m' C D) (hV : WidthRel wm U ks V Fits Over) {bad : R → Prop} [DecidablePred bad] {c : CTree}
    {maxNew : ℕ} {seed : σ} {dis : Bool} {skip : Option ISet} {minC : Option CTree} {slices minSlices : Option ISet} {o : FwOpt σ R W} {t : PTree}
    (hwf : WellFormed c.tree t) (hU : ∀ q < c.tree.nLeaves, c.inds q ⊆ U) (hkeep : ks ⊆ skip.getD ∅ ∨ maxNew = 0)
    (hgiven : ∀ sl, slices = some sl → sl ⊆ U ∧ ∀ k, skip = some k → Disjoint sl k)
    (hmk : FwOpt.makeWith bad g m wm c maxNew seed dis skip minC slices minSlices = some (.ok o)) {out? : Option ISet}
    (hsem : ∀ out, out? = some out → t.Sem c.inds out) :
    ∃ v, FOShadow m' C D wm U ks out? (out?.isSome && !dis) o v t ∧ o.inf.ctree = c ∧ o.inf.disableShared = dis ∧
      o.inf.minCtree = minC.getD c ∧ o.minSlices = minSlices.getD o.slices ∧
      getCost (minC.getD c).fuel (m.sliced o.minSlices) (minC.getD c) = some o.inf.minTotal ∧
      ¬ bad o.inf.totalCost ∧ ¬ bad o.inf.minTotal ∧ c.isValid (!dis) = true ∧ (minC.getD c).isValid (!dis) = true ∧
      o.skip = skip ∧ o.maxNew = maxNew ∧ FitsAll Fits o ∧ allFit wm (minC.getD c) o.minSlices = true := by
  unfold FwOpt.makeWith at hmk
  simp only [Bool.or_eq_true, Bool.not_eq_true', bind, pure] at hmk
  split at hmk
  · simp at hmk
  next hv =>
  simp only [not_or, Bool.not_eq_false] at hv
  obtain ⟨hv1, hv2⟩ := hv
  obtain ⟨hd, hloc, hsh⟩ := (ctree_isValid_iff hwf _).1 hv1
  have hUa := inds_subset hwf hloc hU
  obtain ⟨S, s', hS, hSU, hdisj⟩ : ∃ S s', initSlices g wm c skip seed slices = some (S, s') ∧ S ⊆ U ∧
      (∀ k, skip = some k → Disjoint S k) := by
    cases slices with
    | some sl => exact ⟨sl, seed, rfl, hgiven sl rfl⟩
    | none =>
      obtain ⟨S, s', h1, h0, h2, -⟩ := getSlices_rel g hV (skip := skip) (width := widthCache wm c) hwf (fun _ _ => rfl) hUa seed
      exact ⟨S, s', h1, h0, h2⟩
  rw [hS] at hmk
  simp only [Option.bind_some] at hmk
  obtain ⟨k', hk', -⟩ := costCache_make (m := m'.sliced S) hwf hloc (fuel := c.fuel) (le_refl _)
  obtain ⟨k, hk, hk1, hk2⟩ := cache_shadow (hr.sliced S) hwf hk'
  rw [hk] at hmk
  simp only [Option.bind_some] at hmk
  cases hg : getCost (minC.getD c).fuel (m.sliced (minSlices.getD S)) (minC.getD c) with
  | none => rw [hg] at hmk; simp at hmk
  | some mt =>
    rw [hg] at hmk
    simp only [Option.bind_some] at hmk
    split at hmk
    · simp at hmk
    next hpos =>
    split at hmk
    · simp at hmk
    next hfit =>
    simp only [Option.some.injEq, Except.ok.injEq] at hmk
    subst hmk
    simp only [not_or, Bool.not_eq_false] at hpos hfit
    refine ⟨⟨c, dis, s', c, k', hyperCache c, 0⟩, ⟨oinv_fresh hwf hv1 hk' hsem, ⟨rfl, rfl, rfl, rfl, hk2, hk1⟩, fun p => rfl, hdisj, hU, hSU, hkeep⟩,
      rfl, rfl, rfl, rfl, hg, hpos.1, hpos.2, hv1, hv2, rfl, rfl, ?_, hfit.2⟩
    intro p hp
    have h1 := hfit.1
    unfold allFit at h1
    rw [List.all_eq_true] at h1
    have hUp : c.inds p \ S ⊆ U := Finset.sdiff_subset.trans (hUa p hp)
    exact hV.le hUp (hV.fresh hUp) (by simpa using h1 p (by simpa using hp))

/-- Any history of updates. -/
theorem fhistory_shadow (g : FwPrng σ P) (hr : ShadowRel m m' C D) (hV : WidthRel wm U ks V Fits Over) {out? : Option ISet} {sh : Bool}
    (hout : sh = true → out?.isSome = true) (ps : List ((R → R → P) × Bool)) :
    ∀ {o : FwOpt σ R W} {v : InfOpt σ G} {t : PTree}, FOShadow m' C D wm U ks out? sh o v t →
      (o.run g m wm ps = .error .divByZero ∧ MayCrash U Over o) ∨
      ∃ o' v' t', o.run g m wm ps = .ok o' ∧ FOShadow m' C D wm U ks out? sh o' v' t' ∧ Static v v' ∧ o'.skip = o.skip ∧ o'.maxNew = o.maxNew ∧
        (FitsAll Fits o → FitsAll Fits o') := by
  induction ps with
  | nil => intro o v t h; exact Or.inr ⟨o, v, t, rfl, h, Static.rfl' _, rfl, rfl, fun hf => hf⟩
  | cons p ps ih =>
    intro o v t h
    obtain ⟨prob, u⟩ := p
    simp only [FwOpt.run]
    rcases fupdate_shadow g hr hV prob u hout h with ⟨h1, hn⟩ | ⟨o1, v1, t1, h1, hi1, hs1, hk1, hm1, -, hf1⟩
    · left; rw [h1]; exact ⟨rfl, hn⟩
    · rw [h1]
      simp only
      rcases ih hi1 with ⟨h2, hn⟩ | ⟨o2, v2, t2, h2, hi2, hs2, hk2, hm2, hf2⟩
      · left
        refine ⟨h2, ?_⟩
        unfold MayCrash at *
        rw [hm1, hk1] at hn; exact hn
      · right
        exact ⟨o2, v2, t2, h2, hi2, hs1.trans hs2, hk2.trans hk1, hm2.trans hm1, fun hf => hf2 (hf1 hf)⟩

end
end TNCO
