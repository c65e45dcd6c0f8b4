import Verif.Lemmas.FiniteWidth

/-! Slices during one pass of the finite-width optimizer. -/

namespace TNCO
open PTree

variable {σ P R W : Type}

section
variable [Zero R] [Add R] [Sub R] [LT R] [DecidableLT R] [LE P] [DecidableLE P]
variable [Add W] [Sub W] [LT W] [DecidableLT W] [LE W] [DecidableLE W]

omit [LE P] [DecidableLE P] [Add W] [LE W] [DecidableLE W] in
/-- What the loop adding slices returns, whatever the arithmetic. -/
theorem newSliceLoop_adds (g : FwPrng σ P) (wm : WidthModel W) : ∀ (k : ℕ) (l : List ℕ) (S S' : ISet) (w w' : W) (s s' : σ),
    newSliceLoop g wm k l S w s = .ok (S', w', s') →
    ∃ T : ISet, S' = S ∪ T ∧ T ⊆ l.toFinset ∧ T.card ≤ k ∧ (T = ∅ → w' = w) := by
  intro k
  induction k with
  | zero =>
    intro l S S' w w' s s' h
    simp only [newSliceLoop, Except.ok.injEq, Prod.mk.injEq] at h
    obtain ⟨rfl, rfl, -⟩ := h
    exact ⟨∅, by simp, by simp, by simp, fun _ => rfl⟩
  | succ k ih =>
    intro l S S' w w' s s' h
    simp only [newSliceLoop] at h
    split at h
    · split at h
      · cases h
      · next hl =>
        obtain ⟨T, h1, h2, h3, -⟩ := ih _ _ _ _ _ _ _ h
        have hi : (g.next s).1 % l.length < l.length := Nat.mod_lt _ (Nat.pos_of_ne_zero hl)
        have hx : l.getD ((g.next s).1 % l.length) 0 ∈ l := by
          rw [List.getD_eq_getElem?_getD, List.getElem?_eq_getElem hi, Option.getD_some]
          exact List.getElem_mem hi
        have hlast : l.getD (l.length - 1) 0 ∈ l := by
          have h5 : l.length - 1 < l.length := by omega
          rw [List.getD_eq_getElem?_getD, List.getElem?_eq_getElem h5, Option.getD_some]
          exact List.getElem_mem h5
        refine ⟨insert (l.getD ((g.next s).1 % l.length) 0) T, ?_, ?_, ?_, ?_⟩
        · rw [h1, Finset.insert_union, Finset.union_insert]
        · intro y hy
          rw [Finset.mem_insert] at hy
          rw [List.mem_toFinset]
          rcases hy with rfl | hy
          · exact hx
          · have h6 := List.mem_of_mem_take (List.mem_toFinset.1 (h2 hy))
            rcases List.mem_or_eq_of_mem_set h6 with h7 | h7
            · exact h7
            · rw [h7]; exact hlast
        · exact (Finset.card_insert_le _ _).trans (by omega)
        · intro h0
          exact absurd h0 (Finset.insert_ne_empty _ _)
    · simp only [Except.ok.injEq, Prod.mk.injEq] at h
      obtain ⟨rfl, rfl, -⟩ := h
      exact ⟨∅, by simp, by simp, by simp, fun _ => rfl⟩

/-- What one iteration does to the slices: nothing, or it adds some of the indices of the tensor it makes. -/
structure AddsSlices (wm : WidthModel W) (w w' : FwWalk σ R W) (T : ISet) : Prop where
  eq : w'.o.slices = w.o.slices ∪ T
  nonempty : T.Nonempty
  new : T ⊆ w'.o.inf.ctree.inds w.posB \ w.o.slices
  skip : ∀ k, w.o.skip = some k → Disjoint T k
  card : T.card ≤ w.o.maxNew
  wide : ¬ wm.width (w'.o.inf.ctree.inds w.posB \ w.o.slices) ≤ wm.maxWidth

theorem fbody_adds (g : FwPrng σ P) (m : CostModel R) (wm : WidthModel W) (prob : R → R → P)
    {w w' : FwWalk σ R W} {a c d e : ℕ} (h : FwWalk.body g m wm prob w a c d e = .ok w') :
    w'.posB = a ∧ w'.o.skip = w.o.skip ∧ w'.o.maxNew = w.o.maxNew ∧
    (∀ p, p ≠ w.posB → w'.o.inf.ctree.inds p = w.o.inf.ctree.inds p) ∧
    (w'.o.slices = w.o.slices ∨ ∃ T, AddsSlices wm w w' T) := by
  unfold FwWalk.body at h
  simp only at h
  split at h
  · split at h
    · cases h
      exact ⟨rfl, rfl, rfl, fun p hp => Function.update_of_ne hp _ _, Or.inl rfl⟩
    · cases h
      exact ⟨rfl, rfl, rfl, fun _ _ => rfl, Or.inl rfl⟩
  · next hbig =>
    split at h
    · next hmax =>
      set newB := (w.o.inf.ctree.inds d).xor (w.o.inf.ctree.inds c) ∪ w.o.inf.hyper a ∪ w.o.inf.hyper w.posB with hnB
      have hfs : ((newB \ w.o.slices).minus? w.o.skip).positions.toFinset =
          (newB \ w.o.slices).minus? w.o.skip := by ext y; simp [ISet.mem_positions]
      split at h
      · cases h
      next S1 w1 s1 hok =>
      obtain ⟨T, rfl, hT, hcard, h0⟩ := newSliceLoop_adds g wm _ _ _ _ _ _ _ _ hok
      rw [hfs] at hT
      split at h
      · next hfit =>
        split at h
        · cases h
        · next k hk =>
          split at h
          · cases h
            refine ⟨rfl, rfl, rfl, fun p hp => Function.update_of_ne hp _ _, Or.inr ⟨T, rfl, ?_, ?_, ?_, hcard, ?_⟩⟩
            · rw [Finset.nonempty_iff_ne_empty]
              rintro rfl
              rw [h0 rfl] at hfit
              exact hbig hfit
            · simpa using hT.trans (ISet.minus?_subset _ _)
            · intro k hk
              rw [hk] at hT
              exact Finset.disjoint_of_subset_left hT Finset.sdiff_disjoint
            · simpa using hbig
          · cases h
            exact ⟨rfl, rfl, rfl, fun p hp => by simp [Function.update_of_ne hp], Or.inl rfl⟩
      · cases h
        exact ⟨rfl, rfl, rfl, fun _ _ => rfl, Or.inl rfl⟩
    · cases h
      exact ⟨rfl, rfl, rfl, fun _ _ => rfl, Or.inl rfl⟩

/-- Slices of a whole pass, in any state. -/
theorem frun_adds (g : FwPrng σ P) (m : CostModel R) (wm : WidthModel W) (prob : R → R → P) :
    ∀ (fuel : ℕ) (w w' : FwWalk σ R W), FwWalk.run g m wm prob fuel w = .ok w' →
      w'.o.skip = w.o.skip ∧ w'.o.maxNew = w.o.maxNew ∧ w.o.slices ⊆ w'.o.slices ∧
      (w'.o.slices \ w.o.slices).card ≤ w.o.maxNew * (fuel - 1) ∧
      ∀ k, w.o.skip = some k → Disjoint (w'.o.slices \ w.o.slices) k := by
  intro fuel
  induction fuel with
  | zero => intro w w' h; cases h
  | succ f ih =>
    intro w w' h
    rw [FwWalk.run] at h
    split at h
    · cases h; simp
    · split at h
      · cases h
      · next w1 hb =>
        obtain ⟨-, q1, q2, -, q3⟩ := fbody_adds g m wm prob hb
        obtain ⟨i1, i2, i3, i4, i5⟩ := ih w1 w' h
        simp only at q1 q2 q3
        have hf : 0 < f := by
          rcases Nat.eq_zero_or_pos f with rfl | hf
          · cases h
          · exact hf
        obtain ⟨f, rfl⟩ : ∃ n, f = n + 1 := ⟨f - 1, by omega⟩
        simp only [Nat.add_sub_cancel] at i4 ⊢
        rcases q3 with q3 | ⟨T, hT⟩
        · rw [q1] at i1 i5; rw [q2] at i2 i4; rw [q3] at i3 i4 i5
          exact ⟨i1, i2, i3, i4.trans (Nat.mul_le_mul_left _ (by omega)), i5⟩
        · have he : w1.o.slices = w.o.slices ∪ T := hT.eq
          have hc : T.card ≤ w.o.maxNew := hT.card
          have hs : ∀ k, w.o.skip = some k → Disjoint T k := hT.skip
          rw [q1] at i1 i5; rw [q2] at i2 i4; rw [he] at i3 i4 i5
          have hsub : w'.o.slices \ w.o.slices ⊆ T ∪ (w'.o.slices \ (w.o.slices ∪ T)) := by
            intro y hy
            rw [Finset.mem_sdiff] at hy
            rw [Finset.mem_union, Finset.mem_sdiff, Finset.mem_union]
            by_cases hyT : y ∈ T
            · exact Or.inl hyT
            · exact Or.inr ⟨hy.1, by rintro (h | h); exacts [hy.2 h, hyT h]⟩
          refine ⟨i1, i2, Finset.subset_union_left.trans i3, ?_, ?_⟩
          · have := (Finset.card_le_card hsub).trans (Finset.card_union_le _ _)
            rw [Nat.mul_add, Nat.mul_one]
            omega
          · intro k hk
            refine Finset.disjoint_of_subset_left hsub ?_
            rw [Finset.disjoint_union_left]
            exact ⟨hs k hk, i5 k hk⟩

end

variable [AddCommGroup R] [LinearOrder R] [LinearOrder P] [AddCommGroup W] [LinearOrder W]

/-- A pass changes only tensors of the rest of the path, and every index it slices belongs to a tensor
of the new tree that is too wide with the old slices. -/
theorem frun_needed (g : FwPrng σ P) (m : CostModel R) {wm : WidthModel W} (hw : wm.Lawful) (prob : R → R → P)
    [IsOrderedAddMonoid W] {out? : Option ISet} :
    ∀ (K : Ctx) (w w' : FwWalk σ R W) (s : PTree) (fuel : ℕ), FBase m wm out? false w K s →
      (∃ o l r, s = fork o w.posB l r) → K.depth < fuel → FwWalk.run g m wm prob fuel w = .ok w' →
      (w'.o.slices \ w.o.slices).card ≤ w.o.maxNew * K.depth ∧
      (∀ p, p ≠ w.posB → p ∉ K.poss → w'.o.inf.ctree.inds p = w.o.inf.ctree.inds p) ∧
      ∀ x ∈ w'.o.slices, x ∉ w.o.slices → ∃ p < w.o.inf.ctree.tree.size, x ∈ w'.o.inf.ctree.inds p ∧
        wm.maxWidth < wm.width (w'.o.inf.ctree.inds p \ w.o.slices) := by
  intro K
  induction K with
  | top =>
    rintro w w' s fuel h - hf hrun
    obtain ⟨f, rfl⟩ : ∃ f, fuel = f + 1 := ⟨fuel - 1, by omega⟩
    have hnn : getCtreeNN g.toPrng w.o.inf.ctree w.o.inf.disableShared w.o.inf.prng w.posB =
        (none, w.o.inf.prng) := by
      have hr : s.root = w.posB := h.inv.root
      rw [← hr]; exact getCtreeNN_top g.toPrng _ _ h.inv.wf
    simp only [FwWalk.run, hnn] at hrun
    cases hrun
    exact ⟨by simp, fun _ _ _ => rfl, fun x h1 h2 => absurd h1 h2⟩
  | frame o A c K ih =>
    rintro w w' s fuel h ⟨o1, x, y, rfl⟩ hf hrun
    obtain ⟨f, rfl⟩ : ∃ f, fuel = f + 1 := ⟨fuel - 1, by simp only [Ctx.depth] at hf; omega⟩
    obtain ⟨o', d, e, s', hnn, hfork, hint⟩ :=
      getCtreeNN_frame g.toPrng (c := w.o.inf.ctree) w.o.inf.disableShared w.o.inf.prng h.inv.wf
    simp only [FwWalk.run, hnn] at hrun
    have hi := h.inv
    set w1 : FwWalk σ R W := { w with o := { w.o with inf := { w.o.inf with prng := s' } } } with hw1
    have h1 : FBase m wm out? false w1 (.frame o A c K) (fork o' w.posB d e) := by
      rw [← hfork]
      exact ⟨⟨hi.wf, hi.root, hi.nodes, hi.leaf, hi.part, hi.tail, hi.total, hi.sem, hi.shr, hi.dis⟩,
        h.width, h.skip⟩
    -- the position of the new tensor is not visited again
    have hwf := hi.wf
    have hnd := (Ctx.postorder_plug (.frame o A c K) (fork o1 w.posB x y)).nodup_iff.1 hwf.nodup
    have hB : w.posB ∉ (Ctx.frame o A c K).poss := by
      intro hm
      refine (List.nodup_append.1 hnd).2.2 w.posB ?_ w.posB hm rfl
      have := (fork o1 w.posB x y).root_mem
      rwa [root_fork] at this
    have hBs : w.posB < w.o.inf.ctree.tree.size := by
      apply (hwf.mem _).1
      rw [(Ctx.postorder_plug (.frame o A c K) (fork o1 w.posB x y)).mem_iff]
      have := (fork o1 w.posB x y).root_mem
      rw [root_fork] at this
      exact List.mem_append_left _ this
    have hBA : w.posB ≠ A ∧ w.posB ∉ K.poss := by
      simp only [Ctx.poss, List.mem_cons, List.mem_append, not_or] at hB
      exact ⟨hB.1, hB.2.2⟩
    rcases fbody g m wm prob h1 (by simp) with ⟨hb, -⟩ | ⟨w2, s2, hb, hs2, ⟨o2, l2, r2, hf2⟩, hp2⟩
    · rw [hb] at hrun; cases hrun
    · rw [hb] at hrun
      simp only at hrun
      obtain ⟨-, q1, q2, q3, q4⟩ := fbody_adds g m wm prob hb
      have hsz : w2.o.inf.ctree.tree.size = w.o.inf.ctree.tree.size := hs2.stat.inf.size
      obtain ⟨i1, i2, i3⟩ := ih w2 w' s2 f hs2.base ⟨o2, l2, r2, by rw [hp2]; exact hf2⟩
        (by simp only [Ctx.depth] at hf; omega) hrun
      rw [hp2] at i2
      rw [hsz] at i3
      have hm : w2.o.maxNew = w.o.maxNew := q2
      rw [hm] at i1
      refine ⟨?_, ?_, ?_⟩
      · simp only [Ctx.depth]
        rw [Nat.mul_add, Nat.mul_one]
        rcases q4 with q4 | ⟨T, hT⟩
        · have he : w2.o.slices = w.o.slices := q4
          rw [he] at i1; omega
        · have he : w2.o.slices = w.o.slices ∪ T := hT.eq
          have hc : T.card ≤ w.o.maxNew := hT.card
          rw [he] at i1
          have hsub : w'.o.slices \ w.o.slices ⊆ T ∪ (w'.o.slices \ (w.o.slices ∪ T)) := by
            intro y hy
            rw [Finset.mem_sdiff] at hy
            rw [Finset.mem_union, Finset.mem_sdiff, Finset.mem_union]
            by_cases hyT : y ∈ T
            · exact Or.inl hyT
            · exact Or.inr ⟨hy.1, by rintro (h | h); exacts [hy.2 h, hyT h]⟩
          have := (Finset.card_le_card hsub).trans (Finset.card_union_le _ _)
          omega
      · intro p hp hpK
        simp only [Ctx.poss, List.mem_cons, List.mem_append, not_or] at hpK
        rw [i2 p hpK.1 hpK.2.2]
        exact q3 p hp
      · intro z hz hz0
        by_cases hz2 : z ∈ w2.o.slices
        · rcases q4 with q4 | ⟨T, hT⟩
          · have he : w2.o.slices = w.o.slices := q4
            rw [he] at hz2; exact absurd hz2 hz0
          · have he : w2.o.slices = w.o.slices ∪ T := hT.eq
            rw [he] at hz2
            have hzT : z ∈ T := by
              rcases Finset.mem_union.1 hz2 with h | h
              · exact absurd h hz0
              · exact h
            refine ⟨w.posB, hBs, ?_, ?_⟩
            · rw [i2 _ hBA.1 hBA.2]
              exact (Finset.mem_sdiff.1 (hT.new hzT)).1
            · rw [i2 _ hBA.1 hBA.2]
              exact not_le.1 hT.wide
        · obtain ⟨p, hp, hp1, hp2⟩ := i3 z hz hz2
          refine ⟨p, hp, hp1, lt_of_lt_of_le hp2 (hw.mono (Finset.sdiff_subset_sdiff (Finset.Subset.refl _) ?_))⟩
          rcases q4 with q4 | ⟨T, hT⟩
          · have he : w2.o.slices = w.o.slices := q4
            rw [he]
          · have he : w2.o.slices = w.o.slices ∪ T := hT.eq
            rw [he]; exact Finset.subset_union_left

end TNCO
