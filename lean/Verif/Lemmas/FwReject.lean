import Verif.Lemmas.FiniteWidth

/-! Rejected moves leave the finite-width optimizer unchanged. -/

namespace TNCO
open PTree

variable {σ P R W : Type} [AddCommGroup R] [LinearOrder R] [LinearOrder P] [AddCommGroup W] [LinearOrder W]

/-- Everything except the generator and the stored costs is the same. -/
structure FSame (o o' : FwOpt σ R W) : Prop where
  ctree : o'.inf.ctree = o.inf.ctree
  hyper : o'.inf.hyper = o.inf.hyper
  width : o'.width = o.width
  slices : o'.slices = o.slices

theorem fbody_reject (g : FwPrng σ P) (m : CostModel R) (wm : WidthModel W) (prob : R → R → P)
    (hrej : ∀ s x y, prob x y < (g.uniform s).1)
    {w w' : FwWalk σ R W} {K : Ctx} {o o' : Bool} {A B : ℕ} {d e c : PTree}
    (hwf : WellFormed w.o.inf.ctree.tree ((Ctx.frame o A c K).plug (fork o' B d e)))
    (hb : FwWalk.body g m wm prob w A c.root d.root e.root = .ok w') :
    FSame w.o w'.o ∧ w'.total = w.total := by
  unfold FwWalk.body at hb
  simp only at hb
  split at hb
  · rw [if_neg (not_le.2 (hrej _ _ _))] at hb
    cases hb
    exact ⟨⟨rfl, rfl, rfl, rfl⟩, rfl⟩
  · split at hb
    · split at hb
      · cases hb
      · split at hb
        · split at hb
          · cases hb
          · rw [if_neg (not_le.2 (hrej _ _ _))] at hb
            cases hb
            refine ⟨⟨?_, rfl, rfl, rfl⟩, rfl⟩
            simp only
            rw [swap_back hwf]
            simp
        · cases hb
          exact ⟨⟨rfl, rfl, rfl, rfl⟩, rfl⟩
    · cases hb
      exact ⟨⟨rfl, rfl, rfl, rfl⟩, rfl⟩

theorem frun_reject (g : FwPrng σ P) (m : CostModel R) (wm : WidthModel W) (prob : R → R → P)
    (hrej : ∀ s x y, prob x y < (g.uniform s).1) [IsOrderedAddMonoid W] :
    ∀ (K : Ctx) (w w' : FwWalk σ R W) (s : PTree) (fuel : ℕ), FBase m wm none false w K s →
      (∃ o l r, s = fork o w.posB l r) → FwWalk.run g m wm prob fuel w = .ok w' →
      FSame w.o w'.o ∧ w'.total = w.total := by
  intro K
  induction K with
  | top =>
    rintro w w' s fuel h - hr
    cases fuel with
    | zero => simp [FwWalk.run] at hr
    | succ f =>
      have hnn : getCtreeNN g.toPrng w.o.inf.ctree w.o.inf.disableShared w.o.inf.prng w.posB =
          (none, w.o.inf.prng) := by
        have hr : s.root = w.posB := h.inv.root
        rw [← hr]; exact getCtreeNN_top g.toPrng _ _ h.inv.wf
      simp only [FwWalk.run, hnn] at hr
      cases hr
      exact ⟨⟨rfl, rfl, rfl, rfl⟩, rfl⟩
  | frame o A c K ih =>
    rintro w w' s fuel h ⟨o1, x, y, rfl⟩ hr
    cases fuel with
    | zero => simp [FwWalk.run] at hr
    | succ f =>
      obtain ⟨o', d, e, s', hnn, hfork, hint⟩ :=
        getCtreeNN_frame g.toPrng (c := w.o.inf.ctree) w.o.inf.disableShared w.o.inf.prng h.inv.wf
      simp only [FwWalk.run, hnn] at hr
      have hi := h.inv
      set w1 : FwWalk σ R W := { w with o := { w.o with inf := { w.o.inf with prng := s' } } } with hw1
      have h1 : FBase m wm none false w1 (.frame o A c K) (fork o' w.posB d e) := by
        rw [← hfork]
        exact ⟨⟨hi.wf, hi.root, hi.nodes, hi.leaf, hi.part, hi.tail, hi.total, hi.sem, hi.shr, hi.dis⟩,
          h.width, h.skip⟩
      split at hr
      · cases hr
      · next w2 hb =>
        obtain ⟨a1, a2⟩ := fbody_reject (w := w1) g m wm prob hrej h1.inv.wf hb
        rcases fbody g m wm prob h1 (by simp) with ⟨hb', -⟩ | ⟨w3, s3, hb', hs3, ⟨o3, l3, r3, hf3⟩, hp3⟩
        · rw [hb] at hb'; cases hb'
        · rw [hb] at hb'; cases hb'
          obtain ⟨b1, b2⟩ := ih w2 w' s3 f hs3.base ⟨o3, l3, r3, by rw [hp3]; exact hf3⟩ hr
          exact ⟨⟨b1.ctree.trans a1.ctree, b1.hyper.trans a1.hyper, b1.width.trans a1.width,
            b1.slices.trans a1.slices⟩, b2.trans a2⟩

end TNCO
