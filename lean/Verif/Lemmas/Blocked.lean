import Verif.Lemmas.Roomy
import Verif.Lemmas.AnnealNet

/-! Trees that the finite-width search cannot leave. -/

namespace TNCO
open PTree

variable {σ P R W : Type}

theorem exchanges_plug : ∀ (K : Ctx) {s : PTree} {X : Finset ℕ}, X ∈ s.exchanges → X ∈ (K.plug s).exchanges
  | .top, _, _, h => h
  | .frame o A c K, s, X, h => by
    refine exchanges_plug K ?_
    cases o <;> simp [fork, exchanges, h]

theorem exchanges_fork (K : Ctx) (o o' : Bool) (A B : ℕ) (d e c : PTree) :
    d.leaves.toFinset ∪ c.leaves.toFinset ∈ (K.plug (fork o A (fork o' B d e) c)).exchanges := by
  refine exchanges_plug K ?_
  cases o <;> cases o' <;> simp [fork, exchanges, under]

section
variable [AddCommGroup R] [LinearOrder R] [LinearOrder P] [AddCommGroup W] [LinearOrder W]

/-- The new tensor of a move. -/
theorem newB_kept {m : CostModel R} {out : ISet} {w : Walk σ R} {K : Ctx} {o o' : Bool} {A B : ℕ} {d e c : PTree}
    (h : WInv m (some out) false w (.frame o A c K) (fork o' B d e)) :
    w.newB A c.root d.root = keptOf w.o.ctree.inds out w.o.ctree.tree.nLeaves (d.leaves.toFinset ∪ c.leaves.toFinset) := by
  have hroot : B = w.posB := by have := h.root; rwa [root_fork] at this
  obtain ⟨s', hw, -, hst, -⟩ := body_inv (⟨fun s => (0, s), fun _ => (0, w.o.prng)⟩ : Prng σ ℕ) m (fun _ _ => 0) h (by simp)
  have he : Walk.body (⟨fun s => (0, s), fun _ => (0, w.o.prng)⟩ : Prng σ ℕ) m (fun _ _ => 0) w A c.root d.root e.root =
      Walk.accept m w w.o.prng A c.root d.root e.root := rfl
  rw [he] at hw hst
  have hwf : WellFormed (Walk.accept m w w.o.prng A c.root d.root e.root).o.ctree.tree (K.plug (fork o A (fork o' B d c) e)) :=
    wellFormed_swap h.wf
  have hex : IndsExact (Walk.accept m w w.o.prng A c.root d.root e.root).o.ctree.inds out (K.plug s') := indsExact_iff.2 (hw.sem out rfl)
  rw [hw.wf.tree_eq hwf] at hex
  have := (inds_kept (c0 := w.o.ctree) (K := .frame o A e K) (s := fork o' B d c) hwf hst.size (fun p hp => hst.leafInds p hp) hex).1
  rw [root_fork, hroot, Walk.accept_eq] at this
  simp only [Function.update_self] at this
  rw [this]
  congr 1
  ext x
  cases o' <;> simp [fork, leaves, or_comm]

variable [IsOrderedAddMonoid W]

/-- The walk at a tree that is blocked. -/
theorem frun_blocked (g : FwPrng σ P) (m : CostModel R) (wm : WidthModel W) (prob : R → R → P) {out : ISet} {c0 : CTree} {t : PTree} {S : ISet}
    (hwf : WellFormed c0.tree t) (hb : Blocked wm c0.inds out c0.tree.nLeaves S t) :
    ∀ (K : Ctx) (w : FwWalk σ R W) (s : PTree) (fuel : ℕ), FBase m wm (some out) false w K s → (∃ o l r, s = fork o w.posB l r) → K.depth < fuel →
      w.o.inf.ctree = c0 → w.o.slices = S → w.o.maxNew = 0 →
      ∃ w', FwWalk.run g m wm prob fuel w = .ok w' ∧ w'.o.inf.ctree = c0 ∧ w'.o.slices = S ∧ w'.o.maxNew = 0 := by
  intro K
  induction K with
  | top =>
    rintro w s fuel h - hf hc hs h0
    obtain ⟨f, rfl⟩ : ∃ f, fuel = f + 1 := ⟨fuel - 1, by omega⟩
    have hnn : getCtreeNN g.toPrng w.o.inf.ctree w.o.inf.disableShared w.o.inf.prng w.posB = (none, w.o.inf.prng) := by
      have hr : s.root = w.posB := h.inv.root
      rw [← hr]; exact getCtreeNN_top g.toPrng _ _ h.inv.wf
    exact ⟨w, by simp only [FwWalk.run, hnn], hc, hs, h0⟩
  | frame o A c K ih =>
    rintro w s fuel h ⟨o1, x, y, rfl⟩ hf hc hs h0
    obtain ⟨f, rfl⟩ : ∃ f, fuel = f + 1 := ⟨fuel - 1, by simp only [Ctx.depth] at hf; omega⟩
    obtain ⟨o', d, e, s', hnn, hfork, -⟩ := getCtreeNN_frame g.toPrng (c := w.o.inf.ctree) w.o.inf.disableShared w.o.inf.prng h.inv.wf
    set w1 : FwWalk σ R W := { w with o := { w.o with inf := { w.o.inf with prng := s' } } } with hw1
    have hi := h.inv
    have h1 : FBase m wm (some out) false w1 (.frame o A c K) (fork o' w.posB d e) := by
      rw [← hfork]
      exact ⟨⟨hi.wf, hi.root, hi.nodes, hi.leaf, hi.part, hi.tail, hi.total, hi.sem, hi.shr, hi.dis⟩, h.width, h.skip⟩
    have hk := newB_kept h1.inv
    have hc1 : w1.o.inf.ctree = c0 := hc
    have ht : t = K.plug (fork o A (fork o' w.posB d e) c) := by
      refine hwf.tree_eq ?_
      have := h1.inv.wf
      rw [← hc1]; exact this
    have hlt : wm.maxWidth < wm.width (((w.o.inf.ctree.inds d.root).xor (w.o.inf.ctree.inds c.root) ∪ w.o.inf.hyper A ∪ w.o.inf.hyper w.posB) \ S) := by
      have e1 : (w.o.inf.ctree.inds d.root).xor (w.o.inf.ctree.inds c.root) ∪ w.o.inf.hyper A ∪ w.o.inf.hyper w.posB = _ := hk
      rw [e1]
      have hct : (⟨w1.o.inf, w1.posB, w1.total⟩ : Walk σ R).o.ctree = c0 := hc1
      rw [hct]
      exact hb _ (by rw [ht]; exact exchanges_fork K o o' A w.posB d e c)
    have hbody : ∃ w2, FwWalk.body g m wm prob w1 A c.root d.root e.root = .ok w2 ∧ w2.o.inf.ctree = c0 ∧ w2.o.slices = S ∧ w2.o.maxNew = 0 := by
      unfold FwWalk.body
      dsimp only
      have hn : ¬ wm.width (((w1.o.inf.ctree.inds d.root).xor (w1.o.inf.ctree.inds c.root) ∪ w1.o.inf.hyper A ∪ w1.o.inf.hyper w1.posB) \ w1.o.slices) ≤ wm.maxWidth := by
        have e2 : w1.o.slices = S := hs
        rw [e2]; exact not_le.2 hlt
      have h0' : ¬ 0 < w1.o.maxNew := by
        have e2 : w1.o.maxNew = 0 := h0
        omega
      rw [if_neg hn, if_neg h0']
      exact ⟨_, rfl, hc, hs, h0⟩
    obtain ⟨w2, hb2, hc2, hs2, h02⟩ := hbody
    rcases fbody g m wm prob h1 (by simp) with ⟨hb', -⟩ | ⟨w2', s2, hb', hst, ⟨o2, l2, r2, hf2⟩, hp2⟩
    · rw [hb2] at hb'; cases hb'
    · rw [hb2] at hb'; cases hb'
      obtain ⟨w3, hr, h3⟩ := ih w2 s2 f hst.base ⟨o2, l2, r2, by rw [hp2]; exact hf2⟩ (by simp only [Ctx.depth] at hf; omega) hc2 hs2 h02
      refine ⟨w3, ?_, h3⟩
      simp only [FwWalk.run, hnn]
      rw [← hw1, hb2]
      exact hr

/-- One update at a tree that is blocked. -/
theorem fupdate_blocked (g : FwPrng σ P) (m : CostModel R) {wm : WidthModel W} (prob : R → R → P) (us : Bool) {out : ISet} {c0 : CTree} {t : PTree}
    (hwf : WellFormed c0.tree t) {o : FwOpt σ R W} (hb : Blocked wm c0.inds out c0.tree.nLeaves o.slices t)
    {s : PTree} (h : FInv m wm (some out) false o s) (hc : o.inf.ctree = c0) (h0 : o.maxNew = 0) (hus : o.slices = ∅ ∨ us = false) :
    ∃ o', o.update g m wm prob us = .ok o' ∧ o'.inf.ctree = c0 ∧ o'.slices = o.slices ∧ o'.maxNew = 0 := by
  unfold FwOpt.update
  dsimp only
  have hi : OInv (m.sliced o.slices) (some out) false o.inf s := h.inv
  split
  · exact ⟨_, rfl, hc, rfl, h0⟩
  · next B hB =>
    obtain ⟨K, s', hW, hf, hd⟩ := walk_start hi (g.next o.inf.prng).1 (g.next o.inf.prng).2 hB
    obtain ⟨w', hr, h1, h2, h3⟩ := frun_blocked g m wm prob hwf hb K ⟨{ o with inf := { o.inf with prng := (g.next o.inf.prng).2 } }, B, o.inf.totalCost⟩
      s' o.inf.ctree.tree.size ⟨hW, h.width, h.skip⟩ hf hd hc rfl h0
    have hr2 : FwWalk.run g m wm prob o.inf.ctree.tree.size ⟨{ o with inf := { o.inf with prng := (g.next o.inf.prng).2 } }, B,
        InfOpt.totalCost { o.inf with prng := (g.next o.inf.prng).2 }⟩ = .ok w' := hr
    rw [hr2]
    have hsl : w'.o.updateSlices g m wm us = .ok w'.o := by
      unfold FwOpt.updateSlices
      rw [if_neg]
      rw [h2]
      rcases hus with hu | hu <;> simp [hu]
    dsimp only
    rw [hsl]
    refine ⟨_, rfl, ?_⟩
    unfold FwOpt.updateMin
    split
    · exact ⟨h1, h2, h3⟩
    · exact ⟨h1, h2, h3⟩

/-- A history of updates at a tree that is blocked. -/
theorem frun_history_blocked (g : FwPrng σ P) (m : CostModel R) {wm : WidthModel W} (hw : wm.Lawful) {out : ISet} {c0 : CTree} {t : PTree}
    (hwf : WellFormed c0.tree t) (ps : List ((R → R → P) × Bool)) : ∀ {o : FwOpt σ R W}, Blocked wm c0.inds out c0.tree.nLeaves o.slices t →
    ∀ {s : PTree}, FInv m wm (some out) false o s → o.inf.ctree = c0 → o.maxNew = 0 → (o.slices = ∅ ∨ ∀ p ∈ ps, p.2 = false) →
    ∃ o', o.run g m wm ps = .ok o' ∧ o'.inf.ctree = c0 ∧ o'.slices = o.slices := by
  induction ps with
  | nil => intro o _ s _ hc _ _; exact ⟨o, rfl, hc, rfl⟩
  | cons p ps ih =>
    obtain ⟨prob, us⟩ := p
    intro o hb s h hc h0 hus
    obtain ⟨o1, h1, h2, h3, h4⟩ := fupdate_blocked g m prob us hwf hb h hc h0 (hus.imp id fun hh => hh (prob, us) (by simp))
    rcases fupdate g m hw prob us (by simp) h with ⟨h1', -⟩ | ⟨o1', t1, h1', hi1, -⟩
    · rw [h1] at h1'; cases h1'
    · rw [h1] at h1'; cases h1'
      obtain ⟨o2, h5, h6, h7⟩ := ih (by rw [h3]; exact hb) hi1 h2 h4 (by
        rw [h3]; exact hus.imp id fun hh q hq => hh q (by simp [hq]))
      exact ⟨o2, by simp only [FwOpt.run, h1, h5], h6, h7.trans h3⟩

end
end TNCO
