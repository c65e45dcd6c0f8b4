import Verif.Lemmas.Slices
import Verif.Props.Tree

/-! Invariant of the finite-width optimizer. -/

namespace TNCO
open PTree

section
variable {σ R : Type} [Zero R] [Add R] [Sub R] [LT R] [DecidableLT R]

/-- State of the walk after an accepted move. -/
def Walk.accept (m : CostModel R) (w : Walk σ R) (s : σ) (posA posC posD posE : ℕ) : Walk σ R :=
  Walk.body (⟨fun s => (0, s), fun _ => (0, s)⟩ : Prng σ ℕ) m (fun _ _ => 0) w posA posC posD posE

/-- State of the walk after a rejected move. -/
def Walk.reject (m : CostModel R) (w : Walk σ R) (s : σ) (posA posC posD posE : ℕ) : Walk σ R :=
  Walk.body (⟨fun s => (0, s), fun _ => (1, s)⟩ : Prng σ ℕ) m (fun _ _ => 0) w posA posC posD posE

theorem Walk.reject_eq (m : CostModel R) (w : Walk σ R) (s : σ) (posA posC posD posE : ℕ) :
    Walk.reject m w s posA posC posD posE =
      ⟨{ w.o with prng := s, cost := propagate w.o.cost posA w.posB posC posD posE }, posA, w.total⟩ := by
  unfold Walk.reject Walk.body
  simp only
  rw [if_neg (by decide)]
  rfl

/-- New indices of the lower tensor of a move. -/
def Walk.newB (w : Walk σ R) (posA posC posD : ℕ) : ISet :=
  (w.o.ctree.inds posD).xor (w.o.ctree.inds posC) ∪ w.o.hyper posA ∪ w.o.hyper w.posB

theorem Walk.accept_eq (m : CostModel R) (w : Walk σ R) (s : σ) (posA posC posD posE : ℕ) :
    Walk.accept m w s posA posC posD posE =
      (let newB := w.newB posA posC posD
       let cA := m.contractionCost (w.o.ctree.inds posA) newB (w.o.ctree.inds posE)
       let cB := m.contractionCost newB (w.o.ctree.inds posD) (w.o.ctree.inds posC)
       ⟨{ w.o with
          prng := s
          ctree := { w.o.ctree with
            tree := w.o.ctree.tree.swapWithNN posE
            inds := Function.update w.o.ctree.inds w.posB newB }
          hyper := Function.update (Function.update w.o.hyper posA (w.o.ctree.inds posA ∩ newB ∩ w.o.ctree.inds posE))
            w.posB (newB ∩ w.o.ctree.inds posD ∩ w.o.ctree.inds posC)
          cost := propagate ⟨w.o.cost.partialCost, Function.update (Function.update w.o.cost.contractionCost
            w.posB cB) posA cA⟩ posA w.posB posE posD posC }, posA,
        w.total + ((cB - w.o.cost.contractionCost w.posB) + (cA - w.o.cost.contractionCost posA))⟩) := by
  unfold Walk.accept Walk.body
  simp only
  rw [if_pos (le_refl _)]
  rfl

end

variable {σ P R W : Type} [AddCommGroup R] [LinearOrder R] [LinearOrder P] [AddCommGroup W] [LinearOrder W]

/-- Replace the costs by freshly computed ones. -/
theorem WInv.recache {m m' : CostModel R} {out? : Option ISet} {sh : Bool} {w : Walk σ R} {K : Ctx} {s : PTree}
    (h : WInv m out? sh w K s) (pr : σ) :
    ∃ k, CostCache.make w.o.ctree.fuel m' w.o.ctree = some k ∧
      WInv m' out? sh ⟨{ w.o with prng := pr, cost := k }, w.posB, k.partialCost (w.o.ctree.tree.size - 1)⟩ K s := by
  have hn := h.nodes
  unfold NodeInv at hn
  rw [PTree.all_and, PTree.all_and] at hn
  obtain ⟨k, hk, k1, k2, k3⟩ := costCache_make (m := m') h.wf hn.1 (fuel := w.o.ctree.fuel) (le_refl _)
  refine ⟨k, hk, h.wf, h.root, ?_, ?_, ?_, ?_, ?_, h.sem, h.shr, h.dis⟩
  · unfold NodeInv
    rw [PTree.all_and, PTree.all_and]
    exact ⟨hn.1, hn.2.1, k2⟩
  · exact fun p hp => ⟨(h.leaf p hp).1, (k1 p hp).2, (k1 p hp).1⟩
  · rw [Ctx.all_plug] at k3; exact k3.2
  · rw [Ctx.all_plug] at k3
    exact Ctx.tail_of_all (fun _ _ _ _ _ _ hh => hh) k3.1
  · simp only
    rw [← h.wf.root]
    exact part_sum k3 fun p hp => ⟨(k1 p hp).2, (k1 p hp).1⟩

/-- Swapping back. -/
theorem swap_back {T : Tree} {K : Ctx} {o o' : Bool} {A B : ℕ} {d e c : PTree}
    (hwf : WellFormed T ((Ctx.frame o A c K).plug (fork o' B d e))) :
    (T.swapWithNN e.root).swapWithNN c.root = T := by
  have henc := hwf.enc
  have hp := rot_perm K o o' A B d e c
  have hd : RotDistinct K A B d e c := ⟨hp.nodup_iff.1 hwf.nodup⟩
  have h5 := hd.five
  simp only [List.nodup_cons, List.mem_cons, not_or, List.not_mem_nil,
    not_false_eq_true, List.nodup_nil, and_true] at h5
  obtain ⟨⟨hAB, hAC, hAD, hAE⟩, ⟨hBC, hBD, hBE⟩, ⟨hCD, hCE⟩, hDE⟩ := h5
  simp only [Ctx.plug] at henc
  rw [Ctx.encodes_plug, encodes_fork, encodes_fork] at henc
  simp only [root_fork] at henc
  obtain ⟨-, hNA, ⟨hNB, hd', he⟩, hc⟩ := henc
  refine C06_swap_undo T ⟨_, hwf⟩ e.root B A c.root ?_ ?_ ?_ ?_ ?_
  · apply (hwf.mem _).1
    simp only [Ctx.plug]
    rw [((hp.mem_iff) : _ ↔ _)]
    simp only [List.mem_cons, List.mem_append]
    have := e.root_mem
    tauto
  · exact encodes_root_parent he
  · rw [hNB]; cases o' <;> simp [mkNode]
  · unfold Tree.IsChild; rw [hNA]; cases o <;> simp [mkNode]
  · exact fun h => hBC h.symm

/-- Invariant of the walk, without the width limit. -/
structure FBase (m : CostModel R) (wm : WidthModel W) (out? : Option ISet) (sh : Bool) (w : FwWalk σ R W)
    (K : Ctx) (s : PTree) : Prop where
  inv : WInv (m.sliced w.o.slices) out? sh ⟨w.o.inf, w.posB, w.total⟩ K s
  width : ∀ p, w.o.width p = wm.width (w.o.inf.ctree.inds p)
  skip : ∀ k, w.o.skip = some k → Disjoint w.o.slices k

/-- The width limit. -/
def FFit (wm : WidthModel W) (o : FwOpt σ R W) : Prop :=
  ∀ p < o.inf.ctree.tree.size, wm.width (o.inf.ctree.inds p \ o.slices) ≤ wm.maxWidth

/-- Conditions under which the loop adding slices cannot run out of indices. -/
def NoCrash (wm : WidthModel W) (o : FwOpt σ R W) : Prop :=
  o.maxNew = 0 ∨ (o.skip = none ∧ 0 ≤ wm.maxWidth ∧ ∀ xs : ISet, wm.width xs ≤ ∑ x ∈ xs, wm.log2d x) ∨
  ∃ k, o.skip = some k ∧ wm.width k ≤ wm.maxWidth ∧ ∀ xs : ISet, wm.width xs ≤ wm.width k + ∑ x ∈ xs \ k, wm.log2d x

/-- What the walk never changes. -/
structure FStatic (o o' : FwOpt σ R W) : Prop where
  inf : Static o.inf o'.inf
  skip : o'.skip = o.skip
  maxNew : o'.maxNew = o.maxNew

omit [AddCommGroup R] [LinearOrder R] [AddCommGroup W] [LinearOrder W] in
theorem FStatic.trans {o o' o'' : FwOpt σ R W} (h : FStatic o o') (h' : FStatic o' o'') : FStatic o o'' :=
  ⟨h.inf.trans h'.inf, h'.skip.trans h.skip, h'.maxNew.trans h.maxNew⟩

omit [AddCommGroup R] [LinearOrder R] [AddCommGroup W] [LinearOrder W] in
theorem FStatic.rfl' (o : FwOpt σ R W) : FStatic o o := ⟨Static.rfl' _, rfl, rfl⟩

/-- Outcome of one iteration (or of the whole walk). -/
structure FStep (m : CostModel R) (wm : WidthModel W) (out? : Option ISet) (sh : Bool) (w w' : FwWalk σ R W)
    (K : Ctx) (s : PTree) : Prop where
  base : FBase m wm out? sh w' K s
  stat : FStatic w.o w'.o
  minC : w'.o.inf.minCtree = w.o.inf.minCtree
  minT : w'.o.inf.minTotal = w.o.inf.minTotal
  minS : w'.o.minSlices = w.o.minSlices
  fit : (wm.LogExact (w.o.skip.getD ∅) ∨ w.o.maxNew = 0) → wm.Lawful → FFit wm w.o → FFit wm w'.o

omit [AddCommGroup R] [LinearOrder R] in
theorem fit_update {wm : WidthModel W} (hw : wm.Lawful) {T T' : Tree} {inds : ℕ → ISet} {S S' B : ISet} {b : ℕ}
    (hs : T'.size = T.size) (hSS : S ⊆ S') (hB : wm.width (B \ S') ≤ wm.maxWidth)
    (h : ∀ p < T.size, wm.width (inds p \ S) ≤ wm.maxWidth) :
    ∀ p < T'.size, wm.width (Function.update inds b B p \ S') ≤ wm.maxWidth := by
  intro p hp
  by_cases hpb : p = b
  · subst hpb; simpa using hB
  · rw [Function.update_of_ne hpb]
    exact (hw.mono (Finset.sdiff_subset_sdiff (Finset.Subset.refl _) hSS)).trans (h p (by omega))

theorem fbody (g : FwPrng σ P) (m : CostModel R) (wm : WidthModel W) (prob : R → R → P) {out? : Option ISet}
    {sh : Bool} [IsOrderedAddMonoid W]
    {w : FwWalk σ R W} {K : Ctx} {o o' : Bool} {A B : ℕ} {d e c : PTree}
    (h : FBase m wm out? sh w (.frame o A c K) (fork o' B d e))
    (hsh : sh = true → out?.isSome = true ∧ (w.o.inf.ctree.inds d.root ∩ w.o.inf.ctree.inds c.root).Nonempty) :
    (FwWalk.body g m wm prob w A c.root d.root e.root = .error .divByZero ∧ ¬ NoCrash wm w.o) ∨
    ∃ w' s', FwWalk.body g m wm prob w A c.root d.root e.root = .ok w' ∧
      FStep m wm out? sh w w' K s' ∧ (∃ o'' l r, s' = fork o'' A l r) ∧ w'.posB = A := by
  set iw : Walk σ R := ⟨w.o.inf, w.posB, w.total⟩ with hiw
  have hacc : ∀ pr, ∃ s', WInv (m.sliced w.o.slices) out? sh
      (Walk.accept (m.sliced w.o.slices) iw pr A c.root d.root e.root) K s' ∧ (∃ o'' l r, s' = fork o'' A l r) ∧
      Static w.o.inf (Walk.accept (m.sliced w.o.slices) iw pr A c.root d.root e.root).o := by
    intro pr
    obtain ⟨s', h1, h2, h3, -⟩ := body_inv (⟨fun s => (0, s), fun _ => (0, pr)⟩ : Prng σ ℕ)
      (m.sliced w.o.slices) (fun _ _ => 0) h.inv hsh
    exact ⟨s', h1, h2, h3⟩
  have hrej : ∀ pr, ∃ s', WInv (m.sliced w.o.slices) out? sh
      (Walk.reject (m.sliced w.o.slices) iw pr A c.root d.root e.root) K s' ∧ (∃ o'' l r, s' = fork o'' A l r) ∧
      Static w.o.inf (Walk.reject (m.sliced w.o.slices) iw pr A c.root d.root e.root).o := by
    intro pr
    obtain ⟨s', h1, h2, h3, -⟩ := body_inv (⟨fun s => (0, s), fun _ => (1, pr)⟩ : Prng σ ℕ)
      (m.sliced w.o.slices) (fun _ _ => 0) h.inv hsh
    exact ⟨s', h1, h2, h3⟩
  -- a rejected move
  have hR : ∀ pr, ∃ s', FStep m wm out? sh w ⟨{ w.o with inf := { w.o.inf with
      prng := pr, cost := propagate w.o.inf.cost A w.posB c.root d.root e.root } }, A, w.total⟩ K s' ∧
      (∃ o'' l r, s' = fork o'' A l r) := by
    intro pr
    obtain ⟨s', h1, h2, h3⟩ := hrej pr
    rw [Walk.reject_eq] at h1 h3
    exact ⟨s', ⟨⟨h1, h.width, h.skip⟩, ⟨h3, rfl, rfl⟩, rfl, rfl, rfl, fun _ _ hf => hf⟩, h2⟩
  have hsize : ∀ E, (w.o.inf.ctree.tree.swapWithNN E).size = w.o.inf.ctree.tree.size := fun E =>
    (C06_swap_keeps_tree _ ⟨_, h.inv.wf⟩ E).2
  set newB := iw.newB A c.root d.root with hnewB
  have hnB : (w.o.inf.ctree.inds d.root).xor (w.o.inf.ctree.inds c.root) ∪ w.o.inf.hyper A ∪
      w.o.inf.hyper w.posB = newB := rfl
  unfold FwWalk.body
  simp only [hnB]
  split
  · next hfits =>
    right
    split
    · next hu =>
      obtain ⟨s', h1, h2, h3⟩ := hacc (g.uniform w.o.inf.prng).2
      rw [Walk.accept_eq] at h1 h3
      refine ⟨_, s', rfl, ⟨⟨h1, ?_, h.skip⟩, ⟨h3, rfl, rfl⟩, rfl, rfl, rfl, ?_⟩, h2, rfl⟩
      · intro p
        simp only
        by_cases hp : p = w.posB
        · subst hp; simp
        · rw [Function.update_of_ne hp, Function.update_of_ne hp]; exact h.width p
      · intro _ hw hf
        exact fit_update hw (hsize _) (Finset.Subset.refl _) hfits hf
    · obtain ⟨s', h1, h2⟩ := hR (g.uniform w.o.inf.prng).2
      exact ⟨_, s', rfl, h1, h2, rfl⟩
  · next hbig =>
    split
    · next hmax =>
      have hnd := ISet.positions_nodup ((newB \ w.o.slices).minus? w.o.skip)
      have hfs : ((newB \ w.o.slices).minus? w.o.skip).positions.toFinset =
          (newB \ w.o.slices).minus? w.o.skip := by ext y; simp [ISet.mem_positions]
      rcases newSliceLoop_spec g wm w.o.maxNew _ w.o.slices (wm.width (newB \ w.o.slices)) w.o.inf.prng hnd with
        ⟨h1, h2, -⟩ | ⟨T, s1, hT, hcard, hok⟩
      · left
        rw [h1]
        refine ⟨rfl, ?_⟩
        rintro (hc | ⟨hc1, hc2, hc3⟩ | ⟨k, hc1, hc2, hc3⟩)
        · omega
        · rw [hfs, hc1] at h2
          simp only [ISet.minus?] at h2
          have := hc3 (newB \ w.o.slices)
          exact absurd (lt_of_le_of_lt hc2 h2) (not_lt.2 (sub_nonpos.2 this))
        · rw [hfs, hc1] at h2
          simp only [ISet.minus?] at h2
          have := hc3 (newB \ w.o.slices)
          exact absurd (lt_of_le_of_lt hc2 h2) (not_lt.2 (sub_le_iff_le_add.2 this))
      · right
        rw [hok]
        simp only
        rw [hfs] at hT
        have hT1 : T ⊆ newB \ w.o.slices := hT.trans (ISet.minus?_subset _ _)
        split
        · next hfits =>
          set c' : CTree := { w.o.inf.ctree with tree := w.o.inf.ctree.tree.swapWithNN e.root, inds := Function.update w.o.inf.ctree.inds w.posB newB } with hc'
          obtain ⟨s', h1, h2, h3⟩ := hacc (g.uniform s1).2
          rw [Walk.accept_eq] at h1 h3
          obtain ⟨k, hk, hk'⟩ := WInv.recache (m' := m.sliced (w.o.slices ∪ T)) h1 (g.uniform s1).2
          have hk2 : CostCache.make c'.fuel (m.sliced (w.o.slices ∪ T)) c' = some k := hk
          rw [hk2]
          simp only
          split
          · refine ⟨_, s', rfl, ⟨⟨hk', ?_, ?_⟩, ⟨⟨h3.size, h3.nInds, h3.dims, h3.disable, h3.leafInds,
              h3.rootInds⟩, rfl, rfl⟩, rfl, rfl, rfl, ?_⟩, h2, rfl⟩
            · intro p
              simp only [hc']
              by_cases hp : p = w.posB
              · subst hp; simp
              · rw [Function.update_of_ne hp, Function.update_of_ne hp]; exact h.width p
            · intro k hk
              simp only at hk
              simp only
              rw [Finset.disjoint_union_left]
              refine ⟨h.skip k hk, ?_⟩
              rw [hk] at hT
              exact Finset.disjoint_of_subset_left hT Finset.sdiff_disjoint
            · intro hcase hw hf
              rcases hcase with hlog | hz
              · refine fit_update hw (hsize _) Finset.subset_union_left ?_ hf
                have e1 : newB \ (w.o.slices ∪ T) = (newB \ w.o.slices) \ T := by
                  ext y; simp only [Finset.mem_sdiff, Finset.mem_union]; tauto
                have hTk : Disjoint T (w.o.skip.getD ∅) := by
                  cases hk : w.o.skip with
                  | none => simp
                  | some k =>
                    rw [hk] at hT
                    exact Finset.disjoint_of_subset_left hT Finset.sdiff_disjoint
                rw [e1, width_logExact hlog _ _ hT1 hTk]
                exact hfits
              · omega
          · obtain ⟨s', h1, h2⟩ := hR (g.uniform s1).2
            have e1 : c'.tree.swapWithNN c.root = w.o.inf.ctree.tree := swap_back h.inv.wf
            have e2 : Function.update c'.inds w.posB (w.o.inf.ctree.inds w.posB) = w.o.inf.ctree.inds := by
              simp [hc']
            have e3 : ({ c' with tree := c'.tree.swapWithNN c.root, inds := Function.update c'.inds w.posB (w.o.inf.ctree.inds w.posB) } : CTree) = w.o.inf.ctree := by
              rw [e1, e2]
            refine ⟨_, s', rfl, ?_, h2, rfl⟩
            rw [e3]
            exact h1
        · obtain ⟨s', h1, h2⟩ := hR s1
          exact ⟨_, s', rfl, h1, h2, rfl⟩
    · obtain ⟨s', h1, h2⟩ := hR w.o.inf.prng
      exact Or.inr ⟨_, s', rfl, h1, h2, rfl⟩

/-- The walk stops at the root. -/
theorem frun (g : FwPrng σ P) (m : CostModel R) (wm : WidthModel W) (prob : R → R → P) {out? : Option ISet}
    {sh : Bool} [IsOrderedAddMonoid W] (hout : sh = true → out?.isSome = true) :
    ∀ (K : Ctx) (w : FwWalk σ R W) (s : PTree) (fuel : ℕ), FBase m wm out? sh w K s →
      (∃ o l r, s = fork o w.posB l r) → K.depth < fuel →
      (FwWalk.run g m wm prob fuel w = .error .divByZero ∧ ¬ NoCrash wm w.o) ∨
      ∃ w' s', FwWalk.run g m wm prob fuel w = .ok w' ∧ FStep m wm out? sh w w' .top s' := by
  intro K
  induction K with
  | top =>
    rintro w s fuel h - hf
    obtain ⟨f, rfl⟩ : ∃ f, fuel = f + 1 := ⟨fuel - 1, by omega⟩
    have hnn : getCtreeNN g.toPrng w.o.inf.ctree w.o.inf.disableShared w.o.inf.prng w.posB =
        (none, w.o.inf.prng) := by
      have hr : s.root = w.posB := h.inv.root
      rw [← hr]; exact getCtreeNN_top g.toPrng _ _ h.inv.wf
    exact Or.inr ⟨w, s, by simp only [FwWalk.run, hnn], h, FStatic.rfl' _, rfl, rfl, rfl, fun _ _ hf => hf⟩
  | frame o A c K ih =>
    rintro w s fuel h ⟨o1, x, y, rfl⟩ hf
    obtain ⟨f, rfl⟩ : ∃ f, fuel = f + 1 := ⟨fuel - 1, by simp only [Ctx.depth] at hf; omega⟩
    obtain ⟨o', d, e, s', hnn, hfork, hint⟩ :=
      getCtreeNN_frame g.toPrng (c := w.o.inf.ctree) w.o.inf.disableShared w.o.inf.prng h.inv.wf
    simp only [FwWalk.run, hnn]
    have hi := h.inv
    set w1 : FwWalk σ R W := { w with o := { w.o with inf := { w.o.inf with prng := s' } } } with hw1
    have h1 : FBase m wm out? sh w1 (.frame o A c K) (fork o' w.posB d e) := by
      rw [← hfork]
      exact ⟨⟨hi.wf, hi.root, hi.nodes, hi.leaf, hi.part, hi.tail, hi.total, hi.sem, hi.shr, hi.dis⟩,
        h.width, h.skip⟩
    have hsh : sh = true → out?.isSome = true ∧
        (w.o.inf.ctree.inds d.root ∩ w.o.inf.ctree.inds c.root).Nonempty := by
      intro hs
      refine ⟨hout hs, hint (hi.dis hs) ?_⟩
      have a1 := hi.shr hs
      have a2 := hi.nodes
      simp only [Ctx.plug] at a1 a2
      rw [Ctx.all_plug, all_fork_symm ShQ.symm] at a1
      rw [Ctx.all_plug, all_fork_symm NodeInv.symm, all_fork_symm NodeInv.symm] at a2
      simp only [root_fork] at a1 a2
      obtain ⟨z, hz⟩ := a1.2.1
      have hz' := Finset.mem_inter.1 hz
      have := a2.2.2.1.1.1.2 hz'.1
      rcases Finset.mem_union.1 this with h | h
      · exact Or.inl ⟨z, Finset.mem_inter.2 ⟨h, hz'.2⟩⟩
      · exact Or.inr ⟨z, Finset.mem_inter.2 ⟨h, hz'.2⟩⟩
    rcases fbody g m wm prob h1 hsh with ⟨hb, hn⟩ | ⟨w2, s2, hb, hs2, ⟨o2, l2, r2, hf2⟩, hp2⟩
    · left; rw [hb]; exact ⟨rfl, hn⟩
    · rw [hb]
      simp only
      have hst : FStatic w.o w2.o := ⟨⟨hs2.stat.inf.size, hs2.stat.inf.nInds, hs2.stat.inf.dims,
        hs2.stat.inf.disable, hs2.stat.inf.leafInds, hs2.stat.inf.rootInds⟩, hs2.stat.skip, hs2.stat.maxNew⟩
      rcases ih w2 s2 f hs2.base ⟨o2, l2, r2, by rw [hp2]; exact hf2⟩
        (by simp only [Ctx.depth] at hf; omega) with ⟨h3, hn⟩ | ⟨w3, s3, h3, hs3⟩
      · left
        refine ⟨h3, fun hc => hn ?_⟩
        unfold NoCrash at *
        rw [hst.maxNew, hst.skip]; exact hc
      · right
        refine ⟨w3, s3, h3, hs3.base, hst.trans hs3.stat, hs3.minC.trans hs2.minC, hs3.minT.trans hs2.minT,
          hs3.minS.trans hs2.minS, fun hc hw hfit => ?_⟩
        refine hs3.fit ?_ hw (hs2.fit hc hw hfit)
        rw [hst.maxNew, hst.skip]; exact hc

/-- Invariant between updates. -/
def FInv (m : CostModel R) (wm : WidthModel W) (out? : Option ISet) (sh : Bool) (o : FwOpt σ R W) (t : PTree) :
    Prop :=
  FBase m wm out? sh ⟨o, o.inf.ctree.tree.size - 1, o.inf.totalCost⟩ .top t

theorem finv_of_fbase {m : CostModel R} {wm : WidthModel W} {out? : Option ISet} {sh : Bool} {w : FwWalk σ R W}
    {t : PTree} (h : FBase m wm out? sh w .top t) : FInv m wm out? sh w.o t ∧ w.total = w.o.inf.totalCost := by
  obtain ⟨h1, h2⟩ := oinv_of_winv h.inv
  exact ⟨⟨h1, h.width, h.skip⟩, h2⟩

/-- Looking for better slices at the end of an update. -/
theorem updateSlices_inv (g : FwPrng σ P) (m : CostModel R) {wm : WidthModel W} (hw : wm.Lawful)
    {out? : Option ISet} {sh : Bool} {o : FwOpt σ R W} {t : PTree} (h : FInv m wm out? sh o t) (u : Bool) :
    ∃ o', o.updateSlices g m wm u = .ok o' ∧ FInv m wm out? sh o' t ∧ FStatic o o' ∧
      o'.inf.ctree = o.inf.ctree ∧
      o'.inf.minCtree = o.inf.minCtree ∧ o'.inf.minTotal = o.inf.minTotal ∧ o'.minSlices = o.minSlices ∧
      o'.inf.totalCost ≤ o.inf.totalCost ∧ (FFit wm o → FFit wm o') := by
  unfold FwOpt.updateSlices
  split
  · have hwf : WellFormed o.inf.ctree.tree t := h.inv.wf
    obtain ⟨S, s', hS, h1, h2, h3⟩ := getSlices_spec g hw (skip := o.skip) hwf (fun p _ => h.width p) o.inf.prng
    simp only [hS]
    have hi : OInv (m.sliced o.slices) out? sh o.inf t := h.inv
    obtain ⟨k, hk, hk'⟩ := WInv.recache (m' := m.sliced S) hi s'
    have hk2 : CostCache.make o.inf.ctree.fuel (m.sliced S) o.inf.ctree = some k := hk
    rw [hk2]
    simp only
    split
    · next hlt =>
      refine ⟨_, rfl, ⟨hk', h.width, h2⟩, ⟨⟨rfl, rfl, rfl, rfl, fun _ _ => rfl, rfl⟩, rfl, rfl⟩, rfl, rfl, rfl,
        rfl, le_of_lt hlt, ?_⟩
      intro hfit p hp
      refine h3 p hp ?_
      cases hsk : o.skip with
      | none =>
        simp only [Option.getD_none, Finset.inter_empty]
        exact (hw.mono (Finset.empty_subset _)).trans (hfit p hp)
      | some q =>
        refine (hw.mono ?_).trans (hfit p hp)
        intro y hy
        simp only [Option.getD_some, Finset.mem_inter] at hy
        exact Finset.mem_sdiff.2 ⟨hy.1, fun hys => Finset.disjoint_left.1 (h.skip q hsk) hys hy.2⟩
    · refine ⟨_, rfl, ⟨⟨hi.wf, hi.root, hi.nodes, hi.leaf, hi.part, hi.tail, hi.total, hi.sem, hi.shr, hi.dis⟩,
        h.width, h.skip⟩, ⟨⟨rfl, rfl, rfl, rfl, fun _ _ => rfl, rfl⟩, rfl, rfl⟩, rfl, rfl, rfl, rfl, le_refl _,
        fun hf => hf⟩
  · exact ⟨o, rfl, h, FStatic.rfl' _, rfl, rfl, rfl, rfl, le_refl _, fun hf => hf⟩

/-- How an update treats the recorded minimum. -/
def FMinStep (o o' : FwOpt σ R W) : Prop :=
  (o'.inf.totalCost < o.inf.minTotal ∧ o'.inf.minTotal = o'.inf.totalCost ∧ o'.inf.minCtree = o'.inf.ctree ∧
    o'.minSlices = o'.slices) ∨
  ((o.inf.minTotal ≤ o'.inf.totalCost ∨ o.inf.ctree.tree.size = 1) ∧ o'.inf.minTotal = o.inf.minTotal ∧
    o'.inf.minCtree = o.inf.minCtree ∧ o'.minSlices = o.minSlices)

/-- Start of the walk. -/
theorem walk_start {m : CostModel R} {out? : Option ISet} {sh : Bool} {o : InfOpt σ R} {t : PTree}
    (h : OInv m out? sh o t) (n : ℕ) (pr : σ) {B : ℕ}
    (hB : (o.ctree.tree.nodes (n % o.ctree.tree.nLeaves)).parent = some B) :
    ∃ K s, WInv m out? sh ⟨{ o with prng := pr }, B, o.totalCost⟩ K s ∧
        (∃ ob l r, s = fork ob B l r) ∧ K.depth < o.ctree.tree.size := by
  have hl := h.wf.linked
  simp only at hl
  have hq : n % o.ctree.tree.nLeaves < o.ctree.tree.size := by
    have := h.wf.size_eq
    simp only at this
    have h2 : 0 < o.ctree.tree.nLeaves := by unfold Tree.nLeaves; omega
    have := Nat.mod_lt n h2
    omega
  obtain ⟨K, s, hKs, hsr⟩ := exists_plug ((h.wf.mem _).2 hq)
  simp only [Ctx.plug] at hKs
  subst hKs
  have hwf' : WellFormed o.ctree.tree (K.plug s) := h.wf
  have henc := hwf'.enc
  rw [Ctx.encodes_plug] at henc
  have hp := encodes_root_parent henc.2
  rw [hsr, hB] at hp
  cases K with
  | top => simp [Ctx.par] at hp
  | frame ob p c K =>
    simp only [Ctx.par, Option.some.injEq] at hp
    subst hp
    have hpart := h.part
    simp only [Ctx.plug] at hpart
    rw [Ctx.all_plug] at hpart
    refine ⟨K, fork ob B s c, ⟨h.wf, by simp, h.nodes, h.leaf, hpart.2, ?_, h.total, h.sem,
      h.shr, h.dis⟩, ⟨ob, s, c, rfl⟩, ?_⟩
    · exact Ctx.tail_of_all (fun _ _ _ _ _ _ hh => hh) hpart.1
    · have h1 := K.depth_le
      have h2 := hwf'.nodup.length_le_of_subset (l₂ := List.range o.ctree.tree.size)
        (fun x hx => by simpa using (hwf'.mem x).1 hx)
      have h3 := ((Ctx.frame ob B c K).postorder_plug s).length_eq
      simp only [Ctx.poss, List.length_append, List.length_cons, List.length_range] at h2 h3
      omega

/-- One update. -/
theorem fupdate (g : FwPrng σ P) (m : CostModel R) {wm : WidthModel W} (hw : wm.Lawful) (prob : R → R → P)
    (u : Bool) {out? : Option ISet} {sh : Bool} [IsOrderedAddMonoid W] (hout : sh = true → out?.isSome = true)
    {o : FwOpt σ R W} {t : PTree} (h : FInv m wm out? sh o t) :
    (o.update g m wm prob u = .error .divByZero ∧ ¬ NoCrash wm o) ∨
    ∃ o' t', o.update g m wm prob u = .ok o' ∧ FInv m wm out? sh o' t' ∧ FStatic o o' ∧ FMinStep o o' ∧
      (wm.LogExact (o.skip.getD ∅) ∨ o.maxNew = 0 → FFit wm o → FFit wm o') := by
  unfold FwOpt.update
  simp only
  have hi : OInv (m.sliced o.slices) out? sh o.inf t := h.inv
  split
  · next hpar =>
    right
    have hsz : o.inf.ctree.tree.size = 1 := by
      have hwf : WellFormed o.inf.ctree.tree t := h.inv.wf
      obtain ⟨h1, h2, h3⟩ := hwf.size_eq
      have hn : 0 < o.inf.ctree.tree.nLeaves := by unfold Tree.nLeaves; omega
      have hlt := Nat.mod_lt (g.next o.inf.prng).1 hn
      have hq : (g.next o.inf.prng).1 % o.inf.ctree.tree.nLeaves < o.inf.ctree.tree.size := by omega
      have hroot := (hwf.linked.root _ hq).1 hpar
      unfold Tree.nLeaves at hlt hroot
      omega
    refine ⟨_, t, rfl, ⟨⟨hi.wf, hi.root, hi.nodes, hi.leaf, hi.part, hi.tail, hi.total, hi.sem, hi.shr, hi.dis⟩,
        h.width, h.skip⟩, ⟨⟨rfl, rfl, rfl, rfl, fun _ _ => rfl, rfl⟩, rfl, rfl⟩,
        Or.inr ⟨Or.inr hsz, rfl, rfl, rfl⟩, fun _ hf => hf⟩
  · next B hB =>
    obtain ⟨K, s, hW, hf, hd⟩ := walk_start hi (g.next o.inf.prng).1 (g.next o.inf.prng).2 hB
    set o1 : FwOpt σ R W := { o with inf := { o.inf with prng := (g.next o.inf.prng).2 } } with ho1
    rcases frun g m wm prob hout K ⟨o1, B, o1.inf.totalCost⟩ s o.inf.ctree.tree.size ⟨hW, h.width, h.skip⟩ hf hd with
      ⟨h1, hn⟩ | ⟨w', s', h1, hs⟩
    · left; rw [h1]; exact ⟨rfl, hn⟩
    · right
      rw [h1]
      simp only
      obtain ⟨hfi, htot⟩ := finv_of_fbase hs.base
      obtain ⟨o2, h2, hI2, hst2, hct2, hc2, ht2, hms2, hle, hfit2⟩ := updateSlices_inv g m hw hfi u
      rw [h2]
      simp only
      have hst0 : FStatic o w'.o := ⟨⟨hs.stat.inf.size, hs.stat.inf.nInds, hs.stat.inf.dims, hs.stat.inf.disable,
        hs.stat.inf.leafInds, hs.stat.inf.rootInds⟩, hs.stat.skip, hs.stat.maxNew⟩
      have hst : FStatic o o2 := hst0.trans hst2
      have hmt : o2.inf.minTotal = o.inf.minTotal := ht2.trans hs.minT
      have hmc : o2.inf.minCtree = o.inf.minCtree := hc2.trans hs.minC
      have hms : o2.minSlices = o.minSlices := hms2.trans hs.minS
      have hff : wm.LogExact (o.skip.getD ∅) ∨ o.maxNew = 0 → FFit wm o → FFit wm o2 := fun hc hfit =>
        hfit2 (hs.fit hc hw hfit)
      unfold FwOpt.updateMin
      split
      · next hlt =>
        have hj := hI2.inv
        refine ⟨_, s', rfl, ⟨⟨hj.wf, hj.root, hj.nodes, hj.leaf, hj.part, hj.tail, hj.total, hj.sem, hj.shr,
          hj.dis⟩, hI2.width, hI2.skip⟩, ⟨⟨hst.inf.size, hst.inf.nInds, hst.inf.dims, hst.inf.disable,
            hst.inf.leafInds, hst.inf.rootInds⟩, hst.skip, hst.maxNew⟩, Or.inl ⟨?_, rfl, rfl, rfl⟩, hff⟩
        rw [← hmt]; exact hlt
      · next hlt =>
        refine ⟨o2, s', rfl, hI2, hst, Or.inr ⟨Or.inl ?_, hmt, hmc, hms⟩, hff⟩
        rw [← hmt]; exact not_lt.1 hlt

/-- A successfully constructed optimizer satisfies the invariant. -/
theorem fmake (g : FwPrng σ P) (m : CostModel R) {wm : WidthModel W} (hw : wm.Lawful) {c : CTree} {maxNew : ℕ}
    {seed : σ} {dis : Bool} {skip : Option ISet} {minC : Option CTree} {slices minSlices : Option ISet}
    {o : FwOpt σ R W} {t : PTree} (hwf : WellFormed c.tree t)
    (hgiven : ∀ sl k, slices = some sl → skip = some k → Disjoint sl k)
    (hmk : FwOpt.make g m wm c maxNew seed dis skip minC slices minSlices = some (.ok o)) {out? : Option ISet}
    (hsem : ∀ out, out? = some out → t.Sem c.inds out) :
    FInv m wm out? (out?.isSome && !dis) o t ∧ o.inf.ctree = c ∧ o.inf.disableShared = dis ∧
      o.inf.minCtree = minC.getD c ∧ o.minSlices = minSlices.getD o.slices ∧
      getCost (minC.getD c).fuel (m.sliced o.minSlices) (minC.getD c) = some o.inf.minTotal ∧
      0 < o.inf.totalCost ∧ 0 < o.inf.minTotal ∧ c.isValid (!dis) = true ∧ (minC.getD c).isValid (!dis) = true ∧
      o.skip = skip ∧ o.maxNew = maxNew ∧ FFit wm o ∧ allFit wm (minC.getD c) o.minSlices = true := by
  unfold FwOpt.make FwOpt.makeWith at hmk
  simp only [Bool.or_eq_true, Bool.not_eq_true', bind, pure] at hmk
  split at hmk
  · simp at hmk
  next hv =>
  simp only [not_or, Bool.not_eq_false] at hv
  obtain ⟨hv1, hv2⟩ := hv
  obtain ⟨hd, hloc, hsh⟩ := (ctree_isValid_iff hwf _).1 hv1
  obtain ⟨S, s', hS, hdisj⟩ : ∃ S s', initSlices g wm c skip seed slices = some (S, s') ∧
      (∀ k, skip = some k → Disjoint S k) := by
    cases slices with
    | some sl => exact ⟨sl, seed, rfl, fun k hk => hgiven sl k rfl hk⟩
    | none =>
      obtain ⟨S, s', h1, -, h2, -⟩ := getSlices_spec g hw (skip := skip) (width := widthCache wm c) hwf
        (fun _ _ => rfl) seed
      exact ⟨S, s', h1, h2⟩
  rw [hS] at hmk
  simp only [Option.bind_some] at hmk
  obtain ⟨k, hk, k1, k2, k3⟩ := costCache_make (m := m.sliced S) hwf hloc (fuel := c.fuel) (le_refl _)
  rw [hk] at hmk
  simp only [Option.bind_some] at hmk
  cases hg : getCost (minC.getD c).fuel (m.sliced (minSlices.getD S)) (minC.getD c) with
  | none => rw [hg] at hmk; simp at hmk
  | some mt =>
    rw [hg] at hmk
    simp only [Option.bind_some] at hmk
    split at hmk
    · simp at hmk
    next hpos =>
    split at hmk
    · simp at hmk
    next hfit =>
    simp only [Option.some.injEq, Except.ok.injEq] at hmk
    subst hmk
    simp only [not_or, not_le, Bool.not_eq_false] at hpos hfit
    refine ⟨⟨?_, fun p => rfl, hdisj⟩, rfl, rfl, rfl, rfl, hg, hpos.1, hpos.2, hv1, hv2, rfl, rfl, ?_, hfit.2⟩
    · have hcc : t.All (NodeInv (m.sliced S) c.inds (hyperCache c) k.contractionCost) := by
        unfold NodeInv
        rw [PTree.all_and, PTree.all_and]
        refine ⟨hloc, ?_, k2⟩
        rw [all_iff hwf.enc]
        intro p hp a b h0 h1
        unfold hyperCache; rw [h0, h1]
      refine ⟨hwf, hwf.root, hcc, ?_, k3, trivial, ?_, hsem, ?_, ?_⟩
      · intro p hp
        have hp' := (hwf.leaves p).1 hp
        have hpn : p < c.tree.size := (hwf.mem p).1 (t.leaves_subset p hp)
        have := (hwf.linked.leaf0 p hpn).2 hp'
        refine ⟨?_, (k1 p hp).2, (k1 p hp).1⟩
        simp only [hyperCache, this]
      · unfold InfOpt.totalCost
        simp only
        rw [← hwf.root]
        exact part_sum k3 fun p hp => ⟨(k1 p hp).2, (k1 p hp).1⟩
      · intro hh
        simp only [Bool.and_eq_true, Bool.not_eq_true'] at hh
        exact hsh (by rw [hh.2]; rfl)
      · intro hh
        simp only [Bool.and_eq_true, Bool.not_eq_true'] at hh
        exact hh.2
    · intro p hp
      have := hfit.1
      unfold allFit at this
      rw [List.all_eq_true] at this
      simpa using this p (by simpa using hp)

/-- Any history of updates. -/
theorem frun_history (g : FwPrng σ P) (m : CostModel R) {wm : WidthModel W} (hw : wm.Lawful)
    {out? : Option ISet} {sh : Bool} [IsOrderedAddMonoid W] (hout : sh = true → out?.isSome = true)
    (ps : List ((R → R → P) × Bool)) :
    ∀ {o : FwOpt σ R W} {t : PTree}, FInv m wm out? sh o t →
      (o.run g m wm ps = .error .divByZero ∧ ¬ NoCrash wm o) ∨
      ∃ o' t', o.run g m wm ps = .ok o' ∧ FInv m wm out? sh o' t' ∧ FStatic o o' ∧
        (wm.LogExact (o.skip.getD ∅) ∨ o.maxNew = 0 → FFit wm o → FFit wm o') := by
  induction ps with
  | nil => intro o t h; exact Or.inr ⟨o, t, rfl, h, FStatic.rfl' _, fun _ hf => hf⟩
  | cons p ps ih =>
    intro o t h
    obtain ⟨prob, u⟩ := p
    simp only [FwOpt.run]
    rcases fupdate g m hw prob u hout h with ⟨h1, hn⟩ | ⟨o1, t1, h1, hi1, hs1, -, hf1⟩
    · left; rw [h1]; exact ⟨rfl, hn⟩
    · rw [h1]
      simp only
      rcases ih hi1 with ⟨h2, hn⟩ | ⟨o2, t2, h2, hi2, hs2, hf2⟩
      · left
        refine ⟨h2, fun hc => hn ?_⟩
        unfold NoCrash at *
        rw [hs1.maxNew, hs1.skip]; exact hc
      · right
        refine ⟨o2, t2, h2, hi2, hs1.trans hs2, fun hc hf => hf2 ?_ (hf1 hc hf)⟩
        rw [hs1.maxNew, hs1.skip]; exact hc

end TNCO
