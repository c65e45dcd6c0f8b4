import Verif.Lemmas.SliceGrow
import Verif.Lemmas.Rounding
import Verif.Props.FiniteWidth

/-!
# Property C93: how the slices of the finite-width optimizer change

`o.update g m wm prob u` is one call of `update` with `update_slices=u`, `FwOpt.run` a history of calls.
`C93_grow`, `C93_forever`, `C93_one_way` and `C93_refine` are for any operations on costs and widths, rounded ones
included. The app passes `update_slices=(n % 10 == 0)` by default (tnco/app/finite_width/sa.py:223).
-/

namespace TNCO
open PTree

variable {σ P R W : Type}

section
variable [Zero R] [Add R] [Sub R] [LT R] [DecidableLT R] [LE P] [DecidableLE P]
variable [Add W] [Sub W] [LT W] [DecidableLT W] [LE W] [DecidableLE W]

/-- An update without `update_slices` ends with the state of the walk (helper). -/
theorem update_false {g : FwPrng σ P} {m : CostModel R} {wm : WidthModel W} {o o' : FwOpt σ R W} {prob : R → R → P}
    (h : o.update g m wm prob false = .ok o') :
    (o'.slices = o.slices ∧ o'.skip = o.skip ∧ o'.maxNew = o.maxNew ∧ o'.inf.ctree = o.inf.ctree) ∨
    ∃ B w', (o.inf.ctree.tree.nodes ((g.next o.inf.prng).1 % o.inf.ctree.tree.nLeaves)).parent = some B ∧
      FwWalk.run g m wm prob o.inf.ctree.tree.size
        ⟨{ o with inf := { o.inf with prng := (g.next o.inf.prng).2 } }, B, o.inf.totalCost⟩ = .ok w' ∧
      o'.slices = w'.o.slices ∧ o'.skip = w'.o.skip ∧ o'.maxNew = w'.o.maxNew ∧ o'.inf.ctree = w'.o.inf.ctree := by
  unfold FwOpt.update at h
  simp only at h
  split at h
  · cases h; exact Or.inl ⟨rfl, rfl, rfl, rfl⟩
  · next B hB =>
    split at h
    · cases h
    · next w' hw' =>
      simp only [FwOpt.updateSlices, Bool.false_and, Bool.false_eq_true, if_false] at h
      cases h
      refine Or.inr ⟨B, w', hB, hw', ?_⟩
      unfold FwOpt.updateMin
      split <;> exact ⟨rfl, rfl, rfl, rfl⟩

/-- C93: an update without `update_slices` never gives up a slice, adds none of `skip_slices`, and none at
all if `max_number_new_slices` is 0. This holds in every state, reachable or not, and whatever the arithmetic of
costs and widths. -/
theorem C93_grow (g : FwPrng σ P) (m : CostModel R) (wm : WidthModel W) (prob : R → R → P) (o o' : FwOpt σ R W)
    (h : o.update g m wm prob false = .ok o') :
    o.slices ⊆ o'.slices ∧ (∀ k, o.skip = some k → Disjoint (o'.slices \ o.slices) k) ∧
      (o.maxNew = 0 → o'.slices = o.slices) ∧ o'.skip = o.skip ∧ o'.maxNew = o.maxNew := by
  rcases update_false h with ⟨h1, h2, h3, -⟩ | ⟨B, w', -, hr, h1, h2, h3, -⟩
  · rw [h1]
    exact ⟨Finset.Subset.refl _, by simp, fun _ => rfl, h2, h3⟩
  · obtain ⟨i1, i2, i3, i4, i5⟩ := frun_adds g m wm prob _ _ _ hr
    simp only at i1 i2 i3 i4 i5
    rw [h1]
    refine ⟨i3, i5, fun h0 => ?_, h2.trans i1, h3.trans i2⟩
    rw [h0, Nat.zero_mul, Nat.le_zero, Finset.card_eq_zero, Finset.sdiff_eq_empty_iff_subset] at i4
    exact Finset.Subset.antisymm i4 i3

/-- C93: no history of updates without `update_slices` gives up a slice. -/
theorem C93_forever (g : FwPrng σ P) (m : CostModel R) (wm : WidthModel W) (ps : List ((R → R → P) × Bool))
    (hps : ∀ q ∈ ps, q.2 = false) (o o' : FwOpt σ R W) (h : o.run g m wm ps = .ok o') :
    o.slices ⊆ o'.slices ∧ (∀ k, o.skip = some k → Disjoint (o'.slices \ o.slices) k) ∧
      (o.maxNew = 0 → o'.slices = o.slices) := by
  induction ps generalizing o with
  | nil => cases h; exact ⟨Finset.Subset.refl _, by simp, fun _ => rfl⟩
  | cons q ps ih =>
    obtain ⟨prob, u⟩ := q
    have hu : u = false := hps (prob, u) List.mem_cons_self
    subst hu
    rw [FwOpt.run] at h
    split at h
    · cases h
    · next o1 h1 =>
      obtain ⟨a1, a2, a3, a4, a5⟩ := C93_grow g m wm prob o o1 h1
      obtain ⟨b1, b2, b3⟩ := ih (fun q hq => hps q (by simp [hq])) o1 h
      refine ⟨a1.trans b1, ?_, fun h0 => (b3 (a5.trans h0)).trans (a3 h0)⟩
      intro k hk
      rw [Finset.disjoint_left]
      intro y hy hyk
      rw [Finset.mem_sdiff] at hy
      by_cases hy1 : y ∈ o1.slices
      · exact Finset.disjoint_left.1 (a2 k hk) (Finset.mem_sdiff.2 ⟨hy1, hy.2⟩) hyk
      · exact Finset.disjoint_left.1 (b2 k (a4.trans hk)) (Finset.mem_sdiff.2 ⟨hy.1, hy1⟩) hyk

/-- C93: a history without `update_slices` that changes the slices cannot be undone by another one:
unlike the infinite-memory walk, the finite-width walk is not reversible. -/
theorem C93_one_way (g g' : FwPrng σ P) (m : CostModel R) (wm : WidthModel W) (ps qs : List ((R → R → P) × Bool))
    (hps : ∀ q ∈ ps, q.2 = false) (hqs : ∀ q ∈ qs, q.2 = false) (o o' o'' : FwOpt σ R W)
    (h : o.run g m wm ps = .ok o') (hne : o'.slices ≠ o.slices) (h' : o'.run g' m wm qs = .ok o'') :
    o''.slices ≠ o.slices := by
  intro he
  have h1 := (C93_forever g m wm ps hps o o' h).1
  have h2 := (C93_forever g' m wm qs hqs o' o'' h').1
  rw [he] at h2
  exact hne (Finset.Subset.antisymm h2 h1)

/-- C93: `update_slices` comes after the pass and only touches the slices: it leaves the tree as it is, and
either keeps slices and cost or lowers the cost. Without slices it does nothing. -/
theorem C93_refine (g : FwPrng σ P) (m : CostModel R) (wm : WidthModel W) (prob : R → R → P) (o o1 o2 : FwOpt σ R W)
    (h1 : o.update g m wm prob false = .ok o1) (h2 : o.update g m wm prob true = .ok o2) :
    o2.inf.ctree = o1.inf.ctree ∧ o2.inf.hyper = o1.inf.hyper ∧ o2.width = o1.width ∧
      (o1.slices = ∅ → o2 = o1) ∧
      ((o2.slices = o1.slices ∧ o2.inf.totalCost = o1.inf.totalCost) ∨ o2.inf.totalCost < o1.inf.totalCost) := by
  unfold FwOpt.update at h1 h2
  simp only at h1 h2
  split at h1
  · next hn =>
    rw [hn] at h2
    cases h1; cases h2
    exact ⟨rfl, rfl, rfl, fun _ => rfl, Or.inl ⟨rfl, rfl⟩⟩
  · next B hB =>
    rw [hB] at h2
    simp only at h2
    split at h1
    · cases h1
    · next w' hw' =>
      rw [hw'] at h2
      simp only [FwOpt.updateSlices, Bool.false_and, Bool.false_eq_true, if_false, Bool.true_and,
        decide_eq_true_eq] at h1 h2
      cases h1
      have hm : ∀ o : FwOpt σ R W, o.updateMin.inf.ctree = o.inf.ctree ∧ o.updateMin.inf.hyper = o.inf.hyper ∧
          o.updateMin.width = o.width ∧ o.updateMin.slices = o.slices ∧
          o.updateMin.inf.totalCost = o.inf.totalCost := by
        intro o
        unfold FwOpt.updateMin
        split <;> exact ⟨rfl, rfl, rfl, rfl, rfl⟩
      obtain ⟨a1, a2, a3, a4, a5⟩ := hm w'.o
      rw [a1, a2, a3, a4, a5]
      by_cases hs : w'.o.slices = ∅
      · rw [if_neg (by simpa using hs)] at h2
        cases h2
        rw [a1, a2, a3, a4, a5]
        exact ⟨rfl, rfl, rfl, fun _ => rfl, Or.inl ⟨rfl, rfl⟩⟩
      · rw [if_pos hs] at h2
        split at h2
        · cases h2
        · next o3 h3 =>
          cases h2
          obtain ⟨b1, b2, b3, b4, b5⟩ := hm o3
          rw [b1, b2, b3, b4, b5]
          split at h3
          · cases h3
          · split at h3
            · cases h3
            · next k hk =>
              split at h3
              · next hlt =>
                cases h3
                exact ⟨rfl, rfl, rfl, fun h => absurd h hs, Or.inr hlt⟩
              · cases h3
                exact ⟨rfl, rfl, rfl, fun h => absurd h hs, Or.inl ⟨rfl, rfl⟩⟩

end

variable [AddCommGroup R] [LinearOrder R] [LinearOrder P] [AddCommGroup W] [LinearOrder W] [IsOrderedAddMonoid W]

/-- The path to the root is shorter than the number of tensors (helper). -/
theorem depth_leaves {T : Tree} {K : Ctx} {o : Bool} {B : ℕ} {l r : PTree}
    (h : WellFormed T (K.plug (fork o B l r))) : K.depth ≤ T.nLeaves - 2 := by
  have h1 := PTree.inner_card (K.plug (fork o B l r))
  have h2 : (K.plug (fork o B l r)).postorder.length = T.size := by
    have h3 : (K.plug (fork o B l r)).postorder.Perm (List.range T.size) :=
      (List.perm_ext_iff_of_nodup h.nodup List.nodup_range).2 fun p => by rw [h.mem, List.mem_range]
    rw [h3.length_eq, List.length_range]
  have h3 := (Ctx.leaves_plug K (fork o B l r)).length_eq
  rw [List.length_append] at h3
  have h4 : 2 ≤ (fork o B l r).leaves.length := by
    have a := PTree.inner_card l
    have b := PTree.inner_card r
    have c := PTree.inner_card (fork o B l r)
    have d : (fork o B l r).postorder.length = l.postorder.length + r.postorder.length + 1 := by
      cases o <;> simp [fork, PTree.postorder] <;> omega
    have e : 0 < l.postorder.length := List.length_pos_of_mem l.root_mem
    have f : 0 < r.postorder.length := List.length_pos_of_mem r.root_mem
    omega
  have h5 : ∀ K : Ctx, K.depth ≤ K.lvs.length := by
    intro K
    induction K with
    | top => simp [Ctx.depth]
    | frame o p s K ih =>
      have a := PTree.inner_card s
      have e : 0 < s.postorder.length := List.length_pos_of_mem s.root_mem
      simp only [Ctx.depth, Ctx.lvs, List.length_append]
      omega
  have h6 := h5 K
  have h7 := h.size_eq
  unfold Tree.nLeaves
  omega

/-- C93: what an update without `update_slices` slices: at most `max_number_new_slices` indices for each of the
at most `n - 2` moves of a pass over `n` tensors, and each of them belongs to a tensor of the new tree that is
wider than `max_width` with the slices before the update. -/
theorem C93_needed (g : FwPrng σ P) (m : CostModel R) (log2 : ℕ → W) (hlog : ∀ n, 0 ≤ log2 n)
    (wm : WidthModel W) (c : CTree) (maxNew : ℕ) (seed : σ) (dis : Bool) (skip : ISet) (minC : Option CTree)
    (slices minSlices : Option ISet) (o0 o o' : FwOpt σ R W) (ps : List ((R → R → P) × Bool)) (prob : R → R → P)
    (hwm : OfferedWidth log2 c.dims wm) (htree : IsTree c.tree)
    (hgiven : ∀ sl, slices = some sl → Disjoint sl skip)
    (hmk : FwOpt.pyMake g m wm c maxNew seed dis skip minC slices minSlices = some (.ok o0))
    (hrun : o0.run g m wm ps = .ok o) (hup : o.update g m wm prob false = .ok o') :
    (o'.slices \ o.slices).card ≤ maxNew * (c.tree.nLeaves - 2) ∧
    ∀ x ∈ o'.slices, x ∉ o.slices → ∃ p < o'.inf.ctree.tree.size, x ∈ o'.inf.ctree.inds p ∧
      wm.maxWidth < wm.width (o'.inf.ctree.inds p \ o.slices) := by
  obtain ⟨t0, hwf⟩ := htree
  have hw := (offered_lawful hlog hwm).1
  obtain ⟨hI, rfl, -, -, -, -, -, -, -, -, -, hmn, -, -⟩ := pyMake_inv hw hwf hgiven hmk (out? := none) (by simp)
  rcases frun_history g m hw (by simp) ps hI with ⟨h, -⟩ | ⟨o2, t2, h2, hI2, hst, -⟩
  · rw [hrun] at h; cases h
  rw [hrun] at h2; cases h2
  have hsz : o.inf.ctree.tree.nLeaves = o0.inf.ctree.tree.nLeaves := by unfold Tree.nLeaves; rw [hst.inf.size]
  rcases update_false hup with ⟨h1, -⟩ | ⟨B, w', hB, hr, h1, -, -, h4⟩
  · rw [h1]
    exact ⟨by simp, fun x a b => absurd a b⟩
  · have hi : OInv (m.sliced o.slices) none false o.inf t2 := hI2.inv
    obtain ⟨K, s, hW, ⟨ob, l, r, rfl⟩, hd⟩ := walk_start hi (g.next o.inf.prng).1 (g.next o.inf.prng).2 hB
    obtain ⟨i1, -, i3⟩ := frun_needed g m hw prob K _ w' _ _
      (⟨hW, hI2.width, hI2.skip⟩ : FBase m wm none false
        ⟨{ o with inf := { o.inf with prng := (g.next o.inf.prng).2 } }, B, o.inf.totalCost⟩ K _) ⟨ob, l, r, rfl⟩ hd hr
    simp only at i1 i3
    have hdep : K.depth ≤ o.inf.ctree.tree.nLeaves - 2 := depth_leaves hW.wf
    have hs' : w'.o.inf.ctree.tree.size = o.inf.ctree.tree.size := by
      rcases frun g m wm prob (by simp) K _ _ _
        (⟨hW, hI2.width, hI2.skip⟩ : FBase m wm none false
          ⟨{ o with inf := { o.inf with prng := (g.next o.inf.prng).2 } }, B, o.inf.totalCost⟩ K _) ⟨ob, l, r, rfl⟩ hd with
        ⟨a, -⟩ | ⟨w2, s2, a, b⟩
      · rw [hr] at a; cases a
      · rw [hr] at a; cases a; exact b.stat.inf.size
    rw [h1, h4, hs']
    refine ⟨i1.trans ?_, i3⟩
    rw [hst.maxNew, hmn, ← hsz]
    exact Nat.mul_le_mul_left _ hdep

/-- C93: nothing is sliced if the new tree fits with the slices it had. -/
theorem C93_not_needed (g : FwPrng σ P) (m : CostModel R) (log2 : ℕ → W) (hlog : ∀ n, 0 ≤ log2 n)
    (wm : WidthModel W) (c : CTree) (maxNew : ℕ) (seed : σ) (dis : Bool) (skip : ISet) (minC : Option CTree)
    (slices minSlices : Option ISet) (o0 o o' : FwOpt σ R W) (ps : List ((R → R → P) × Bool)) (prob : R → R → P)
    (hwm : OfferedWidth log2 c.dims wm) (htree : IsTree c.tree)
    (hgiven : ∀ sl, slices = some sl → Disjoint sl skip)
    (hmk : FwOpt.pyMake g m wm c maxNew seed dis skip minC slices minSlices = some (.ok o0))
    (hrun : o0.run g m wm ps = .ok o) (hup : o.update g m wm prob false = .ok o')
    (hfit : ∀ p < o'.inf.ctree.tree.size, wm.width (o'.inf.ctree.inds p \ o.slices) ≤ wm.maxWidth) :
    o'.slices = o.slices := by
  refine Finset.Subset.antisymm (fun x hx => ?_) (C93_grow g m wm prob o o' hup).1
  by_contra hxo
  obtain ⟨p, hp, -, h⟩ := (C93_needed g m log2 hlog wm c maxNew seed dis skip minC slices minSlices o0 o o' ps prob
    hwm htree hgiven hmk hrun hup).2 x hx hxo
  exact absurd (hfit p hp) (not_le.2 h)

/-- C93: after an update with `update_slices` the slices are those of the pass, or each of them belongs to a
tensor of the tree that is wider than `max_width` by itself. -/
theorem C93_fresh (g : FwPrng σ P) (m : CostModel R) (log2 : ℕ → W) (hlog : ∀ n, 0 ≤ log2 n)
    (wm : WidthModel W) (c : CTree) (maxNew : ℕ) (seed : σ) (dis : Bool) (skip : ISet) (minC : Option CTree)
    (slices minSlices : Option ISet) (o0 o o1 o2 : FwOpt σ R W) (ps : List ((R → R → P) × Bool)) (prob : R → R → P)
    (hwm : OfferedWidth log2 c.dims wm) (htree : IsTree c.tree)
    (hgiven : ∀ sl, slices = some sl → Disjoint sl skip)
    (hmk : FwOpt.pyMake g m wm c maxNew seed dis skip minC slices minSlices = some (.ok o0))
    (hrun : o0.run g m wm ps = .ok o) (hup1 : o.update g m wm prob false = .ok o1)
    (hup2 : o.update g m wm prob true = .ok o2) :
    o2.slices = o1.slices ∨ ∀ x ∈ o2.slices, ∃ p < o2.inf.ctree.tree.size, x ∈ o2.inf.ctree.inds p ∧
      wm.maxWidth < wm.width (o2.inf.ctree.inds p) := by
  obtain ⟨t0, hwf⟩ := htree
  have hw := (offered_lawful hlog hwm).1
  obtain ⟨hI, rfl, -, -, -, -, -, -, -, -, -, hmn, -, -⟩ := pyMake_inv hw hwf hgiven hmk (out? := none) (by simp)
  have hrun1 : o0.run g m wm (ps ++ [(prob, false)]) = .ok o1 := by
    rw [fw_run_append, hrun]; simp [FwOpt.run, hup1]
  rcases frun_history g m hw (by simp) _ hI with ⟨h, -⟩ | ⟨o3, t3, h3, hI3, -⟩
  · rw [hrun1] at h; cases h
  rw [hrun1] at h3; cases h3
  unfold FwOpt.update at hup1 hup2
  simp only at hup1 hup2
  split at hup1
  · next hn =>
    rw [hn] at hup2
    cases hup1; cases hup2
    exact Or.inl rfl
  · next B hB =>
    rw [hB] at hup2
    simp only at hup2
    split at hup1
    · cases hup1
    · next w' hw' =>
      rw [hw'] at hup2
      simp only [FwOpt.updateSlices, Bool.false_and, Bool.false_eq_true, if_false, Bool.true_and,
        decide_eq_true_eq] at hup1 hup2
      cases hup1
      have hm : ∀ o : FwOpt σ R W, o.updateMin.inf.ctree = o.inf.ctree ∧ o.updateMin.width = o.width ∧
          o.updateMin.slices = o.slices := by
        intro o
        unfold FwOpt.updateMin
        split <;> exact ⟨rfl, rfl, rfl⟩
      obtain ⟨a1, a2, a3⟩ := hm w'.o
      rw [a3]
      by_cases hs : w'.o.slices = ∅
      · rw [if_neg (by simpa using hs)] at hup2
        cases hup2
        exact Or.inl a3
      · rw [if_pos hs] at hup2
        have hwf3 : WellFormed w'.o.inf.ctree.tree t3 := by have := hI3.inv.wf; rwa [a1] at this
        have hwd : ∀ p, w'.o.width p = wm.width (w'.o.inf.ctree.inds p) := by
          intro p; have := hI3.width p; rwa [a1, a2] at this
        obtain ⟨S, s', hS, q1, -, -⟩ := getSlices_spec g hw (skip := w'.o.skip) hwf3 (fun p _ => hwd p) w'.o.inf.prng
        rw [hS] at hup2
        simp only at hup2
        split at hup2
        · cases hup2
        · next o3 ho3 =>
          cases hup2
          obtain ⟨b1, b2, b3⟩ := hm o3
          rw [b1, b3]
          split at ho3
          · cases ho3
          · split at ho3
            · cases ho3
              exact Or.inr q1
            · cases ho3
              exact Or.inl rfl

/-- Tensors `{1,2,5} {0,3,5} {0,3}` of dimension 2, output `{1,2}`. -/
def growCT : CTree where
  tree := fwTree
  nInds := 6
  inds := fun p => [{5, 1, 2}, {0, 5, 3}, {0, 3}, {5}, {1, 2}].getD p ∅
  dims := .int 2

def growWm : WidthModel ℤ :=
  ⟨simpleWidth ilog2 (.int 2), simpleDelta ilog2 (.int 2), fun i => ilog2 ((Dims.int 2).get i), true, 3⟩

/-- The tree of three tensors fits into width 3 unsliced; the first update contracts other tensors first,
which needs a slice, and the second update keeps it. -/
example : (∀ n, 0 ≤ ilog2 n) ∧ OfferedWidth ilog2 growCT.dims growWm ∧ WellFormed growCT.tree exCTree ∧
    ∃ o0 o o', FwOpt.pyMake (constPrng 8) (simpleModel growCT.dims) growWm growCT 1 () false ∅ none none none =
        some (.ok o0) ∧ o0.slices = ∅ ∧ o0.run (constPrng 8) (simpleModel growCT.dims) growWm [] = .ok o0 ∧
      o0.update (constPrng 8) (simpleModel growCT.dims) growWm probBase false = .ok o ∧ o.slices ≠ o0.slices ∧
      o.run (constPrng 8) (simpleModel growCT.dims) growWm [(probBase, false)] = .ok o' ∧
      o'.slices = o.slices := by
  refine ⟨ilog2_nonneg, Or.inl ⟨3, rfl⟩, fwTree_wf, ?_⟩
  obtain ⟨a, b, h1, h2, h3⟩ := fw_eval
    (x := FwOpt.pyMake (constPrng 8) (simpleModel growCT.dims) growWm growCT 1 () false ∅ none none none)
    (f := fun o => match o.update (constPrng 8) (simpleModel growCT.dims) growWm probBase false with
      | .ok o1 => (match o1.run (constPrng 8) (simpleModel growCT.dims) growWm [(probBase, false)] with
        | .ok o2 => .ok (o1, o2) | .error _ => .error ())
      | .error _ => (.error () : Except Unit _))
    (Q := fun a b => decide (a.slices = ∅) && decide (b.1.slices ≠ a.slices) &&
      decide (b.2.slices = b.1.slices)) (by decide +kernel)
  simp only [Bool.and_eq_true, decide_eq_true_eq] at h3
  refine ⟨a, b.1, b.2, h1, h3.1.1, rfl, ?_⟩
  split at h2
  · next o1 ho1 =>
    split at h2
    · next o2 ho2 => cases h2; exact ⟨ho1, h3.1.2, ho2, h3.2⟩
    · cases h2
  · cases h2

/-- The hypotheses of `C93_refine` and `C93_fresh`: the same update with and without `update_slices`. -/
example : ∃ o0 o1 o2, FwOpt.pyMake (constPrng 8) (simpleModel growCT.dims) growWm growCT 1 () false ∅ none none none =
        some (.ok o0) ∧
      o0.update (constPrng 8) (simpleModel growCT.dims) growWm probBase false = .ok o1 ∧
      o0.update (constPrng 8) (simpleModel growCT.dims) growWm probBase true = .ok o2 ∧ o1.slices ≠ ∅ := by
  obtain ⟨a, b, h1, h2, h3⟩ := fw_eval
    (x := FwOpt.pyMake (constPrng 8) (simpleModel growCT.dims) growWm growCT 1 () false ∅ none none none)
    (f := fun o => match o.update (constPrng 8) (simpleModel growCT.dims) growWm probBase false with
      | .ok o1 => (match o.update (constPrng 8) (simpleModel growCT.dims) growWm probBase true with
        | .ok o2 => .ok (o1, o2) | .error _ => .error ())
      | .error _ => (.error () : Except Unit _))
    (Q := fun _ b => decide (b.1.slices ≠ ∅)) (by decide +kernel)
  simp only [decide_eq_true_eq] at h3
  refine ⟨a, b.1, b.2, h1, ?_⟩
  split at h2
  · next o1 ho1 =>
    split at h2
    · next o2 ho2 => cases h2; exact ⟨ho1, ho2, h3⟩
    · cases h2
  · cases h2

end TNCO
