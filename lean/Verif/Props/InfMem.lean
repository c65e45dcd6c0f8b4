import Verif.Lemmas.InfMem
import Verif.Model.Cost
import Verif.Model.Prob
import Mathlib.Tactic.FinCases

/-!
# Properties C13 - C17: the infinite-memory optimizer

`InfOpt.make` is the constructor, `InfOpt.run g m o probs` a history of `update` calls (one
acceptance function per update, arbitrary), `g` an arbitrary random generator, `m` an
arbitrary cost model.
-/

namespace TNCO
open PTree

/-! ## A running example: three tensors `{0,2} {0,1,2} {1,2}`, index 2 is a hyper-index -/

/-- `3 = (1, 2)`, `4 = (0, 3)`, no output index. -/
def exCT : CTree where
  tree := Tree.ofList [⟨none, none, some 4⟩, ⟨none, none, some 3⟩, ⟨none, none, some 3⟩,
    ⟨some 1, some 2, some 4⟩, ⟨some 0, some 3, none⟩]
  nInds := 3
  inds := fun p => [{0, 2}, {0, 1, 2}, {1, 2}, {0, 2}, ∅].getD p ∅
  dims := .vec [2, 3, 2]

def exCTree : PTree := .node 4 (.leaf 0) (.node 3 (.leaf 1) (.leaf 2))

theorem exCT_wf : WellFormed exCT.tree exCTree := by
  refine ⟨by simp [exCT, exCTree, Encodes, Tree.ofList, PTree.root], by decide, ?_, by decide, ?_⟩
  · intro p
    have : exCT.tree.size = 5 := rfl
    rw [this]; simp [exCTree, postorder]; omega
  · intro p
    have : (exCT.tree.size + 1) / 2 = 3 := rfl
    rw [this]; simp [exCTree, leaves]; omega

theorem exCT_exact : IndsExact exCT.inds ∅ exCTree := by
  rw [indsExact_iff]
  simp only [exCTree, PTree.Sem, PTree.root, PTree.L, leaves, exCT, leafInds]
  decide

/-- A generator that always returns 1, and 0 from the uniform distribution on `[0, 1)`. -/
def zeroPrng : Prng Unit ℚ := ⟨fun _ => (1, ()), fun _ => (0, ())⟩

/-- A generator with draws alternating between 1/4 and 3/4. -/
def altPrng : Prng Bool ℚ := ⟨fun b => (if b then 5 else 2, !b), fun b => (if b then 1/4 else 3/4, !b)⟩

def exModel : CostModel ℤ := simpleModel exCT.dims

/-- The constructor accepts the running example. -/
theorem exCT_make {σ : Type} (s : σ) (dis : Bool) :
    ∃ o, InfOpt.make exModel exCT s dis none = some (.ok o) ∧ o.totalCost = 16 := by
  cases dis <;> exact ⟨_, rfl, rfl⟩

variable {σ P R : Type} [AddCommGroup R] [LinearOrder R] [LinearOrder P]

/-- C13: starting from any contraction tree with exact index sets, every history of updates
runs to completion; the result is again a full binary tree with the same positions, the same
leaf indices, the same output indices, exact index sets, and it passes `is_valid` (with the
shared-index check if it is enabled). -/
theorem C13_update_keeps_tree (g : Prng σ P) (m : CostModel R) (c : CTree) (seed : σ) (dis : Bool)
    (minC : Option CTree) (t0 : PTree) (out : ISet) (o0 : InfOpt σ R) (probs : List (R → R → P))
    (hwf : WellFormed c.tree t0) (hex : IndsExact c.inds out t0)
    (hmk : InfOpt.make m c seed dis minC = some (.ok o0)) :
    ∃ o t, o0.run g m probs = some o ∧
      WellFormed o.ctree.tree t ∧ o.ctree.tree.size = c.tree.size ∧
      (∀ p < (c.tree.size + 1) / 2, o.ctree.inds p = c.inds p) ∧
      o.ctree.inds (c.tree.size - 1) = c.inds (c.tree.size - 1) ∧
      o.ctree.dims = c.dims ∧
      IndsExact o.ctree.inds out t ∧
      o.ctree.isValid (!dis) = true := by
  obtain ⟨hO, rfl, hdis, -, -, -, -, hv, -⟩ := make_inv hwf hmk (out? := some out)
    (by rintro _ ⟨⟩; exact indsExact_iff.1 hex)
  obtain ⟨o, t, hrun, hI, hS⟩ := run_history g m (by intro h; simp) probs hO
  refine ⟨o, t, hrun, hI.wf, hS.size, hS.leafInds, hS.rootInds, hS.dims,
    indsExact_iff.2 (hI.sem out rfl), ?_⟩
  refine (ctree_isValid_iff hI.wf _).2 ⟨?_, PTree.sem_loc (hI.sem out rfl), ?_⟩
  · simp only; rw [hS.dims, hS.nInds]; exact ((ctree_isValid_iff hwf _).1 hv).1
  · intro h; exact hI.shr (by simpa using h)

/-- C13 for arbitrary trees accepted by the constructor, exact index sets or not: the result
is a tree on the same positions with the same leaf and output indices and passes `is_valid`
(without the shared-index check). -/
theorem C13_update_keeps_valid (g : Prng σ P) (m : CostModel R) (c : CTree) (seed : σ) (dis : Bool)
    (minC : Option CTree) (o0 : InfOpt σ R) (probs : List (R → R → P))
    (htree : IsTree c.tree) (hmk : InfOpt.make m c seed dis minC = some (.ok o0)) :
    ∃ o, o0.run g m probs = some o ∧ IsTree o.ctree.tree ∧ o.ctree.tree.size = c.tree.size ∧
      (∀ p < (c.tree.size + 1) / 2, o.ctree.inds p = c.inds p) ∧
      o.ctree.inds (c.tree.size - 1) = c.inds (c.tree.size - 1) ∧
      o.ctree.isValid false = true := by
  obtain ⟨t0, hwf⟩ := htree
  obtain ⟨hO, rfl, hdis, -, -, -, -, hv, -⟩ := make_inv hwf hmk (out? := none) (by simp)
  obtain ⟨o, t, hrun, hI, hS⟩ := run_history g m (by simp) probs hO
  refine ⟨o, hrun, ⟨t, hI.wf⟩, hS.size, hS.leafInds, hS.rootInds, ?_⟩
  refine (ctree_isValid_iff hI.wf _).2 ⟨?_, ?_, by simp⟩
  · simp only; rw [hS.dims, hS.nInds]; exact ((ctree_isValid_iff hwf _).1 hv).1
  · have := hI.nodes
    unfold NodeInv at this
    rw [PTree.all_and] at this
    exact this.1

/-- C14: after any history the cached total cost is the cost of the current tree, both as
specified (`treeCost`) and as recomputed from scratch by `get_cost`; every cached partial and
contraction cost agrees with a freshly built cache, and the hyper-index cache too. -/
theorem C14_total_cost_exact (g : Prng σ P) (m : CostModel R) (c : CTree) (seed : σ) (dis : Bool)
    (minC : Option CTree) (o0 o : InfOpt σ R) (probs : List (R → R → P))
    (htree : IsTree c.tree) (hmk : InfOpt.make m c seed dis minC = some (.ok o0))
    (hrun : o0.run g m probs = some o) :
    (∀ t, WellFormed o.ctree.tree t → o.totalCost = treeCost m.get o.ctree.inds t) ∧
    getCost o.ctree.fuel m o.ctree = some o.totalCost ∧
    (∃ k, CostCache.make o.ctree.fuel m o.ctree = some k ∧
      ∀ p < o.ctree.tree.size, o.cost.partialCost p = k.partialCost p ∧
        o.cost.contractionCost p = k.contractionCost p) ∧
    ∀ p < o.ctree.tree.size, o.hyper p = hyperCache o.ctree p := by
  obtain ⟨t0, hwf⟩ := htree
  obtain ⟨hO, rfl, -⟩ := make_inv hwf hmk (out? := none) (by simp)
  obtain ⟨o', t, hrun', hI, hS⟩ := run_history g m (by simp) probs hO
  rw [hrun] at hrun'; cases hrun'
  have hloc : t.All (LocQ o.ctree.inds) := by
    have := hI.nodes
    unfold NodeInv at this
    rw [PTree.all_and] at this
    exact this.1
  have hcc : t.All (fun p a b => o.cost.contractionCost p = m.get (o.ctree.inds a ∪ o.ctree.inds b)) := by
    have := hI.nodes
    unfold NodeInv at this
    rw [PTree.all_and, PTree.all_and] at this
    exact this.2.2
  have hwft : WellFormed o.ctree.tree t := hI.wf
  have hcost : ∀ t', WellFormed o.ctree.tree t' → o.totalCost = treeCost m.get o.ctree.inds t' := by
    intro t' ht'
    have hl' : t'.All (LocQ o.ctree.inds) := by
      rw [all_iff ht'.enc]; rw [all_iff hwft.enc] at hloc
      intro p hp; exact hloc p ((hI.wf.mem p).2 ((ht'.mem p).1 hp))
    have e1 := getCost_eq (m := m) ht' hl' (fuel := o.ctree.fuel) (le_refl _)
    have e2 := getCost_eq (m := m) hwft hloc (fuel := o.ctree.fuel) (le_refl _)
    have e3 : (⟨o, o.ctree.tree.size - 1, o.totalCost⟩ : Walk σ R).total = _ :=
      hI.total.trans (sum_eq_treeCost hI.nodes fun p hp => (hI.leaf p hp).2.1)
    simp only [Ctx.plug] at e3
    rw [e3]
    rw [e2] at e1; exact Option.some.inj e1
  refine ⟨hcost, ?_, ?_, ?_⟩
  · rw [getCost_eq (m := m) hwft hloc (fuel := o.ctree.fuel) (le_refl _), hcost t hI.wf]
  · obtain ⟨k, hk, k1, k2, k3⟩ := costCache_make (m := m) hI.wf hloc (fuel := o.ctree.fuel) (le_refl _)
    refine ⟨k, hk, fun p hp => ?_⟩
    have := caches_unique hcc hI.part (fun p hp => ⟨(hI.leaf p hp).2.2, (hI.leaf p hp).2.1⟩) k2 k3 k1 p
      ((hI.wf.mem p).2 hp)
    exact ⟨this.2, this.1⟩
  · intro p hp
    have hn := hI.nodes
    rw [all_iff hI.wf.enc] at hn
    unfold hyperCache
    have hl := hI.wf.linked
    simp only at hl
    cases h0 : (o.ctree.tree.nodes p).c0 with
    | none =>
      exact (hI.leaf p ((hI.wf.leaves p).2 ((hl.leaf0 p hp).1 h0))).1
    | some a =>
      cases h1 : (o.ctree.tree.nodes p).c1 with
      | none =>
        have := (hl.leaf0 p hp).2 ((hl.leaf1 p hp).1 h1)
        rw [h0] at this; simp at this
      | some b => exact (hn p ((hI.wf.mem p).2 hp) a b h0 h1).2.1

/-- The states of the `while` loop of `update` reachable from an optimizer state. -/
inductive LoopState (g : Prng σ P) (m : CostModel R) (prob : R → R → P) (o : InfOpt σ R) : Walk σ R → Prop
  | start {posB : ℕ} : (o.ctree.tree.nodes ((g.next o.prng).1 % o.ctree.tree.nLeaves)).parent = some posB →
      LoopState g m prob o ⟨{ o with prng := (g.next o.prng).2 }, posB, o.totalCost⟩
  | step {w : Walk σ R} {a c d e : ℕ} {s : σ} : LoopState g m prob o w →
      getCtreeNN g w.o.ctree w.o.disableShared w.o.prng w.posB = (some (a, c, d, e), s) →
      LoopState g m prob o (Walk.body g m prob { w with o := { w.o with prng := s } } a c d e)

/-- C14: at every point inside `update`, the running total (the old total plus the accepted
deltas) is the true cost of the tree at that point. Hence each accepted delta is exactly the
change of the total cost. -/
theorem C14_running_total (g : Prng σ P) (m : CostModel R) (c : CTree) (seed : σ) (dis : Bool)
    (minC : Option CTree) (o0 o : InfOpt σ R) (probs : List (R → R → P)) (prob : R → R → P)
    (htree : IsTree c.tree) (hmk : InfOpt.make m c seed dis minC = some (.ok o0))
    (hrun : o0.run g m probs = some o) (w : Walk σ R) (hw : LoopState g m prob o w) :
    ∃ t, WellFormed w.o.ctree.tree t ∧ w.total = treeCost m.get w.o.ctree.inds t := by
  obtain ⟨t0, hwf⟩ := htree
  obtain ⟨hO, rfl, -⟩ := make_inv hwf hmk (out? := none) (by simp)
  obtain ⟨o', t, hrun', hI, hS⟩ := run_history g m (by simp) probs hO
  rw [hrun] at hrun'; cases hrun'
  suffices h : ∃ K s, WInv m none false w K s ∧ ∃ ob l r, s = fork ob w.posB l r by
    obtain ⟨K, s, h, -⟩ := h
    exact ⟨_, h.wf, h.total.trans (sum_eq_treeCost h.nodes fun p hp => (h.leaf p hp).2.1)⟩
  induction hw with
  | start hpar =>
    next posB =>
    have hl := hI.wf.linked
    simp only at hl
    have hq : (g.next o.prng).1 % o.ctree.tree.nLeaves < o.ctree.tree.size := by
      have := hI.wf.size_eq
      simp only at this
      have h2 : 0 < o.ctree.tree.nLeaves := by unfold Tree.nLeaves; omega
      have := Nat.mod_lt (g.next o.prng).1 h2
      omega
    obtain ⟨K, s, hKs, hsr⟩ := exists_plug ((hI.wf.mem _).2 hq)
    simp only [Ctx.plug] at hKs
    subst hKs
    have henc := hI.wf.enc
    simp only [Ctx.plug] at henc
    rw [Ctx.encodes_plug] at henc
    have hp := encodes_root_parent henc.2
    rw [hsr, hpar] at hp
    cases K with
    | top => simp [Ctx.par] at hp
    | frame ob p c K =>
      simp only [Ctx.par, Option.some.injEq] at hp
      subst hp
      have hpart := hI.part
      simp only [Ctx.plug] at hpart
      rw [Ctx.all_plug] at hpart
      refine ⟨K, fork ob posB s c, ⟨hI.wf, by simp, hI.nodes, hI.leaf, hpart.2, ?_, hI.total, by simp,
        by simp, by simp⟩, ob, s, c, rfl⟩
      exact Ctx.tail_of_all (fun _ _ _ _ _ _ hh => hh) hpart.1
  | step hw hnn ih =>
    next w a c' d e s' =>
    obtain ⟨K, s, hW, ob, l, r, rfl⟩ := ih
    cases K with
    | top =>
      have := getCtreeNN_top g w.o.disableShared w.o.prng hW.wf
      rw [show (Ctx.top.plug (fork ob w.posB l r)).root = w.posB by simp [Ctx.plug]] at this
      rw [this] at hnn; simp at hnn
    | frame o1 A z K =>
      obtain ⟨o', d', e', s2, hnn', hfork, -⟩ := getCtreeNN_frame g w.o.disableShared w.o.prng hW.wf
      rw [hnn'] at hnn
      simp only [Prod.mk.injEq, Option.some.injEq] at hnn
      obtain ⟨⟨rfl, rfl, rfl, rfl⟩, rfl⟩ := hnn
      have h1 : WInv m none false { w with o := { w.o with prng := s2 } } (.frame o1 A z K)
          (fork o' w.posB d' e') := by
        rw [← hfork]
        exact ⟨hW.wf, hW.root, hW.nodes, hW.leaf, hW.part, hW.tail, hW.total, hW.sem, hW.shr, hW.dis⟩
      obtain ⟨s3, hw3, ⟨o3, l3, r3, rfl⟩, -⟩ := body_inv g m prob h1 (by simp)
      have := hw3.root
      rw [root_fork] at this
      exact ⟨K, _, hw3, o3, l3, r3, by rw [← this]⟩

/-- The size-1 tree has cost 0, so a constructed optimizer has at least one contraction. -/
theorem make_size {m : CostModel R} {c : CTree} {seed : σ} {dis : Bool} {minC : Option CTree}
    {o : InfOpt σ R} {t : PTree} (hwf : WellFormed c.tree t)
    (hmk : InfOpt.make m c seed dis minC = some (.ok o)) : c.tree.size ≠ 1 := by
  obtain ⟨hO, rfl, -, -, -, hpos, -⟩ := make_inv hwf hmk (out? := none) (by simp)
  intro h1
  have hz : 0 ∈ t.leaves := (hwf.leaves 0).2 (by omega)
  have := (hO.leaf 0 hz).2.2
  unfold InfOpt.totalCost at hpos
  rw [h1] at hpos
  simp only [Nat.sub_self] at hpos
  simp only at this
  rw [this] at hpos
  exact lt_irrefl _ hpos

theorem run_append (g : Prng σ P) (m : CostModel R) (p1 p2 : List (R → R → P)) (o : InfOpt σ R) :
    o.run g m (p1 ++ p2) = (o.run g m p1).bind fun o' => o'.run g m p2 := by
  induction p1 generalizing o with
  | nil => rfl
  | cons p ps ih =>
    simp only [List.cons_append, InfOpt.run]
    cases o.update g m p with
    | none => rfl
    | some o' => exact ih o'

/-- Minimum tracking along a history (helper). -/
theorem min_history (g : Prng σ P) (m : CostModel R) (probs : List (R → R → P)) :
    ∀ {o o' : InfOpt σ R} {t : PTree}, OInv m none false o t → o.ctree.tree.size ≠ 1 →
      o.run g m probs = some o' →
      o'.minTotal ≤ o.minTotal ∧ (probs ≠ [] → o'.minTotal ≤ o'.totalCost) ∧
      ((o'.minCtree = o.minCtree ∧ o'.minTotal = o.minTotal) ∨
        ∃ p1 p2 o1, p1 ≠ [] ∧ probs = p1 ++ p2 ∧ o.run g m p1 = some o1 ∧ o'.minCtree = o1.ctree ∧
          o'.minTotal = o1.totalCost) := by
  induction probs with
  | nil => rintro o o' t - - ⟨⟩; exact ⟨le_refl _, by simp, Or.inl ⟨rfl, rfl⟩⟩
  | cons p ps ih =>
    intro o o' t h hsz hrun
    obtain ⟨o1, t1, h1, hi1, hs1, hm⟩ := update_inv g m p (by simp) h
    have hr1 : o.run g m [p] = some o1 := by simp [InfOpt.run, h1]
    simp only [InfOpt.run, h1, Option.bind_some] at hrun
    have hsz1 : o1.ctree.tree.size ≠ 1 := by rw [hs1.size]; exact hsz
    obtain ⟨q1, q2, q3⟩ := ih hi1 hsz1 hrun
    have hm1 : o1.minTotal ≤ o.minTotal ∧ o1.minTotal ≤ o1.totalCost := by
      rcases hm with ⟨a, b, -⟩ | ⟨a | a, b, -⟩
      · rw [b]; exact ⟨le_of_lt a, le_refl _⟩
      · rw [b]; exact ⟨le_refl _, a⟩
      · exact absurd a hsz
    refine ⟨q1.trans hm1.1, ?_, ?_⟩
    · intro _
      cases ps with
      | nil => simp only [InfOpt.run, Option.some.injEq] at hrun; subst hrun; exact hm1.2
      | cons a b => exact q2 (by simp)
    · rcases q3 with ⟨a, b⟩ | ⟨p1, p2, o2, hne, rfl, hr, hc, ht⟩
      · rcases hm with ⟨-, c1, c2⟩ | ⟨-, c1, c2⟩
        · exact Or.inr ⟨[p], ps, o1, by simp, rfl, hr1, a.trans c2, b.trans c1⟩
        · exact Or.inl ⟨a.trans c2, b.trans c1⟩
      · refine Or.inr ⟨p :: p1, p2, o2, by simp, rfl, ?_, hc, ht⟩
        simp [InfOpt.run, h1, hr]

/-- C15: `min_ctree` is the initial minimum tree or the tree after some earlier update,
`min_total_cost` is its cost, it is at most the cost after every update so far, and it never
increases along the history. -/
theorem C15_min_is_best (g : Prng σ P) (m : CostModel R) (c : CTree) (seed : σ) (dis : Bool)
    (minC : Option CTree) (o0 o : InfOpt σ R) (probs : List (R → R → P))
    (htree : IsTree c.tree) (hmk : InfOpt.make m c seed dis minC = some (.ok o0))
    (hrun : o0.run g m probs = some o) :
    -- it is one of the states seen
    (o.minCtree = minC.getD c ∨ ∃ p1 p2 o1, p1 ≠ [] ∧ probs = p1 ++ p2 ∧ o0.run g m p1 = some o1 ∧
      o.minCtree = o1.ctree) ∧
    -- its recorded cost is its cost
    getCost o.minCtree.fuel m o.minCtree = some o.minTotal ∧
    -- it is at most every cost and every earlier minimum
    (∀ p1 p2 o1, probs = p1 ++ p2 → o0.run g m p1 = some o1 →
      o.minTotal ≤ o1.minTotal ∧ (p1 ≠ [] ∨ minC = none → o.minTotal ≤ o1.totalCost)) := by
  obtain ⟨t0, hwf⟩ := htree
  have hsz := make_size hwf hmk
  obtain ⟨hO, rfl, -, hmc, hmt, -⟩ := make_inv hwf hmk (out? := none) (by simp)
  have hmain := min_history g m probs hO hsz hrun
  have hcost : ∀ p1 o1, o0.run g m p1 = some o1 → 
      getCost o1.ctree.fuel m o1.ctree = some o1.totalCost := fun p1 o1 h1 =>
    (C14_total_cost_exact g m o0.ctree seed dis minC o0 o1 p1 ⟨t0, hwf⟩ hmk h1).2.1
  refine ⟨?_, ?_, ?_⟩
  · rcases hmain.2.2 with ⟨a, -⟩ | ⟨p1, p2, o1, h0, h1, h2, h3, -⟩
    · exact Or.inl (a.trans hmc)
    · exact Or.inr ⟨p1, p2, o1, h0, h1, h2, h3⟩
  · rcases hmain.2.2 with ⟨a, b⟩ | ⟨p1, p2, o1, h0, h1, h2, h3, h4⟩
    · rw [a, b, hmc]; exact hmt
    · rw [h3, h4]; exact hcost p1 o1 h2
  · intro p1 p2 o1 hp h1
    subst hp
    rw [run_append, h1, Option.bind_some] at hrun
    obtain ⟨o1', t1, hr1, hi1, hs1⟩ := run_history g m (by simp) p1 hO
    rw [h1] at hr1; cases hr1
    have hsz1 : o1.ctree.tree.size ≠ 1 := by rw [hs1.size]; exact hsz
    have hm1 := min_history g m p2 hi1 hsz1 hrun
    refine ⟨hm1.1, ?_⟩
    intro hne
    have hm0 := min_history g m p1 hO hsz h1
    by_cases hp1 : p1 = []
    · subst hp1
      simp only [ne_eq, not_true_eq_false, false_or] at hne
      simp only [InfOpt.run, Option.some.injEq] at h1; subst h1
      subst hne
      have e := hcost [] o0 rfl
      simp only [Option.getD_none] at hmt hmc
      rw [hmt] at e
      have := hm1.1
      simp only [Option.some.injEq] at e
      rwa [e] at this
    · exact hm1.1.trans (hm0.2.1 hp1)

/-- C16: with the shared-index check enabled, in every tree reached from a tree with exact
index sets every contraction joins two tensors that share an index (this holds for the
current tree and for the recorded best tree). -/
theorem C16_shared_inds (g : Prng σ P) (m : CostModel R) (c : CTree) (seed : σ)
    (t0 : PTree) (out : ISet) (o0 o : InfOpt σ R) (probs : List (R → R → P))
    (hwf : WellFormed c.tree t0) (hex : IndsExact c.inds out t0)
    (hmk : InfOpt.make m c seed false none = some (.ok o0))
    (hrun : o0.run g m probs = some o) :
    ∀ ct, (ct = o.ctree ∨ ct = o.minCtree) → ∀ p < ct.tree.size, ∀ a b,
      (ct.tree.nodes p).c0 = some a → (ct.tree.nodes p).c1 = some b →
      (ct.inds a ∩ ct.inds b).Nonempty := by
  have cur : ∀ ps o1, o0.run g m ps = some o1 → ∀ p < o1.ctree.tree.size, ∀ a b,
      (o1.ctree.tree.nodes p).c0 = some a → (o1.ctree.tree.nodes p).c1 = some b →
      (o1.ctree.inds a ∩ o1.ctree.inds b).Nonempty := by
    intro ps o1 h1 p hp a b ha hb
    obtain ⟨o', t, hr, hw, -, -, -, -, -, hv⟩ :=
      C13_update_keeps_tree g m c seed false none t0 out o0 ps hwf hex hmk
    rw [h1] at hr; cases hr
    have := ((ctree_isValid_iff hw _).1 hv).2.2 rfl
    rw [all_iff hw.enc] at this
    exact this p ((hw.mem p).2 hp) a b ha hb
  rintro ct (rfl | rfl)
  · exact cur probs o hrun
  · rcases (C15_min_is_best g m c seed false none o0 o probs ⟨t0, hwf⟩ hmk hrun).1 with h | ⟨p1, p2, o1, -, -, h2, h3⟩
    · rw [h]
      have h0 := cur [] o0 rfl
      obtain ⟨-, hc, -⟩ := make_inv hwf hmk (out? := none) (by simp)
      rw [hc] at h0; exact h0
    · rw [h3]; exact cur p1 o1 h2

/-- C17 (partial): with the Greedy rule the cost never increases, provided the generator never
returns the boundary value 0. Missing: draws equal to 0 (see `C17_violated`). -/
theorem C17_greedy_partial [Zero P] [One P] (g : Prng σ P) (hg : ∀ s, 0 < (g.uniform s).1)
    (m : CostModel R) (c : CTree) (seed : σ) (dis : Bool)
    (minC : Option CTree) (o0 o o' : InfOpt σ R) (probs : List (R → R → P))
    [IsOrderedAddMonoid R]
    (htree : IsTree c.tree) (hmk : InfOpt.make m c seed dis minC = some (.ok o0))
    (hrun : o0.run g m probs = some o) (hup : o.update g m probGreedy = some o') :
    o'.totalCost ≤ o.totalCost := by
  obtain ⟨t0, hwf⟩ := htree
  obtain ⟨hO, rfl, -⟩ := make_inv hwf hmk (out? := none) (by simp)
  obtain ⟨o2, t, hrun', hI, hS⟩ := run_history g m (by simp) probs hO
  rw [hrun] at hrun'; cases hrun'
  have hbody : ∀ (w : Walk σ R) a c d e, (Walk.body g m probGreedy w a c d e).total ≤ w.total := by
    intro w a c d e
    unfold Walk.body
    simp only
    split
    · next h =>
      simp only
      unfold probGreedy at h
      split at h
      · next h' => exact add_le_of_nonpos_right h'
      · exact absurd h (not_le.2 (hg _))
    · exact le_refl _
  have hrunle : ∀ fuel (w w' : Walk σ R), Walk.run g m probGreedy fuel w = some w' → w'.total ≤ w.total := by
    intro fuel
    induction fuel with
    | zero => intro w w' h; simp [Walk.run] at h
    | succ n ih =>
      intro w w' h
      unfold Walk.run at h
      split at h
      · cases h; exact le_refl _
      · exact (ih _ _ h).trans (hbody _ _ _ _ _)
  -- the cached total at the end equals the running total
  obtain ⟨o3, t3, h3, -⟩ := update_inv g m probGreedy (by simp) hI
  unfold InfOpt.update at hup
  simp only at hup
  split at hup
  · cases hup; exact le_refl _
  · next B hB =>
    rw [Option.map_eq_some_iff] at hup
    obtain ⟨w, hw, hwo⟩ := hup
    have hle := hrunle _ _ _ hw
    have hq : ∃ K s, WInv m none false ⟨{ o with prng := (g.next o.prng).2 }, B, o.totalCost⟩ K s ∧
        (∃ ob l r, s = fork ob B l r) ∧ K.depth < o.ctree.tree.size := by
      have hl := hI.wf.linked
      simp only at hl
      have hq : (g.next o.prng).1 % o.ctree.tree.nLeaves < o.ctree.tree.size := by
        have := hI.wf.size_eq
        simp only at this
        have h2 : 0 < o.ctree.tree.nLeaves := by unfold Tree.nLeaves; omega
        have := Nat.mod_lt (g.next o.prng).1 h2
        omega
      obtain ⟨K, s, hKs, hsr⟩ := exists_plug ((hI.wf.mem _).2 hq)
      simp only [Ctx.plug] at hKs
      subst hKs
      have hwf' : WellFormed o.ctree.tree (K.plug s) := hI.wf
      have henc := hwf'.enc
      rw [Ctx.encodes_plug] at henc
      have hp := encodes_root_parent henc.2
      rw [hsr, hB] at hp
      cases K with
      | top => simp [Ctx.par] at hp
      | frame ob p c K =>
        simp only [Ctx.par, Option.some.injEq] at hp
        subst hp
        have hpart := hI.part
        simp only [Ctx.plug] at hpart
        rw [Ctx.all_plug] at hpart
        refine ⟨K, fork ob B s c, ⟨hI.wf, by simp, hI.nodes, hI.leaf, hpart.2, ?_, hI.total, by simp,
          by simp, by simp⟩, ⟨ob, s, c, rfl⟩, ?_⟩
        · exact Ctx.tail_of_all (fun _ _ _ _ _ _ hh => hh) hpart.1
        · have h1 := K.depth_le
          have h2 := hwf'.nodup.length_le_of_subset (l₂ := List.range o.ctree.tree.size)
            (fun x hx => by simpa using (hwf'.mem x).1 hx)
          have h3 := ((Ctx.frame ob B c K).postorder_plug s).length_eq
          simp only [Ctx.poss, List.length_append, List.length_cons, List.length_range] at h2 h3
          omega
    obtain ⟨K, s, hW, hf, hd⟩ := hq
    obtain ⟨w', s', hr', hw', -⟩ := run_inv g m probGreedy (by simp) K _ _ _ hW hf hd
    have : Walk.run g m probGreedy o.ctree.tree.size
        ⟨{ o with prng := (g.next o.prng).2 }, B, InfOpt.totalCost { o with prng := (g.next o.prng).2 }⟩ = some w' := hr'
    rw [hw] at this; cases this
    have htot := (oinv_of_winv hw').2
    have hmin : o'.totalCost = w.o.totalCost := by
      rw [← hwo]; unfold InfOpt.updateMin; split <;> rfl
    rw [hmin, ← htot]
    exact hle

/-- Evaluation of a constructor followed by a computation (for the examples below). -/
theorem exists_of_eval {α β : Type} {x : Option (Except String α)} {f : α → Option β} {Q : α → β → Bool}
    (h : (match x with
      | some (.ok a) => (match f a with | some b => Q a b | none => false)
      | _ => false) = true) : ∃ a b, x = some (.ok a) ∧ f a = some b ∧ Q a b = true := by
  split at h
  · split at h
    · next a _ b hb => exact ⟨a, b, rfl, hb, h⟩
    · simp at h
  · simp at h

/-- **C17 is violated**: the Greedy rule accepts a move that increases the cost when the
uniform draw (a value of `[0, 1)`) is exactly 0, because the test is `u <= prob`. -/
theorem C17_violated : ∃ o0 o1, InfOpt.make exModel exCT () false none = some (.ok o0) ∧
    o0.update zeroPrng exModel probGreedy = some o1 ∧ o0.totalCost = 16 ∧ o1.totalCost = 18 := by
  have := exists_of_eval (x := InfOpt.make exModel exCT () false none)
    (f := fun o => o.update zeroPrng exModel probGreedy)
    (Q := fun a b => a.totalCost == 16 && b.totalCost == 18) (by decide +kernel)
  simpa using this

/-- The hypotheses of C13 - C16 hold for the running example, and a history of three updates
(two of them accepting every move) really moves the tree. -/
example : WellFormed exCT.tree exCTree ∧ IndsExact exCT.inds ∅ exCTree ∧
    ∃ o0 o, InfOpt.make exModel exCT true false none = some (.ok o0) ∧
      o0.run altPrng exModel [probBase, probGreedy, probBase] = some o ∧
      o.ctree.tree.nodes 3 ≠ o0.ctree.tree.nodes 3 := by
  have := exists_of_eval (x := InfOpt.make exModel exCT true false none)
    (f := fun o => o.run altPrng exModel [probBase, probGreedy, probBase])
    (Q := fun a b => decide (b.ctree.tree.nodes 3 ≠ a.ctree.tree.nodes 3)) (by decide +kernel)
  exact ⟨exCT_wf, exCT_exact, by simpa only [decide_eq_true_eq] using this⟩

/-- The hypotheses of C17 hold for the running example. -/
example : (∀ s, 0 < (altPrng.uniform s).1) ∧
    ∃ o0 o, InfOpt.make exModel exCT true false none = some (.ok o0) ∧
      o0.update altPrng exModel probGreedy = some o ∧ true = true :=
  ⟨by decide +kernel, exists_of_eval (Q := fun _ _ => true) (by decide +kernel)⟩

end TNCO
