import Verif.Props.InfMem
import Verif.Model.InfValid

/-!
# Property C13, public form: `is_valid` of the optimizer after any history
-/

namespace TNCO
open PTree

theorem isLogClose_self {x atol : ℝ} (hx : 0 ≤ x) (ha : 0 ≤ atol) : isLogClose x x atol = true := by
  unfold isLogClose
  rw [if_neg (by simp [hx])]
  split
  · simp
  · simpa using ha

theorem partial_nonneg {cc pc : ℕ → ℝ} {t : PTree} (h1 : t.All (fun p _ _ => 0 ≤ cc p))
    (h2 : t.All (PartInv cc pc)) (h3 : ∀ p ∈ t.leaves, pc p = 0 ∧ cc p = 0) :
    ∀ p ∈ t.postorder, 0 ≤ pc p ∧ 0 ≤ cc p := by
  induction t with
  | leaf q =>
    intro p hp
    simp only [postorder, List.mem_singleton] at hp
    subst hp
    obtain ⟨a, b⟩ := h3 p (by simp [leaves])
    exact ⟨a.ge, b.ge⟩
  | node q l r ihl ihr =>
    obtain ⟨a1, a2, a3⟩ := h1
    obtain ⟨b1, b2, b3⟩ := h2
    have il := ihl a2 b2 fun p hp => h3 p (by simp [leaves, hp])
    have ir := ihr a3 b3 fun p hp => h3 p (by simp [leaves, hp])
    intro p hp
    simp only [postorder, List.mem_append, List.mem_singleton] at hp
    rcases hp with (hp | hp) | rfl
    · exact il p hp
    · exact ir p hp
    · refine ⟨?_, a1⟩
      rw [b1]
      have := (il _ l.root_mem).1
      have := (ir _ r.root_mem).1
      linarith

/-- C13, as the user sees it: for exact non-negative costs, `is_valid` of the optimizer
returns `True` after any history of updates, for every tolerance. -/
theorem C13_is_valid_true {σ P : Type} [LinearOrder P] (g : Prng σ P) (m : CostModel ℝ)
    (hm : ∀ s, 0 ≤ m.get s) (c : CTree) (seed : σ) (dis : Bool)
    (minC : Option CTree) (t0 : PTree) (out : ISet) (o0 o : InfOpt σ ℝ) (probs : List (ℝ → ℝ → P))
    (hwf : WellFormed c.tree t0) (hex : IndsExact c.inds out t0)
    (hmk : InfOpt.make m c seed dis minC = some (.ok o0))
    (hrun : o0.run g m probs = some o) (atol : ℝ) (ha : 0 ≤ atol) :
    o.isValid m atol = some true := by
  have key : ∀ ps o1, o0.run g m ps = some o1 →
      ∃ t, WellFormed o1.ctree.tree t ∧ o1.ctree.isValid (!dis) = true := by
    intro ps o1 h1
    obtain ⟨o', t, hr, hw, -, -, -, -, -, hv⟩ :=
      C13_update_keeps_tree g m c seed dis minC t0 out o0 ps hwf hex hmk
    rw [h1] at hr; cases hr
    exact ⟨t, hw, hv⟩
  have htree : IsTree c.tree := ⟨t0, hwf⟩
  have hmin0 := make_inv hwf hmk (out? := none) (by simp)
  -- facts about the current state
  obtain ⟨t, hw, hv⟩ := key probs o hrun
  have hloc := ((ctree_isValid_iff hw _).1 hv).2.1
  obtain ⟨hc1, hc2, ⟨k, hk, hkk⟩, hhy⟩ := C14_total_cost_exact g m c seed dis minC o0 o probs htree hmk hrun
  obtain ⟨k', hk', k1, k2, k3⟩ := costCache_make (m := m) hw hloc (fuel := o.ctree.fuel) (le_refl _)
  rw [hk] at hk'; cases hk'
  have hnn : ∀ p < o.ctree.tree.size, 0 ≤ k.partialCost p ∧ 0 ≤ k.contractionCost p := by
    intro p hp
    refine partial_nonneg (PTree.all_mono ?_ k2) k3 k1 p ((hw.mem p).2 hp)
    intro q a b _ _ _ h; rw [h]; exact hm _
  -- the best tree
  obtain ⟨hmc, hmt, -⟩ := C15_min_is_best g m c seed dis minC o0 o probs htree hmk hrun
  have hdis : o.disableShared = dis := by
    obtain ⟨hO, -, hd, -⟩ := hmin0
    obtain ⟨o', t', hrun', -, hS⟩ := run_history g m (by simp) probs hO
    rw [hrun] at hrun'; cases hrun'
    rw [hS.disable, hd]
  have hmv : o.minCtree.isValid (!dis) = true ∧ 0 ≤ o.minTotal := by
    rcases hmc with h | ⟨p1, p2, o1, -, -, h2, h3⟩
    · obtain ⟨-, -, -, -, h5, -, h7, -, h9⟩ := hmin0
      rw [h]
      refine ⟨h9, ?_⟩
      rw [h, h5] at hmt
      exact (Option.some.inj hmt) ▸ h7.le
    · obtain ⟨t1, hw1, hv1⟩ := key p1 o1 h2
      rw [h3]
      refine ⟨hv1, ?_⟩
      rw [h3, getCost_eq hw1 ((ctree_isValid_iff hw1 _).1 hv1).2.1 (fuel := o1.ctree.fuel) (le_refl _)] at hmt
      rw [← Option.some.inj hmt]
      clear hw1 hv1 hmt
      induction t1 with
      | leaf => exact le_refl _
      | node p l r ihl ihr => simp only [treeCost]; have := hm (o1.ctree.inds l.root ∪ o1.ctree.inds r.root); linarith
  unfold InfOpt.isValid
  simp only [hdis, hv, hmv.1, hmt, isLogClose_self hmv.2 ha, hk, bind, pure, Bool.not_true,
    Bool.false_eq_true, if_false, Option.bind_some]
  have e1 : allLogClose o.ctree.tree.size o.cost.partialCost k.partialCost atol = true := by
    simp only [allLogClose, List.all_eq_true, List.mem_range]
    intro p hp; rw [(hkk p hp).1]; exact isLogClose_self (hnn p hp).1 ha
  have e2 : allLogClose o.ctree.tree.size o.cost.contractionCost k.contractionCost atol = true := by
    simp only [allLogClose, List.all_eq_true, List.mem_range]
    intro p hp; rw [(hkk p hp).2]; exact isLogClose_self (hnn p hp).2 ha
  have e3 : ((List.range o.ctree.tree.size).all fun p => decide (o.hyper p = hyperCache o.ctree p)) = true := by
    simp only [List.all_eq_true, List.mem_range, decide_eq_true_eq]; exact hhy
  simp [e1, e2]
  intro p hp
  exact hhy p hp

/-- The hypothesis on the cost model holds for the library's models. -/
example : ∀ s, 0 ≤ (⟨fun s => (simpleGet exCT.dims s : ℝ)⟩ : CostModel ℝ).get s :=
  fun _ => Nat.cast_nonneg _

end TNCO
