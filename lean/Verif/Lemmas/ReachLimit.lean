import Verif.Lemmas.ReachPath
import Mathlib.Analysis.SpecificLimits.Basic

/-! Helper lemmas: finitely many trees, a range for all costs, and the limit. -/

namespace TNCO
open PTree MeasureTheory

variable {σ τ : Type}

namespace PTree

/-! ### The cost of a tree, from the indices of the leaves -/

/-- The cost with the exact index sets. -/
def semCost (f : ISet → ℝ) (lf : ℕ → ISet) : PTree → ISet → ℝ
  | .leaf _, _ => 0
  | .node _ l r, ext => f (l.L lf ∩ (ext ∪ r.L lf) ∪ r.L lf ∩ (ext ∪ l.L lf)) + semCost f lf l (ext ∪ r.L lf) +
      semCost f lf r (ext ∪ l.L lf)

theorem treeCost_sem {f : ISet → ℝ} {inds lf : ℕ → ISet} {t : PTree} {ext : ISet} (h : t.Sem inds ext)
    (hl : ∀ p ∈ t.leaves, inds p = lf p) : treeCost f inds t = semCost f lf t ext := by
  induction t generalizing ext with
  | leaf p => rfl
  | node p l r ihl ihr =>
    simp only [PTree.leaves, List.mem_append] at hl
    have el : l.L inds = l.L lf := leafInds_congr fun q hq => hl q (Or.inl hq)
    have er : r.L inds = r.L lf := leafInds_congr fun q hq => hl q (Or.inr hq)
    have hL := h.2.1
    have hR := h.2.2
    simp only [treeCost, semCost]
    rw [sem_root hL, sem_root hR, ihl hL fun q hq => hl q (Or.inl hq), ihr hR fun q hq => hl q (Or.inr hq), el, er]

theorem SameTree.semCost {f : ISet → ℝ} {lf : ℕ → ISet} {t t' : PTree} (h : SameTree t t') (ext : ISet) :
    t.semCost f lf ext = t'.semCost f lf ext := by
  induction h generalizing ext with
  | leaf p => rfl
  | node h1 h2 ih1 ih2 =>
    have e1 := leafInds_perm (inds := lf) h1.leaves
    have e2 := leafInds_perm (inds := lf) h2.leaves
    simp only [PTree.semCost, PTree.L, e1, e2, ih1, ih2]
  | swap h1 h2 ih1 ih2 =>
    have e1 := leafInds_perm (inds := lf) h1.leaves
    have e2 := leafInds_perm (inds := lf) h2.leaves
    simp only [PTree.semCost, PTree.L, e1, e2, ih1, ih2]
    rw [Finset.union_comm (leafInds lf _ ∩ _)]
    ring

theorem semCost_range {f : ISet → ℝ} {lf : ℕ → ISet} {U : ISet} {a b : ℝ} (hf : ∀ s ⊆ U, a ≤ f s ∧ f s ≤ b) (ha : 0 < a)
    {t : PTree} (ht : t.L lf ⊆ U) (ext : ISet) :
    0 ≤ t.semCost f lf ext ∧ t.semCost f lf ext ≤ b * t.postorder.length ∧
      (∀ p l r, t = .node p l r → a ≤ t.semCost f lf ext) := by
  have hb : 0 < b := ha.trans_le ((hf ∅ (by simp)).1.trans (hf ∅ (by simp)).2)
  induction t generalizing ext with
  | leaf p => refine ⟨le_refl _, ?_, by simp⟩; simp [semCost, postorder]; exact hb.le
  | node p l r ihl ihr =>
    rw [L_node] at ht
    obtain ⟨l1, l2, -⟩ := ihl ((Finset.subset_union_left).trans ht) (ext ∪ r.L lf)
    obtain ⟨r1, r2, -⟩ := ihr ((Finset.subset_union_right).trans ht) (ext ∪ l.L lf)
    have hh := hf (l.L lf ∩ (ext ∪ r.L lf) ∪ r.L lf ∩ (ext ∪ l.L lf))
      ((Finset.union_subset_union Finset.inter_subset_left Finset.inter_subset_left).trans ht)
    simp only [semCost, postorder, List.length_append, List.length_singleton]
    push_cast
    refine ⟨by linarith [hh.1], by nlinarith [hh.2], fun _ _ _ _ => by linarith [hh.1]⟩

/-! ### Finitely many trees -/

theorem finite_trees (N : ℕ) : ∀ k, {t : PTree | t.postorder.length ≤ k ∧ ∀ p ∈ t.postorder, p < N}.Finite := by
  intro k
  induction k with
  | zero =>
    refine Set.Finite.subset Set.finite_empty ?_
    rintro t ⟨h, -⟩
    cases t <;> simp [postorder] at h
  | succ k ih =>
    refine Set.Finite.subset (((Set.finite_lt_nat N).image PTree.leaf).union
      ((Set.finite_lt_nat N).image2 (fun p (x : PTree × PTree) => PTree.node p x.1 x.2) (ih.prod ih))) ?_
    rintro t ⟨h, hp⟩
    cases t with
    | leaf p => exact Or.inl ⟨p, hp p (by simp [postorder]), rfl⟩
    | node p l r =>
      simp only [postorder, List.length_append, List.length_singleton, List.mem_append, List.mem_singleton] at h hp
      refine Or.inr ⟨p, hp p (Or.inr rfl), (l, r), ⟨⟨by dsimp only; omega, fun q hq => hp q (Or.inl (Or.inl hq))⟩,
        ⟨by dsimp only; omega, fun q hq => hp q (Or.inl (Or.inr hq))⟩⟩, rfl⟩

/-! ### Chains of moves -/

variable {adj : ℕ → ℕ → Prop}

/-- A number of moves. -/
def Chain (adj : ℕ → ℕ → Prop) : ℕ → PTree → PTree → Prop
  | 0, t, t' => SameTree t t'
  | k + 1, t, t' => ∃ s, Moves adj t s ∧ Chain adj k s t'

theorem Chain.pre : ∀ {k : ℕ} {t t' s : PTree}, SameTree s t → Chain adj k t t' → Chain adj k s t'
  | 0, _, _, _, hs, h => SameTree.trans hs h
  | _ + 1, _, _, _, hs, ⟨a, h1, h2⟩ => ⟨a, h1.congr hs (.refl a), h2⟩

theorem Chain.snoc : ∀ {k : ℕ} {t t' s : PTree}, Chain adj k t s → Moves adj s t' → Chain adj (k + 1) t t'
  | 0, _, t', _, h, hm => ⟨t', hm.congr h (.refl t'), .refl t'⟩
  | _ + 1, _, _, _, ⟨a, h1, h2⟩, hm => ⟨a, h1, Chain.snoc h2 hm⟩

theorem Reaches.chain {t t' : PTree} (h : Reaches adj t t') : ∃ k, Chain adj k t t' := by
  induction h with
  | same h => exact ⟨0, h⟩
  | step _ hm ih => obtain ⟨k, hk⟩ := ih; exact ⟨k + 1, hk.snoc hm⟩

end PTree

variable {m : CostModel ℝ} {out : ISet} {dis : Bool} {lf : ℕ → ISet} {N : ℕ} {M : ℕ}

/-! ### Facts about the states -/

theorem joined_of {inds : ℕ → ISet} {t : PTree} {ext : ISet} (hs : t.Sem inds ext) (hl : ∀ p ∈ t.leaves, inds p = lf p)
    (hsh : dis = false → t.All (ShQ inds)) : Joined (adjOf dis lf) t := by
  induction t generalizing ext with
  | leaf p => trivial
  | node p l r ihl ihr =>
    simp only [PTree.leaves, List.mem_append] at hl
    refine ⟨?_, ihl hs.2.1 (fun q hq => hl q (Or.inl hq)) (fun hd => (hsh hd).2.1),
      ihr hs.2.2 (fun q hq => hl q (Or.inr hq)) (fun hd => (hsh hd).2.2)⟩
    cases dis with
    | true =>
      obtain ⟨a, ha⟩ := exists_leaf l
      obtain ⟨b, hb⟩ := exists_leaf r
      exact ⟨a, ha, b, hb, Or.inl rfl⟩
    | false =>
      obtain ⟨i, hi⟩ := (hsh rfl).1
      rw [sem_root hs.2.1, sem_root hs.2.2] at hi
      simp only [Finset.mem_inter, mem_leafInds] at hi
      obtain ⟨⟨⟨a, ha, hia⟩, -⟩, ⟨b, hb, hib⟩, -⟩ := hi
      refine ⟨a, ha, b, hb, Or.inr ⟨i, ?_⟩⟩
      rw [← hl a (Or.inl ha), ← hl b (Or.inr hb)]
      exact Finset.mem_inter.2 ⟨hia, hib⟩

theorem Live.leafs_iff {o : InfOpt σ ℝ} {t : PTree} (h : Live m out dis lf N o t) : ∀ p ∈ t.leaves, o.ctree.inds p = lf p :=
  fun p hp => h.leafs p ((h.inv.wf.leaves p).1 hp)

theorem Live.joined {o : InfOpt σ ℝ} {t : PTree} (h : Live m out dis lf N o t) : Joined (adjOf dis lf) t :=
  joined_of (h.inv.sem out rfl) h.leafs_iff fun hd => h.inv.shr (by simp [hd])

theorem Live.total {o : InfOpt σ ℝ} {t : PTree} (h : Live m out dis lf N o t) : o.totalCost = t.semCost m.get lf out := by
  have h1 : o.totalCost = treeCost m.get o.ctree.inds t := h.inv.cost h.inv.wf
  rw [h1]
  exact treeCost_sem (h.inv.sem out rfl) h.leafs_iff

theorem costs_in (hpos : ∀ s, 0 < m.get s) (out : ISet) (dis : Bool) (lf : ℕ → ISet) (N : ℕ) :
    ∃ lo hi, 0 < lo ∧ lo ≤ hi ∧ CostsIn m out dis lf N lo hi := by
  obtain ⟨U, hU⟩ : ∃ U, U = leafInds lf (List.range N) := ⟨_, rfl⟩
  have hne : (U.powerset.image m.get).Nonempty := ⟨m.get ∅, Finset.mem_image_of_mem _ (by simp)⟩
  obtain ⟨a, ha⟩ : ∃ a, a = (U.powerset.image m.get).min' hne := ⟨_, rfl⟩
  obtain ⟨b, hb⟩ : ∃ b, b = (U.powerset.image m.get).max' hne := ⟨_, rfl⟩
  have hf : ∀ s ⊆ U, a ≤ m.get s ∧ m.get s ≤ b := by
    intro s hs
    have hm : m.get s ∈ U.powerset.image m.get := Finset.mem_image_of_mem _ (by simpa using hs)
    rw [ha, hb]
    exact ⟨Finset.min'_le _ _ hm, Finset.le_max' _ _ hm⟩
  have ha0 : 0 < a := by
    have := Finset.min'_mem _ hne
    rw [← ha, Finset.mem_image] at this
    obtain ⟨s, -, hs⟩ := this
    rw [← hs]; exact hpos s
  have hab : a ≤ b := (hf ∅ (by simp)).1.trans (hf ∅ (by simp)).2
  refine ⟨a, b * (N + 1), ha0, ?_, fun w K s h => ?_⟩
  · have : (0 : ℝ) ≤ N := Nat.cast_nonneg N
    nlinarith
  · have hw := h.inv
    have hsz := h.size
    have hl : ∀ p ∈ (K.plug s).leaves, w.o.ctree.inds p = lf p := hw.leafs_iff h.leafs
    have hc : w.total = (K.plug s).semCost m.get lf out := by
      rw [hw.cost hw.wf]
      exact treeCost_sem (hw.sem out rfl) hl
    have hsub : (K.plug s).L lf ⊆ U := by
      intro x hx
      obtain ⟨p, hp, hx⟩ := mem_leafInds.1 hx
      rw [hU]
      refine mem_leafInds.2 ⟨p, ?_, hx⟩
      rw [List.mem_range, ← hsz]
      exact (hw.wf.mem p).1 ((K.plug s).leaves_subset p hp)
    obtain ⟨-, r2, r3⟩ := semCost_range hf ha0 hsub out
    rw [hc]
    refine ⟨?_, r2.trans ?_⟩
    · obtain ⟨ob, l, r, rfl⟩ := h.shape
      cases hK : K.plug (fork ob w.posB l r) with
      | leaf p =>
        exfalso
        have := (K.postorder_plug (fork ob w.posB l r)).length_eq
        rw [hK] at this
        have h2 := (postorder_fork ob w.posB l r).length_eq
        have h3 := List.length_pos_of_mem l.root_mem
        simp [postorder] at this h2
        omega
      | node p x y => rw [hK] at r3; exact r3 p x y rfl
    · have h2 := hw.wf.nodup.length_le_of_subset (l₂ := List.range w.o.ctree.tree.size)
        (fun x hx => by simpa using (hw.wf.mem x).1 hx)
      rw [List.length_range, hsz] at h2
      have h3 : ((K.plug s).postorder.length : ℝ) ≤ N := by exact_mod_cast h2
      have : 0 < b := ha0.trans_le hab
      nlinarith

/-- Metropolis-Hastings accepts with a chance that depends on the range only. -/
theorem accepts_mh {lo hi B : ℝ} (hlo : 0 < lo) (hle : lo ≤ hi) (hB : 0 ≤ B) :
    0 < (hi / lo) ^ (-B) ∧ (hi / lo) ^ (-B) ≤ 1 ∧ ∀ prob : ℝ → ℝ → ℝ, (∀ d x, 0 < x → probMH B d x ≤ prob d x) →
      Accepts lo hi ((hi / lo) ^ (-B)) prob := by
  have h1 : 1 ≤ hi / lo := (one_le_div hlo).2 hle
  have hp1 : (hi / lo) ^ (-B) ≤ 1 := Real.rpow_le_one_of_one_le_of_nonpos h1 (by linarith)
  refine ⟨Real.rpow_pos_of_pos (by linarith) _, hp1, fun prob hprob d x h1 h2 h3 h4 => le_trans ?_ (hprob d x (hlo.trans_le h1))⟩
  unfold probMH
  split
  · exact hp1
  · next hd =>
    have hx : 0 < x := hlo.trans_le h1
    have e : 1 + d / x = (x + d) / x := by field_simp
    rw [e]
    refine Real.rpow_le_rpow_of_nonpos (div_pos (hlo.trans_le h3) hx) ?_ (by linarith)
    exact div_le_div₀ (by linarith) h4 hlo h1

/-! ### Reaching a tree -/

/-- A lower bound for the chance of any single move. -/
noncomputable def moveChance (M N : ℕ) (p : ℝ) : ENNReal := (M : ENNReal)⁻¹ * ((M : ENNReal)⁻¹ * ENNReal.ofReal p) ^ N

theorem moveChance_le {M N : ℕ} {p : ℝ} (hM : 2 ≤ M) (hp : p ≤ 1) : moveChance M N p ≤ 1 := by
  have e1 : (M : ENNReal)⁻¹ ≤ 1 := by
    rw [ENNReal.inv_le_one]; exact_mod_cast (by omega : 1 ≤ M)
  have e2 : ENNReal.ofReal p ≤ 1 := by rw [← ENNReal.ofReal_one]; exact ENNReal.ofReal_le_ofReal hp
  exact mul_le_one' e1 (pow_le_one' (mul_le_one' e1 e2) _)

theorem moveChance_pos {M N : ℕ} {p : ℝ} (hp : 0 < p) : moveChance M N p ≠ 0 := by
  unfold moveChance
  have e1 : (M : ENNReal)⁻¹ ≠ 0 := ENNReal.inv_ne_zero.2 (ENNReal.natCast_ne_top M)
  have e2 : ENNReal.ofReal p ≠ 0 := by simpa using hp
  exact mul_ne_zero e1 (pow_ne_zero _ (mul_ne_zero e1 e2))

section reach
variable {lo hi p : ℝ} (hM : 2 ≤ M) (hNM : (N + 1) / 2 ≤ M) (hp1 : p ≤ 1) (hcost : CostsIn m out dis lf N lo hi)
include hM hNM hp1 hcost

theorem Live.chain_ge {f : InfOpt Unit ℝ → ENNReal} {T : PTree} {v : ENNReal} :
    ∀ {k : ℕ} {t : PTree} {o : InfOpt Unit ℝ} {probs : List (ℝ → ℝ → ℝ)}, Chain (adjOf dis lf) k t T → After m out dis lf N o t →
      k ≤ probs.length → (∀ q ∈ probs, Accepts lo hi p q) →
      (∀ o' t' qs, After m out dis lf N o' t' → SameTree t' T → qs.length + k = probs.length → v ≤ InfOpt.means M m f qs o') →
      moveChance M N p ^ k * v ≤ InfOpt.means M m f probs o
  | 0, t, o, probs, hc, ho, hk, hq, hf => by
    rw [pow_zero, one_mul]
    exact hf o t probs ho hc (by simp)
  | k + 1, t, o, [], hc, ho, hk, hq, hf => by simp at hk
  | k + 1, t, o, q :: qs, ⟨s, h1, h2⟩, ho, hk, hq, hf => by
    simp only [InfOpt.means]
    rw [pow_succ', mul_assoc]
    refine Live.mean_move hM hp1 hcost (hq q (by simp)) hNM ho.1 h1 fun o' t' ho' hs => ?_
    refine Live.chain_ge (h2.pre hs) ho' (by simp at hk; omega) (fun r hr => hq r (by simp [hr])) fun o2 t2 rs h3 h4 h5 => ?_
    exact hf o2 t2 rs h3 h4 (by simp only [List.length_cons]; omega)

end reach

/-! ### The minimum that is recorded -/

/-- Whether the recorded minimum is at most `c`. -/
noncomputable def hit (c : ℝ) (o : InfOpt Unit ℝ) : ENNReal := open Classical in if o.minTotal ≤ c then 1 else 0

theorem means_const (hM : 0 < M) (a : ENNReal) (probs : List (ℝ → ℝ → ℝ)) (o : InfOpt Unit ℝ) :
    InfOpt.means M m (fun _ => a) probs o = a := by
  have := InfOpt.means_affine (m := m) (a := a) (b := 0) hM (by simp) (fun _ => 0) probs o
  simpa using this

theorem hit_stays (hM : 0 < M) (hN : 1 < N) {o : InfOpt Unit ℝ} {t : PTree} (h : After m out dis lf N o t) {c : ℝ}
    (hc : o.minTotal ≤ c) (probs : List (ℝ → ℝ → ℝ)) : 1 ≤ InfOpt.means M m (hit c) probs o := by
  rw [← means_const (m := m) hM 1 probs o]
  refine Live.means_mono hM hN (mt := c) (fun o' t' _ hle => ?_) probs h hc
  unfold hit
  rw [if_pos hle]

section limit
variable {lo hi p : ℝ} (hM : 2 ≤ M) (hNM : (N + 1) / 2 ≤ M) (hN : 1 < N) (hp1 : p ≤ 1) (hcost : CostsIn m out dis lf N lo hi)
include hM hNM hN hp1 hcost

/-- After enough updates the minimum is hit with some chance, from any state. -/
theorem hit_block {T : PTree} (hT : Joined (adjOf dis lf) T) (hTl : ∀ q, q ∈ T.leaves ↔ q < (N + 1) / 2) (hTn : T.leaves.Nodup) :
    ∃ k, ∀ {o : InfOpt Unit ℝ} {t : PTree} {probs : List (ℝ → ℝ → ℝ)}, After m out dis lf N o t → k ≤ probs.length →
      (∀ q ∈ probs, Accepts lo hi p q) → moveChance M N p ^ k ≤ InfOpt.means M m (hit (T.semCost m.get lf out)) probs o := by
  have hfin := finite_trees N N
  have hex : ∀ t : PTree, ∃ k, Joined (adjOf dis lf) t → t.leaves.Perm T.leaves → Chain (adjOf dis lf) k t T := by
    intro t
    by_cases h1 : Joined (adjOf dis lf) t ∧ t.leaves.Perm T.leaves
    · obtain ⟨k, hk⟩ := (reaches_all (adjOf_symm dis lf) t.leaves.length t T (le_refl _) h1.1 hT
        (h1.2.nodup_iff.2 hTn) h1.2).chain
      exact ⟨k, fun _ _ => hk⟩
    · exact ⟨0, fun a b => absurd ⟨a, b⟩ h1⟩
  choose len hlen using hex
  obtain ⟨k, hk⟩ := (hfin.image len).bddAbove
  refine ⟨k, fun {o t probs} ho hpl hacc => ?_⟩
  have hwf := ho.1.inv.wf
  simp only [Ctx.plug] at hwf
  have hsz := ho.1.size
  have hperm : t.leaves.Perm T.leaves := by
    rw [List.perm_ext_iff_of_nodup (leaves_nodup hwf.nodup) hTn]
    intro q
    rw [hwf.leaves, hTl, ← hsz]
  have hch := hlen t ho.1.joined hperm
  have hle : len t ≤ k := by
    refine hk ⟨t, ⟨?_, fun q hq => ?_⟩, rfl⟩
    · have h2 := hwf.nodup.length_le_of_subset (l₂ := List.range o.ctree.tree.size)
        (fun x hx => by simpa using (hwf.mem x).1 hx)
      rwa [List.length_range, hsz] at h2
    · rw [← hsz]; exact (hwf.mem q).1 hq
  refine le_trans (pow_le_pow_right_of_le_one' (moveChance_le hM hp1) hle) ?_
  rw [← mul_one (moveChance M N p ^ len t)]
  refine Live.chain_ge hM hNM hp1 hcost hch ho (hle.trans hpl) hacc fun o' t' qs h1 h2 _ => ?_
  refine hit_stays (by omega) hN h1 ?_ qs
  rw [← h2.semCost, ← h1.1.total]
  exact h1.2

theorem hit_blocks {c : ℝ} {k : ℕ} {e : ENNReal} (he : e ≤ 1)
    (hb : ∀ {o : InfOpt Unit ℝ} {t : PTree} {probs : List (ℝ → ℝ → ℝ)}, After m out dis lf N o t → k ≤ probs.length →
      (∀ q ∈ probs, Accepts lo hi p q) → e ≤ InfOpt.means M m (hit c) probs o) :
    ∀ (j : ℕ) {o : InfOpt Unit ℝ} {t : PTree} {probs : List (ℝ → ℝ → ℝ)}, After m out dis lf N o t → j * k ≤ probs.length →
      (∀ q ∈ probs, Accepts lo hi p q) → 1 - (1 - e) ^ j ≤ InfOpt.means M m (hit c) probs o := by
  intro j
  induction j with
  | zero => intro o t probs _ _ _; simp
  | succ j ih =>
    intro o t probs ho hl hacc
    have hr1 : (1 - e) ^ j ≤ 1 := pow_le_one' tsub_le_self j
    have hlen : k ≤ probs.length := by
      refine le_trans ?_ hl
      rw [Nat.succ_mul]; omega
    have h1 : e ≤ InfOpt.means M m (hit c) (probs.take k) o := hb ho (by simp [hlen]) fun q hq => hacc q (List.mem_of_mem_take hq)
    have h2 : InfOpt.means M m (fun o => (1 - (1 - e) ^ j) + (1 - e) ^ j * hit c o) (probs.take k) o ≤
        InfOpt.means M m (InfOpt.means M m (hit c) (probs.drop k)) (probs.take k) o := by
      refine Live.means_mono (by omega) hN (mt := o.minTotal) (fun o' t' ho' _ => ?_) _ ho (le_refl _)
      by_cases hh : o'.minTotal ≤ c
      · refine le_trans ?_ (hit_stays (by omega) hN ho' hh _)
        unfold hit
        rw [if_pos hh, mul_one, tsub_add_cancel_of_le hr1]
      · unfold hit
        rw [if_neg hh, mul_zero, add_zero]
        refine ih ho' ?_ fun q hq => hacc q (List.mem_of_mem_drop hq)
        rw [List.length_drop]
        rw [Nat.succ_mul] at hl
        omega
    rw [InfOpt.means_affine (by omega) (ne_top_of_le_ne_top ENNReal.one_ne_top hr1), ← InfOpt.means_append,
      List.take_append_drop] at h2
    refine le_trans ?_ h2
    rw [tsub_le_iff_right]
    calc (1 : ENNReal) = (1 - (1 - e) ^ j) + (1 - e) ^ j := (tsub_add_cancel_of_le hr1).symm
      _ = (1 - (1 - e) ^ j) + (1 - e) ^ j * (e + (1 - e)) := by rw [add_tsub_cancel_of_le he, mul_one]
      _ = (1 - (1 - e) ^ j) + (1 - e) ^ j * e + (1 - e) ^ (j + 1) := by rw [pow_succ]; ring
      _ ≤ _ := by gcongr

/-- The chance to miss falls exponentially. -/
theorem hit_rate (hp0 : 0 < p) {T : PTree} (hT : Joined (adjOf dis lf) T) (hTl : ∀ q, q ∈ T.leaves ↔ q < (N + 1) / 2)
    (hTn : T.leaves.Nodup) :
    ∃ (k : ℕ) (r : ENNReal), r < 1 ∧ ∀ (j : ℕ) {o : InfOpt Unit ℝ} {t : PTree} {probs : List (ℝ → ℝ → ℝ)}, Live m out dis lf N o t →
      j * k + 1 ≤ probs.length → (∀ q ∈ probs, Accepts lo hi p q) →
      1 - r ^ j ≤ InfOpt.means M m (hit (T.semCost m.get lf out)) probs o := by
  obtain ⟨k, hk⟩ := hit_block hM hNM hN hp1 hcost hT hTl hTn
  have he : moveChance M N p ^ k ≤ 1 := pow_le_one' (moveChance_le hM hp1) k
  have hr : 1 - moveChance M N p ^ k < 1 :=
    ENNReal.sub_lt_self ENNReal.one_ne_top one_ne_zero (pow_ne_zero _ (moveChance_pos hp0))
  refine ⟨k, _, hr, fun j {o t probs} ho hl hacc => ?_⟩
  cases probs with
  | nil => simp at hl
  | cons q qs =>
    simp only [InfOpt.means]
    have h0 := InfOpt.mean_affine (m := m) (a := 1 - (1 - moveChance M N p ^ k) ^ j) (b := 0) (M := M) (by omega) (by simp) q (fun _ => 0) o
    simp only [mul_zero, add_zero, zero_mul] at h0
    rw [← h0]
    refine Live.mean_mono (by omega) ho hN q fun o' t' ho' _ => ?_
    exact hit_blocks hM hNM hN hp1 hcost he hk j ho' (by simp at hl; omega) fun r hr => hacc r (by simp [hr])

/-- The chance tends to 1. -/
theorem hit_limit (hp0 : 0 < p) {T : PTree} (hT : Joined (adjOf dis lf) T) (hTl : ∀ q, q ∈ T.leaves ↔ q < (N + 1) / 2)
    (hTn : T.leaves.Nodup) {η : ENNReal} (hη : 0 < η) :
    ∃ n0, ∀ {o : InfOpt Unit ℝ} {t : PTree} {probs : List (ℝ → ℝ → ℝ)}, Live m out dis lf N o t → n0 ≤ probs.length →
      (∀ q ∈ probs, Accepts lo hi p q) → 1 - η ≤ InfOpt.means M m (hit (T.semCost m.get lf out)) probs o := by
  obtain ⟨k, r, hr, h⟩ := hit_rate hM hNM hN hp1 hcost hp0 hT hTl hTn
  obtain ⟨j, hj⟩ := ((tendsto_order.1 (ENNReal.tendsto_pow_atTop_nhds_zero_of_lt_one hr)).2 η hη).exists
  exact ⟨j * k + 1, fun {o t probs} ho hl hacc => le_trans (tsub_le_tsub_left hj.le 1) (h j ho hl hacc)⟩

end limit

end TNCO
