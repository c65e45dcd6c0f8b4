import Verif.Spec.Session
import Verif.Props.Compare
import Verif.Props.FiniteWidth
import Verif.Lemmas.PathCost
import Verif.Lemmas.AnnealFw
import Verif.Lemmas.Report

/-!
The costs of a tree by name; sessions are histories of updates.
-/

namespace TNCO
open PTree

variable {ι : Type} [DecidableEq ι]

/-! ## Sums over nodes -/

/-- The cost of the contraction at a node. -/
def nodeCost {R : Type} [AddCommMonoid R] (f : ISet → R) (c : CTree) (p : ℕ) : R :=
  match (c.tree.nodes p).c0, (c.tree.nodes p).c1 with
  | some a, some b => f (c.inds a ∪ c.inds b)
  | _, _ => 0

theorem treeCost_postorder {R : Type} [AddCommMonoid R] (f : ISet → R) (c : CTree) (t : PTree) :
    ∀ par, t.Encodes c.tree.nodes par → treeCost f c.inds t = (t.postorder.map (nodeCost f c)).sum := by
  induction t with
  | leaf p =>
    intro par h
    simp only [Encodes] at h
    simp [treeCost, postorder, nodeCost, h]
  | node p l r ihl ihr =>
    intro par h
    obtain ⟨h, hl, hr⟩ := h
    have hp : nodeCost f c p = f (c.inds l.root ∪ c.inds r.root) := by simp [nodeCost, h]
    simp only [treeCost, postorder, List.map_append, List.sum_append, List.map_cons, List.map_nil, List.sum_cons, List.sum_nil, add_zero, hp, ihl _ hl, ihr _ hr]
    rw [add_assoc, add_comm]

theorem treeCost_range {R : Type} [AddCommMonoid R] (f : ISet → R) {c : CTree} {t : PTree} (h : WellFormed c.tree t) :
    treeCost f c.inds t = ((List.range c.tree.size).map (nodeCost f c)).sum := by
  rw [treeCost_postorder f c t none h.enc]
  refine (List.Perm.map _ ?_).sum_eq
  rw [List.perm_ext_iff_of_nodup h.nodup List.nodup_range]
  intro p; rw [h.mem, List.mem_range]

/-! ## Names and bits -/

theorem image_nameSet {order : List ι} (h : order.Nodup) {s : ISet} (hs : s ⊆ Finset.range order.length) :
    (nameSet order s).image order.idxOf = s := by
  ext i
  simp only [Finset.mem_image, mem_nameSet]
  constructor
  · rintro ⟨x, ⟨j, hj, hx⟩, rfl⟩
    obtain ⟨hl, rfl⟩ := List.getElem?_eq_some_iff.1 hx
    rwa [h.idxOf_getElem]
  · intro hi
    have hl : i < order.length := by simpa using hs hi
    exact ⟨order[i], ⟨i, hi, List.getElem?_eq_getElem hl⟩, h.idxOf_getElem _ _⟩

theorem nameSet_sub {order : List ι} (s : ISet) : ∀ x ∈ nameSet order s, x ∈ order := by
  intro x hx
  obtain ⟨i, -, h⟩ := mem_nameSet.1 hx
  exact List.mem_of_getElem? h

theorem getInds_ok {t : PyTree ι} (h : t.indsOrder.length = t.core.nInds) (p : ℕ) : t.getInds p = .ok (nameSet t.indsOrder (t.core.inds p)) := by
  have := ofBits_names h (t.core.inds p)
  unfold ofBits at this
  unfold PyTree.getInds
  cases hn : namesOf t.indsOrder t.core.nInds (t.core.inds p) with
  | none => rw [hn] at this; cases this
  | some xs =>
    rw [hn] at this
    simp only [Option.map_some, Option.some.injEq] at this
    simp only [this]

theorem indsChild_ok {t : PyTree ι} (h : t.indsOrder.length = t.core.nInds) {p : ℕ} (hp : p < t.core.tree.size) :
    t.indsChild (some p) = .ok (nameSet t.indsOrder (t.core.inds p)) := by
  show t.indsAt (p : ℤ) = _
  unfold PyTree.indsAt pyPos
  rw [if_pos (by omega), if_pos (by exact_mod_cast hp)]
  simp only [Int.toNat_natCast]
  exact getInds_ok h p

theorem dimOf_get {order : List ι} {D : Dims} {n : ℕ} (hl : order.length = n) (hD : D.ok n = true) {x : ι} (hx : x ∈ order) :
    dimOf order D x = some (D.get (order.idxOf x)) := by
  unfold dimOf
  rw [if_pos hx]
  cases D with
  | int d => rfl
  | vec l =>
    simp only [Dims.ok, Bool.and_eq_true, beq_iff_eq] at hD
    have : order.idxOf x < l.length := by rw [hD.1, ← hl]; exact List.idxOf_lt_length_of_mem hx
    simp only [Dims.get]
    rw [List.getD_eq_getElem _ _ this, List.getElem?_eq_getElem this]

/-! ## What the Python cost models return for the tensors of a tree -/

theorem core_inv {enum : Finset ι → List ι} {m : PyCost ι} {order : List ι} {c : CostCore} (h : m.core enum order = .ok c) :
    ∃ n : ℕ, 0 < n ∧ (∀ s, m.sparse = some s → s ≠ ∅ → m.nProjs = some (.int n)) ∧ ∀ x ∈ m.sparseSet, x ∈ order := by
  unfold PyCost.core at h
  unfold PyCost.sparseSet
  split at h
  · next h0 => exact ⟨1, one_pos, by simp [h0], by simp [h0]⟩
  next s h0 =>
  split at h
  · next he => exact ⟨1, one_pos, by rintro s' hs' hne; rw [h0] at hs'; cases hs'; exact absurd he hne, by simp [h0, he]⟩
  split at h
  · cases h
  next hsub =>
  split at h
  · cases h
  split at h
  · cases h
  next n hn =>
  push Not at hsub
  refine ⟨n, ?_, ?_, ?_⟩
  · cases h; unfold projsArg at hn
    split at hn
    · cases hn
    · next h0 _ =>
      cases hn
      rcases Nat.eq_zero_or_pos n with rfl | h
      · exact absurd rfl h0
      · exact h
    · cases hn
  · intro _ _ _
    unfold projsArg at hn
    split at hn
    · cases hn
    · next hp => cases hn; rw [hp]; rfl
    · cases hn
  · rw [h0]
    intro x hx
    exact List.mem_toFinset.1 (hsub hx)

theorem enum_toFinset {enum : Finset ι → List ι} (he : EnumOk enum) (s : Finset ι) : (enum s).toFinset = s := by
  ext x; simp [(he s).2]

section
variable {enum : Finset ι → List ι} (he : EnumOk enum) {m : PyCost ι} {order : List ι} {c : CostCore} {D : Dims} {dims : PyDims ι}
include he

/-- By name: the same number as in C++. -/
theorem contractionCost_core (hc : m.core enum order = .ok c)
    (hd : ∀ x ∈ order, dims.get? x = some (D.get (order.idxOf x))) {A B C : Finset ι} (hA : ∀ x ∈ A, x ∈ order) (hB : ∀ x ∈ B, x ∈ order)
    (hC : ∀ x ∈ C, x ∈ order) :
    m.contractionCost enum (enum A) (enum B) (enum C) dims = .ok (c.cost D ((A ∪ B).image order.idxOf)) := by
  obtain ⟨n, h0, hp, hS⟩ := core_inv hc
  obtain ⟨c', hc', hbig⟩ := core_cost he h0 hp hS (d := fun x => D.get (order.idxOf x)) (D := D) (fun _ _ => rfl)
  rw [hc] at hc'; cases hc'
  rw [hbig (A ∪ B) (by intro x hx; rcases Finset.mem_union.1 hx with h | h; exacts [hA x h, hB x h])]
  set order' := m.allInds enum (uniqueEverseen (enum A ++ enum B ++ enum C)) with ho
  have hmem : ∀ x, x ∈ order' ↔ x ∈ A ∨ x ∈ B ∨ x ∈ C ∨ x ∈ m.sparseSet := fun x => by
    rw [ho, mem_allInds he, mem_uniqueEverseen]; simp [(he _).2, or_assoc]
  have hin : ∀ x ∈ order', x ∈ order := fun x hx => by
    rcases (hmem x).1 hx with h | h | h | h
    exacts [hA x h, hB x h, hC x h, hS x h]
  obtain ⟨D', hD, hD'⟩ := inOrder_ok (dims := dims) (order := order') (d := fun x => D.get (order.idxOf x)) fun x hx => hd x (hin x hx)
  obtain ⟨c', hc', hsm⟩ := core_cost he h0 hp (fun x hx => (hmem x).2 (.inr (.inr (.inr hx)))) hD'
  have hA' : ∀ x ∈ enum A, x ∈ order' := fun x hx => (hmem x).2 (.inl (((he _).2 x).1 hx))
  have hB' : ∀ x ∈ enum B, x ∈ order' := fun x hx => (hmem x).2 (.inr (.inl (((he _).2 x).1 hx)))
  have hC' : ∀ x ∈ enum C, x ∈ order' := fun x hx => (hmem x).2 (.inr (.inr (.inl (((he _).2 x).1 hx))))
  have := hsm (A ∪ B) (by
    intro x hx
    rcases Finset.mem_union.1 hx with h | h
    · exact (hmem x).2 (.inl h)
    · exact (hmem x).2 (.inr (.inl h)))
  rw [Finset.image_union] at this
  unfold PyCost.contractionCost
  simp only [← ho, hD, hc', bitsIn_ok (he A).1 hA', bitsIn_ok (he B).1 hB', bitsIn_ok (he C).1 hC', enum_toFinset he, this,
    bind, Except.bind, pure, Except.pure]

variable {W : Type} [AddCommGroup W] [LinearOrder W]

theorem contractionCost_fw {m : PyFwCost ι W} (hc : m.core enum order = .ok c)
    (hd : ∀ x ∈ order, dims.get? x = some (D.get (order.idxOf x))) {A B C S : Finset ι} (hA : ∀ x ∈ A, x ∈ order) (hB : ∀ x ∈ B, x ∈ order)
    (hC : C ⊆ A ∪ B) (hS : ∀ x ∈ S, x ∈ order) :
    m.contractionCost enum (enum A) (enum B) (enum C) dims (enum S) = .ok (c.cost D ((A ∪ B ∪ S).image order.idxOf)) := by
  obtain ⟨n, h0, hp, hsp⟩ := core_inv hc
  obtain ⟨c', hc', hbig⟩ := core_cost he h0 hp hsp (d := fun x => D.get (order.idxOf x)) (D := D) (fun _ _ => rfl)
  rw [hc] at hc'; cases hc'
  rw [hbig (A ∪ B ∪ S) (by
    intro x hx
    simp only [Finset.mem_union] at hx
    rcases hx with (h | h) | h
    exacts [hA x h, hB x h, hS x h])]
  set order' := m.allInds enum (uniqueEverseen (enum A ++ enum B ++ enum C ++ enum S)) with ho
  have hmem : ∀ x, x ∈ order' ↔ x ∈ A ∨ x ∈ B ∨ x ∈ C ∨ x ∈ S ∨ x ∈ m.sparseSet := fun x => by
    rw [ho, mem_allInds he, mem_uniqueEverseen]; simp [(he _).2, or_assoc]
  have hCo : ∀ x ∈ C, x ∈ order := fun x hx => by
    rcases Finset.mem_union.1 (hC hx) with h | h
    exacts [hA x h, hB x h]
  have hin : ∀ x ∈ order', x ∈ order := fun x hx => by
    rcases (hmem x).1 hx with h | h | h | h | h
    exacts [hA x h, hB x h, hCo x h, hS x h, hsp x h]
  obtain ⟨D', hD, hD'⟩ := inOrder_ok (dims := dims) (order := order') (d := fun x => D.get (order.idxOf x)) fun x hx => hd x (hin x hx)
  obtain ⟨c', hc', hsm⟩ := core_cost he h0 hp (fun x hx => (hmem x).2 (.inr (.inr (.inr (.inr hx))))) hD'
  have hA' : ∀ x ∈ enum A, x ∈ order' := fun x hx => (hmem x).2 (.inl (((he _).2 x).1 hx))
  have hB' : ∀ x ∈ enum B, x ∈ order' := fun x hx => (hmem x).2 (.inr (.inl (((he _).2 x).1 hx)))
  have hC' : ∀ x ∈ enum C, x ∈ order' := fun x hx => (hmem x).2 (.inr (.inr (.inl (((he _).2 x).1 hx))))
  have hS' : ∀ x ∈ enum S, x ∈ order' := fun x hx => (hmem x).2 (.inr (.inr (.inr (.inl (((he _).2 x).1 hx)))))
  have := hsm (A ∪ B ∪ S) (by
    intro x hx
    simp only [Finset.mem_union] at hx
    rcases hx with (h | h) | h
    · exact (hmem x).2 (.inl h)
    · exact (hmem x).2 (.inr (.inl h))
    · exact (hmem x).2 (.inr (.inr (.inr (.inl h)))))
  rw [Finset.image_union, Finset.image_union] at this
  have hany : ((enum C).any fun x => decide (x ∉ enum A ++ enum B)) = false := by
    rw [List.any_eq_false]
    intro x hx
    simp only [decide_eq_true_eq, not_not, List.mem_append, (he _).2] at hx ⊢
    exact Finset.mem_union.1 (hC hx)
  unfold PyFwCost.contractionCost
  simp only [hany, Bool.false_eq_true, if_false, ← ho, hD, hc', bitsIn_ok (he A).1 hA', bitsIn_ok (he B).1 hB', bitsIn_ok (he C).1 hC', bitsIn_ok (he S).1 hS',
    enum_toFinset he, this, bind, Except.bind, pure, Except.pure]

theorem width_core {log2 : ℕ → W} (hlog : ∀ n, 0 ≤ log2 n) {m : PyFwCost ι W} (hc : m.core enum order = .ok c)
    (hd : ∀ x ∈ order, dims.get? x = some (D.get (order.idxOf x))) {A : Finset ι} (hA : ∀ x ∈ A, x ∈ order) :
    m.width log2 enum (enum A) dims = .ok (c.width log2 D (A.image order.idxOf)) := by
  obtain ⟨n, h0, hp, hsp⟩ := core_inv hc
  obtain ⟨c', hc', hbig, -⟩ := core_width log2 he h0 (hlog n) hp hsp (d := fun x => D.get (order.idxOf x)) (D := D) (fun _ _ => rfl)
  rw [hc] at hc'; cases hc'
  rw [hbig A hA]
  set order' := m.allInds enum (enum A) with ho
  have hmem : ∀ x, x ∈ order' ↔ x ∈ A ∨ x ∈ m.sparseSet := fun x => by
    rw [ho, mem_allInds he]; simp [(he _).2]
  have hin : ∀ x ∈ order', x ∈ order := fun x hx => by
    rcases (hmem x).1 hx with h | h
    exacts [hA x h, hsp x h]
  obtain ⟨D', hD, hD'⟩ := inOrder_ok (dims := dims) (order := order') (d := fun x => D.get (order.idxOf x)) fun x hx => hd x (hin x hx)
  obtain ⟨c', hc', hsm, -⟩ := core_width log2 he h0 (hlog n) hp (fun x hx => (hmem x).2 (.inr hx)) hD'
  have hA' : ∀ x ∈ enum A, x ∈ order' := fun x hx => (hmem x).2 (.inl (((he _).2 x).1 hx))
  have := hsm A fun x hx => (hmem x).2 (.inl hx)
  unfold PyFwCost.width
  simp only [← ho, hD, hc', bitsIn_ok (he A).1 hA', enum_toFinset he, this, bind, Except.bind, pure, Except.pure]

end

/-! ## Totals -/

/-- Adding up the costs of all contractions. -/
theorem sumCosts_ok {t : PyTree ι} {T : PTree} (hwf : WellFormed t.core.tree T) (hl : t.indsOrder.length = t.core.nInds)
    {cost : Finset ι → Finset ι → Finset ι → Except PyErr ℕ} {f : ISet → ℕ}
    (h : ∀ p < t.core.tree.size, ∀ a b, (t.core.tree.nodes p).c0 = some a → (t.core.tree.nodes p).c1 = some b →
      cost (nameSet t.indsOrder (t.core.inds a)) (nameSet t.indsOrder (t.core.inds b)) (nameSet t.indsOrder (t.core.inds p)) =
        .ok (f (t.core.inds a ∪ t.core.inds b))) :
    t.total cost = .ok (treeCost f t.core.inds T) := by
  rw [treeCost_range f hwf]
  unfold PyTree.total
  have key : ∀ l : List ℕ, (∀ p ∈ l, p < t.core.tree.size) → t.sumCosts cost l = .ok (l.map (nodeCost f t.core)).sum := by
    intro l
    induction l with
    | nil => intro _; rfl
    | cons p l ih =>
      intro hp
      have hpl := hp p (by simp)
      have ih := ih fun q hq => hp q (by simp [hq])
      have hlk := hwf.linked
      unfold PyTree.sumCosts
      cases h0 : (t.core.tree.nodes p).c0 with
      | none =>
        have hn : nodeCost f t.core p = 0 := by simp [nodeCost, h0]
        have : (t.core.tree.nodes p).isLeaf = true := by
          have := (hlk.leaf1 p hpl).2 ((hlk.leaf0 p hpl).1 h0)
          simp [Node.isLeaf, h0, this]
        rw [if_pos this, ih, List.map_cons, List.sum_cons, hn, zero_add]
      | some a =>
        cases h1 : (t.core.tree.nodes p).c1 with
        | none =>
          have := (hlk.leaf0 p hpl).2 ((hlk.leaf1 p hpl).1 h1)
          rw [h0] at this; cases this
        | some b =>
          have hn : nodeCost f t.core p = f (t.core.inds a ∪ t.core.inds b) := by simp [nodeCost, h0, h1]
          have ha : a < t.core.tree.size := (hlk.child0 p hpl a h0).1
          have hb : b < t.core.tree.size := (hlk.child1 p hpl b h1).1
          have : (t.core.tree.nodes p).isLeaf = false := by simp [Node.isLeaf, h0, h1]
          rw [this, if_neg (by simp), indsChild_ok hl ha, indsChild_ok hl hb, getInds_ok hl p]
          simp only [bind, Except.bind, pure, Except.pure, h p hpl a b h0 h1, ih, List.map_cons, List.sum_cons, hn]
  exact key _ fun p hp => List.mem_range.1 hp

theorem treeCost_cast (f : ISet → ℕ) (inds : ℕ → ISet) (t : PTree) : ((treeCost f inds t : ℕ) : ℤ) = treeCost (fun s => (f s : ℤ)) inds t := by
  induction t with
  | leaf p => rfl
  | node p l r ihl ihr => simp only [treeCost, Nat.cast_add, ihl, ihr]

section
variable {enum : Finset ι → List ι} (he : EnumOk enum) {order : List ι} {c : CTree} {T : PTree} {cc : CostCore} (nT : ℕ) (tp : List ℕ)
include he

theorem totalInf_ok {m : PyCost ι} (htidy : c.Tidy order) (hwf : WellFormed c.tree T) (hv : c.isValid false = true) (hc : m.core enum order = .ok cc) :
    ∃ k : ℕ, (⟨c, nT, tp, order⟩ : PyTree ι).totalInf enum m = .ok k ∧ (k : ℤ) = treeCost (cc.model c.dims).get c.inds T := by
  refine ⟨treeCost (cc.cost c.dims) c.inds T, sumCosts_ok (t := ⟨c, nT, tp, order⟩) hwf htidy.len ?_, treeCost_cast _ _ _⟩
  intro p hp a b ha hb
  have hlt : ∀ q, c.inds q ⊆ Finset.range order.length := fun q => htidy.len ▸ htidy.clean.inds_lt q
  have := contractionCost_core he (D := c.dims) (dims := (⟨c, nT, tp, order⟩ : PyTree ι).dims) hc
    (fun x hx => dimOf_get htidy.len ((ctree_isValid_iff hwf _).1 hv).1 hx)
    (nameSet_sub (order := order) (c.inds a)) (nameSet_sub (c.inds b)) (nameSet_sub (c.inds p))
  rw [← nameSet_union, image_nameSet htidy.nodup (Finset.union_subset (hlt a) (hlt b))] at this
  exact this

variable {W : Type} [AddCommGroup W] [LinearOrder W]

theorem totalFw_ok {m : PyFwCost ι W} (htidy : c.Tidy order) (hwf : WellFormed c.tree T) (hv : c.isValid false = true) (hc : m.core enum order = .ok cc)
    {S : ISet} (hS : S ⊆ Finset.range order.length) :
    ∃ k : ℕ, (⟨c, nT, tp, order⟩ : PyTree ι).totalFw enum m (nameSet order S) = .ok k ∧
      (k : ℤ) = treeCost (fun X => (cc.model c.dims).get (X ∪ S)) c.inds T := by
  refine ⟨treeCost (fun X => cc.cost c.dims (X ∪ S)) c.inds T, sumCosts_ok (t := ⟨c, nT, tp, order⟩) (f := fun X => cc.cost c.dims (X ∪ S)) hwf htidy.len ?_,
    treeCost_cast (fun X => cc.cost c.dims (X ∪ S)) _ _⟩
  intro p hp a b ha hb
  have hlt : ∀ q, c.inds q ⊆ Finset.range order.length := fun q => htidy.len ▸ htidy.clean.inds_lt q
  have hloc := ((ctree_isValid_iff hwf _).1 hv).2.1
  rw [all_iff hwf.enc] at hloc
  have hsub := (hloc p ((hwf.mem p).2 hp) a b ha hb).2
  have := contractionCost_fw he (D := c.dims) (dims := (⟨c, nT, tp, order⟩ : PyTree ι).dims) (C := nameSet order (c.inds p)) hc
    (fun x hx => dimOf_get htidy.len ((ctree_isValid_iff hwf _).1 hv).1 hx)
    (nameSet_sub (order := order) (c.inds a)) (nameSet_sub (c.inds b)) (by
      rw [← nameSet_union]
      intro x hx
      obtain ⟨i, hi, h⟩ := mem_nameSet.1 hx
      exact mem_nameSet.2 ⟨i, hsub hi, h⟩) (nameSet_sub S)
  rw [← nameSet_union, ← nameSet_union, image_nameSet htidy.nodup (Finset.union_subset (Finset.union_subset (hlt a) (hlt b)) hS)] at this
  exact this

end

theorem sameLeaves_of {t : PyTree ι} {c : CTree} (ht : t.core.Tidy t.indsOrder) (hc : c.Tidy t.indsOrder) (hd : c.dims = t.core.dims)
    (hsz : c.tree.size = t.core.tree.size) (htr : IsTree c.tree) (hleaf : ∀ p < (t.core.tree.size + 1) / 2, c.inds p = t.core.inds p)
    (hroot : c.inds (t.core.tree.size - 1) = t.core.inds (t.core.tree.size - 1)) : SameLeaves t ⟨c, t.nTensors, t.tensorsPos, t.indsOrder⟩ := by
  have hn : ∀ p, (⟨c, t.nTensors, t.tensorsPos, t.indsOrder⟩ : PyTree ι).inds p = nameSet t.indsOrder (c.inds p) := fun p =>
    (nameSet_inds ⟨c, t.nTensors, t.tensorsPos, t.indsOrder⟩ hc.len.symm p).symm
  have hn' : ∀ p, t.inds p = nameSet t.indsOrder (t.core.inds p) := fun p => (nameSet_inds t ht.len.symm p).symm
  refine ⟨rfl, rfl, rfl, by unfold PyTree.dims; rw [hd], hsz, htr, ?_, ?_⟩
  · intro p hp
    rw [hn, hn', hleaf p hp]
  · unfold PyTree.outputInds
    rw [hn, hn']
    simp only [hsz, hroot]

/-! ## Sessions -/

section
variable {σ P β : Type} [LinearOrder P]

theorem inf_init_ok {W : Type} {B : Build} {enum : Finset ι → List ι} {t : PyTree ι} {cm : ModelArg ι W} {seed : σ} {dis extra : Bool}
    {minT : Option (PyTree ι)} {o : InfObj ι σ} (h : InfObj.init B enum t cm seed dis extra minT = some (.ok o)) :
    cm = .infinite o.cmodel ∧ extra = false ∧ o.cmodel.costType ∈ B.costTypes ∧ o.cmodel.core enum t.indsOrder = .ok o.core ∧
      InfOpt.make (o.core.model t.core.dims) t.core seed dis (minT.map PyTree.core) = some (.ok o.opt.core) ∧ o.opt.cache = t.cache := by
  unfold InfObj.init at h
  split at h
  · next m =>
    split at h
    · cases h
    next hx =>
    split at h
    · cases h
    next ht =>
    split at h
    · cases h
    next c hc =>
    unfold InfObj.build at h
    split at h
    · cases h
    · cases h
    next oc hoc =>
    cases h
    exact ⟨rfl, by simpa using hx, by simpa using ht, hc, hoc, rfl⟩
  · split at h <;> cases h
  · cases h

theorem inf_update_other {g : Prng σ P} {accept : ProbKind β → ℤ → ℤ → P} {o : InfObj ι σ} {p : Option (ProbObj β)}
    (h : ∀ q, p = some q → q.costType ≠ o.cmodel.costType) : o.update g accept p = some (o, some .typeError) := by
  cases p with
  | none => rfl
  | some q => exact if_pos (h q rfl)

theorem inf_update_same {g : Prng σ P} {accept : ProbKind β → ℤ → ℤ → P} {o : InfObj ι σ} {q : ProbObj β}
    (h : q.costType = o.cmodel.costType) : o.update g accept (some q) =
      (o.opt.core.update g (o.core.model o.opt.core.ctree.dims) (accept q.kind)).map fun c => ({ o with opt := { o.opt with core := c } }, none) :=
  if_neg (by simpa using h)

/-- A session is the history of the updates with a probability of the right type. -/
theorem inf_session {g : Prng σ P} {accept : ProbKind β → ℤ → ℤ → P} {c0 : InfOpt σ ℤ} {cc : CostCore} {D : Dims}
    (hd : ∀ qs o', c0.run g (cc.model D) qs = some o' → o'.ctree.dims = D) (ps : List (Option (ProbObj β))) :
    ∀ (o : InfObj ι σ) (qs : List (ℤ → ℤ → P)), o.core = cc → c0.run g (cc.model D) qs = some o.opt.core →
      o.session g accept ps = (o.opt.core.run g (cc.model D) ((probsFor o.cmodel.costType ps).map accept)).map
        fun c => { o with opt := { o.opt with core := c } } := by
  induction ps with
  | nil => intro o qs hc h; rfl
  | cons p ps ih =>
    intro o qs hc h
    unfold InfObj.session
    by_cases hp : ∃ q, p = some q ∧ q.costType = o.cmodel.costType
    · obtain ⟨q, rfl, hq⟩ := hp
      have hpf : probsFor o.cmodel.costType (some q :: ps) = q.kind :: probsFor o.cmodel.costType ps := by
        simp [probsFor, hq]
      rw [inf_update_same hq, hpf, hc, hd qs _ h]
      simp only [List.map_cons, InfOpt.run]
      cases hu : o.opt.core.update g (cc.model D) (accept q.kind) with
      | none => rfl
      | some c1 =>
        simp only [Option.map_some]
        have hr : c0.run g (cc.model D) (qs ++ [accept q.kind]) = some c1 := by
          rw [run_append, h, Option.bind_some]
          simp [InfOpt.run, hu]
        exact ih _ _ rfl hr
    · have hne : ∀ q, p = some q → q.costType ≠ o.cmodel.costType := fun q h1 h2 => hp ⟨q, h1, h2⟩
      have hpf : probsFor o.cmodel.costType (p :: ps) = probsFor o.cmodel.costType ps := by
        cases p with
        | none => rfl
        | some q => simp [probsFor, hne q rfl]
      rw [inf_update_other hne, hpf]
      exact ih o qs hc h

/-- What one state of an infinite-memory history shows. -/
theorem inf_point {enum : Finset ι → List ι} (he : EnumOk enum) {g : Prng σ P} {m : PyCost ι} {t : PyTree ι} {seed : σ} {dis : Bool} {cc : CostCore}
    {c0 o : InfOpt σ ℤ} {qs : List (ℤ → ℤ → P)} {t0 : PTree} {out : ISet} (htidy : t.core.Tidy t.indsOrder) (hwf : WellFormed t.core.tree t0)
    (hex : IndsExact t.core.inds out t0) (hv : t.core.isValid false = true) (hc : m.core enum t.indsOrder = .ok cc)
    (hmk : InfOpt.make (cc.model t.core.dims) t.core seed dis none = some (.ok c0)) (hrun : c0.run g (cc.model t.core.dims) qs = some o) :
    o.ctree.dims = t.core.dims ∧ ∃ T : PyTree ι, T.core = o.ctree ∧ getCtree t.cache o.ctree = .ok T ∧ SameLeaves t T ∧ T.core.isValid (!dis) = true ∧
      ∃ k : ℕ, T.totalInf enum m = .ok k ∧ (k : ℤ) = o.totalCost := by
  have hpos : ∀ s, s ⊆ Finset.range t.core.nInds → 0 < (cc.model t.core.dims).get s := fun s hs =>
    core_pos hc ((ctree_isValid_iff hwf _).1 hv).1 hs
  obtain ⟨hcl, hti, hT, hvd, hv', hd, hdis, htp⟩ := inf_state htidy hwf hex hpos hmk hrun
  obtain ⟨o', T, hrun', hw, hsz, hleaf, hroot, -, -, -⟩ := C13_update_keeps_tree g (cc.model t.core.dims) t.core seed dis none t0 out c0 qs hwf hex hmk
  rw [hrun] at hrun'; cases hrun'
  have hg := getCtree_tidy hti hv' hw.linked.pos t.nTensors t.tensorsPos
  rw [hd] at hg
  obtain ⟨k, hk, hk'⟩ := totalInf_ok he t.nTensors t.tensorsPos hti hw hv' hc
  refine ⟨hd, ⟨o.ctree, t.nTensors, t.tensorsPos, t.indsOrder⟩, rfl, hg, sameLeaves_of htidy hti hd hsz hT hleaf hroot, hvd, k, hk, ?_⟩
  rw [hk', hd]
  exact ((C14_total_cost_exact g _ t.core seed dis none c0 o qs ⟨t0, hwf⟩ hmk hrun).1 T hw).symm

end

end TNCO
