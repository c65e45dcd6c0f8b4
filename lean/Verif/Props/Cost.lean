import Verif.Model.Cost
import Mathlib.Data.Fintype.BigOperators
import Mathlib.Algebra.Order.BigOperators.Group.Finset
import Mathlib.Algebra.Order.BigOperators.Ring.Finset
import Mathlib.Tactic.Ring
import Mathlib.Tactic.Linarith

/-!
# Properties C19, C20: cost models of the infinite-memory optimizer
-/

namespace TNCO

/-- Specification: the number of index assignments, i.e. of scalar multiplications, of a
contraction whose operands carry the indices `s`. -/
def nAssignments (dims : Dims) (s : ISet) : ℕ := Fintype.card ((i : s) → Fin (dims.get i))

theorem simpleGet_eq_prod (dims : Dims) (s : ISet) : simpleGet dims s = ∏ i ∈ s, dims.get i := by
  cases dims with
  | int d => simp [simpleGet, Dims.get]
  | vec l => rfl

theorem Dims.get_pos {dims : Dims} {n i : ℕ} (h : dims.ok n = true) (hi : i < n) : 0 < dims.get i := by
  cases dims with
  | int d => simp only [Dims.ok, bne_iff_ne] at h; exact Nat.pos_of_ne_zero h
  | vec l =>
    simp only [Dims.ok, Bool.and_eq_true, beq_iff_eq, List.all_eq_true, bne_iff_ne] at h
    rw [← h.1] at hi
    simp only [Dims.get, List.getD_eq_getElem?_getD, List.getElem?_eq_getElem hi, Option.getD_some]
    exact Nat.pos_of_ne_zero (h.2 _ (List.getElem_mem hi))

theorem simpleGet_pos {dims : Dims} {n : ℕ} {s : ISet} (h : dims.ok n = true) (hs : ∀ i ∈ s, i < n) :
    0 < simpleGet dims s := by
  rw [simpleGet_eq_prod]
  exact Finset.prod_pos fun i hi => Dims.get_pos h (hs i hi)

theorem collapse_get (dims : Dims) (i n : ℕ) (h : dims.ok n = true) (hi : i < n) :
    dims.collapse.get i = dims.get i := by
  unfold Dims.collapse
  split
  · next d l =>
    split
    · next hall =>
      simp only [Dims.ok, Bool.and_eq_true, beq_iff_eq] at h
      cases i with
      | zero => simp [Dims.get]
      | succ i =>
        have hi' : i < l.length := by simp at h; omega
        simp only [Dims.get, List.getD_eq_getElem?_getD, List.getElem?_cons_succ,
          List.getElem?_eq_getElem hi', Option.getD_some]
        simp only [List.all_eq_true, beq_iff_eq] at hall
        exact (hall _ (List.getElem_mem hi')).symm
    · rfl
  · rfl

/-- C19: the cost of a contraction is the number of assignments of the indices of the two
operands; it does not depend on the order of the operands nor on the result's indices. -/
theorem C19_cost_is_count (dims : Dims) (a b c : ISet) :
    (simpleModel dims).contractionCost a b c = nAssignments dims (a ∪ b) ∧
    (simpleModel dims).contractionCost b a c = (simpleModel dims).contractionCost a b c := by
  have : ∀ a b, (simpleModel dims).contractionCost a b c = nAssignments dims (a ∪ b) := by
    intro a b
    simp only [simpleModel, CostModel.contractionCost, simpleGet_eq_prod, nAssignments, Fintype.card_pi,
      Fintype.card_fin]
    rw [Finset.prod_coe_sort (a ∪ b) (fun i => dims.get i)]
  exact ⟨this a b, by rw [this, this, Finset.union_comm]⟩

/-- C19: the two storage forms of the dimensions agree: replacing a vector of equal
dimensions by one number (done by the constructor of the contraction tree) changes no cost. -/
theorem C19_dims_forms_agree (dims : Dims) (n : ℕ) (a b c : ISet) (h : dims.ok n = true)
    (ha : ∀ i ∈ a, i < n) (hb : ∀ i ∈ b, i < n) :
    (simpleModel dims.collapse).contractionCost a b c = (simpleModel dims).contractionCost a b c := by
  simp only [simpleModel, CostModel.contractionCost, simpleGet_eq_prod]
  congr 1
  refine Finset.prod_congr rfl fun i hi => collapse_get dims i n h ?_
  rcases Finset.mem_union.1 hi with h | h
  · exact ha i h
  · exact hb i h

/-- C19: for dimensions accepted by the contraction tree the cost is positive, and it is
monotone in the operands. -/
theorem C19_cost_pos_mono (dims : Dims) (n : ℕ) (h : dims.ok n = true) (a b a' b' c : ISet)
    (ha : ∀ i ∈ a', i < n) (hb : ∀ i ∈ b', i < n) (h1 : a ⊆ a') (h2 : b ⊆ b') :
    0 < (simpleModel dims).contractionCost a b c ∧
    (simpleModel dims).contractionCost a b c ≤ (simpleModel dims).contractionCost a' b' c := by
  have hu : ∀ i ∈ a' ∪ b', i < n := by
    intro i hi; rcases Finset.mem_union.1 hi with h | h
    · exact ha i h
    · exact hb i h
  have hsub : a ∪ b ⊆ a' ∪ b' := Finset.union_subset_union h1 h2
  simp only [simpleModel, CostModel.contractionCost]
  refine ⟨by exact_mod_cast simpleGet_pos h fun i hi => hu i (hsub hi), ?_⟩
  rw [simpleGet_eq_prod, simpleGet_eq_prod]
  exact_mod_cast Finset.prod_le_prod_of_subset_of_one_le' hsub
    fun i hi _ => Dims.get_pos h (hu i hi)

example : (Dims.vec [2, 3, 2]).ok 3 = true ∧ (Dims.vec [2, 2, 2]).collapse = .int 2 ∧
    (simpleModel (.vec [2, 3, 2])).contractionCost {0, 1} {1, 2} {0, 2} = 12 := by decide

theorem sparseGet_eq (sparse : ISet) (n : ℕ) (dims : Dims) (s : ISet) :
    sparseGet sparse n dims s = simpleGet dims (s \ sparse) * min (simpleGet dims (s ∩ sparse)) n := by
  unfold sparseGet
  split
  · next h => rw [min_eq_left h.le]
  · next h => rw [min_eq_right (not_lt.1 h)]

theorem simpleGet_split (sparse : ISet) (dims : Dims) (s : ISet) :
    simpleGet dims (s \ sparse) * simpleGet dims (s ∩ sparse) = simpleGet dims s := by
  simp only [simpleGet_eq_prod]
  rw [mul_comm]
  exact Finset.prod_inter_mul_prod_sdiff s sparse _

/-- C20: the sparse cost is the number of assignments of the ordinary indices times the
number of assignments of the sparse indices capped at `n_projs`; the constructor accepts
exactly positive `n_projs`. -/
theorem C20_sparse_cost (sparse : ISet) (n : ℕ) (dims : Dims) :
    (n = 0 → sparseModel sparse n dims = none) ∧
    (0 < n → ∃ m, sparseModel sparse n dims = some m ∧ ∀ a b c,
      m.contractionCost a b c =
        nAssignments dims ((a ∪ b) \ sparse) * min (nAssignments dims ((a ∪ b) ∩ sparse)) n) := by
  refine ⟨fun h => by simp [sparseModel, h], fun h => ⟨_, by rw [sparseModel, if_neg h.ne'], ?_⟩⟩
  intro a b c
  have e : ∀ s, nAssignments dims s = simpleGet dims s := by
    intro s
    have := (C19_cost_is_count dims s ∅ ∅).1
    simp only [simpleModel, CostModel.contractionCost, Finset.union_empty] at this
    exact_mod_cast this.symm
  simp only [CostModel.contractionCost, e, sparseGet_eq]
  push_cast; rfl

/-- C20: relation to the dense model: never larger, equal as soon as `n_projs` is at least
the number of assignments of the sparse indices (in particular with no sparse index),
monotone in `n_projs`, positive. -/
theorem C20_sparse_vs_dense (sparse : ISet) (n n' : ℕ) (dims : Dims) (k : ℕ) (hd : dims.ok k = true)
    (m m' : CostModel ℤ) (hm : sparseModel sparse n dims = some m)
    (hm' : sparseModel sparse n' dims = some m') (a b c : ISet)
    (ha : ∀ i ∈ a, i < k) (hb : ∀ i ∈ b, i < k) :
    m.contractionCost a b c ≤ (simpleModel dims).contractionCost a b c ∧
    (nAssignments dims ((a ∪ b) ∩ sparse) ≤ n →
      m.contractionCost a b c = (simpleModel dims).contractionCost a b c) ∧
    ((a ∪ b) ∩ sparse = ∅ →
      m.contractionCost a b c = (simpleModel dims).contractionCost a b c) ∧
    (n ≤ n' → m.contractionCost a b c ≤ m'.contractionCost a b c) ∧
    0 < m.contractionCost a b c := by
  have hn : 0 < n := by
    rcases Nat.eq_zero_or_pos n with h | h
    · simp [sparseModel, h] at hm
    · exact h
  have e : ∀ s, nAssignments dims s = simpleGet dims s := by
    intro s
    have := (C19_cost_is_count dims s ∅ ∅).1
    simp only [simpleModel, CostModel.contractionCost, Finset.union_empty] at this
    exact_mod_cast this.symm
  have hu : ∀ i ∈ a ∪ b, i < k := by
    intro i hi; rcases Finset.mem_union.1 hi with h | h
    · exact ha i h
    · exact hb i h
  have g : ∀ {n m}, sparseModel sparse n dims = some m → m.contractionCost a b c =
      ((simpleGet dims ((a ∪ b) \ sparse) * min (simpleGet dims ((a ∪ b) ∩ sparse)) n : ℕ) : ℤ) := by
    intro n m h
    unfold sparseModel at h
    split at h
    · simp at h
    · cases h; simp only [CostModel.contractionCost, sparseGet_eq]
  have d : (simpleModel dims).contractionCost a b c =
      ((simpleGet dims ((a ∪ b) \ sparse) * simpleGet dims ((a ∪ b) ∩ sparse) : ℕ) : ℤ) := by
    rw [simpleGet_split]; rfl
  have p1 : 0 < simpleGet dims ((a ∪ b) \ sparse) :=
    simpleGet_pos hd fun i hi => hu i (Finset.mem_sdiff.1 hi).1
  have p2 : 0 < simpleGet dims ((a ∪ b) ∩ sparse) :=
    simpleGet_pos hd fun i hi => hu i (Finset.mem_inter.1 hi).1
  rw [g hm, g hm', d, e]
  refine ⟨?_, ?_, ?_, ?_, ?_⟩
  · exact_mod_cast Nat.mul_le_mul_left _ (min_le_left _ _)
  · intro h; rw [min_eq_left h]
  · intro h
    rw [h]
    have : simpleGet dims ∅ = 1 := by rw [simpleGet_eq_prod]; simp
    rw [this, min_eq_left (by omega)]
  · intro h; exact_mod_cast Nat.mul_le_mul_left _ (min_le_min_left _ h)
  · exact_mod_cast Nat.mul_pos p1 (lt_min p2 hn)

example : ∃ m, sparseModel {1, 2} 4 (.vec [2, 3, 2]) = some m ∧
    m.contractionCost {0, 1} {1, 2} {0, 2} = 8 ∧
    (simpleModel (.vec [2, 3, 2])).contractionCost {0, 1} {1, 2} {0, 2} = 12 :=
  ⟨_, rfl, by decide, by decide⟩

end TNCO
