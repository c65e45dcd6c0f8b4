import Verif.Lemmas.Linked
import Mathlib.Algebra.BigOperators.Group.Finset.Basic
import Mathlib.Algebra.BigOperators.Intervals
import Mathlib.Algebra.BigOperators.Ring.Finset
import Mathlib.Algebra.Order.BigOperators.Group.Finset
import Mathlib.Tactic.Ring
import Mathlib.Tactic.SplitIfs

/-! Helper lemmas on `Tree.is_valid`. -/

namespace TNCO
open PTree Finset

theorem countP_range (n : ℕ) (p : ℕ → Bool) :
    (List.range n).countP p = ∑ j ∈ Finset.range n, if p j then 1 else 0 := by
  induction n with
  | zero => simp
  | succ n ih => rw [List.range_succ, List.countP_append, ih, Finset.sum_range_succ]; simp [List.countP_singleton]

namespace Tree

theorem isValid_iff (T : Tree) : T.isValid = true ↔
    (∀ i < T.size, refOk T.size (T.nodes i).parent = true ∧ refOk T.size (T.nodes i).c0 = true ∧
      refOk T.size (T.nodes i).c1 = true ∧ (T.nodes i).isValid = true) ∧
    (T.nodes (T.size - 1)).isRoot = true ∧
    (List.range T.size).countP (fun i => (T.nodes i).isRoot) = 1 ∧
    (List.range T.nLeaves).countP (fun i => (T.nodes i).isLeaf) = T.nLeaves ∧
    T.size = 2 * T.nLeaves - 1 ∧
    (∀ i < T.size, T.countParents i ≠ (if (T.nodes i).isLeaf then 1 else 0)) ∧
    (∀ i < T.size, T.countChildren i ≠ (if (T.nodes i).isRoot then 1 else 0)) := by
  unfold isValid
  simp only [Bool.not_eq_eq_eq_not, Bool.not_true, bne_iff_ne, ne_eq, Bool.if_false_left,
    Bool.and_true, Bool.and_eq_true, decide_eq_true_eq, decide_not, Bool.not_eq_false,
    List.all_eq_true, List.mem_range, Decidable.not_not, Bool.not_not, beq_eq_false_iff_ne,
    decide_eq_false_iff_not]
  simp only [and_assoc]

end Tree

/-- `c` is listed as a child of `p`. -/
def Tree.IsChild (T : Tree) (c p : ℕ) : Prop := (T.nodes p).c0 = some c ∨ (T.nodes p).c1 = some c

namespace Tree

/-- The exact child counts that follow from `is_valid` by a pigeonhole argument. -/
theorem isValid_counts {T : Tree} (h : T.isValid = true) (hpos : 0 < T.size) :
    (∀ i < T.size, ((T.nodes i).c0 = none ↔ i < T.nLeaves)) ∧
    (∀ i < T.size, ((T.nodes i).parent = none ↔ i = T.size - 1)) ∧
    (∀ i < T.size, T.countChildren i = if i = T.size - 1 then 0 else 1) := by
  rw [isValid_iff] at h
  obtain ⟨href, hroot, hroots, hlv, hsz, -, hch⟩ := h
  have hnl : 0 < T.nLeaves := by unfold nLeaves; omega
  -- leaves
  have hleaf : ∀ i < T.nLeaves, (T.nodes i).isLeaf = true := by
    have := List.countP_eq_length (p := fun i => (T.nodes i).isLeaf) (l := List.range T.nLeaves)
    rw [List.length_range] at this
    intro i hi; exact this.1 hlv i (by simpa using hi)
  -- only the last node is a root
  have hr1 : ∀ i < T.size, i ≠ T.size - 1 → (T.nodes i).isRoot = false := by
    intro i hi hne
    by_contra hcon
    rw [Bool.not_eq_false] at hcon
    rw [countP_range] at hroots
    have : (∑ j ∈ Finset.range T.size, if (T.nodes j).isRoot then 1 else 0) ≥
        ∑ j ∈ ({i, T.size - 1} : Finset ℕ), if (T.nodes j).isRoot then 1 else 0 := by
      apply Finset.sum_le_sum_of_subset
      intro j hj; simp at hj ⊢; omega
    rw [Finset.sum_pair hne, hcon, hroot] at this
    rw [hroots] at this; simp at this
  have hrootiff : ∀ i < T.size, ((T.nodes i).isRoot = true ↔ i = T.size - 1) := by
    intro i hi
    constructor
    · intro h'; by_contra hne; rw [hr1 i hi hne] at h'; simp at h'
    · rintro rfl; exact hroot
  -- total number of child entries
  let ch0 : ℕ → ℕ := fun j => if (T.nodes j).c0 = none then 0 else 1
  have hsum : ∑ i ∈ Finset.range T.size, T.countChildren i ≤
      ∑ j ∈ Finset.range T.size, 2 * ch0 j := by
    simp only [countChildren, countP_range]
    rw [Finset.sum_add_distrib, Finset.sum_comm]
    rw [Finset.sum_comm (s := Finset.range T.size) (t := Finset.range T.size)
      (f := fun i j => if ((T.nodes j).c0 != none && (T.nodes j).c1 == some i) = true then 1 else 0)]
    rw [← Finset.sum_add_distrib]
    apply Finset.sum_le_sum
    intro j hj
    have hone : ∀ o : Option ℕ, (∑ i ∈ Finset.range T.size, if (o == some i) = true then 1 else 0) ≤ 1 := by
      intro o
      cases o with
      | none => simp
      | some x => simp only [beq_iff_eq, Option.some.injEq]; rw [Finset.sum_ite_eq]; split <;> simp
    by_cases hc : (T.nodes j).c0 = none
    · simp [hc, ch0]
    · have h1 := hone (T.nodes j).c0
      have h2 := hone (T.nodes j).c1
      have : ((T.nodes j).c0 != none) = true := by simp [hc]
      simp only [this, Bool.true_and, ch0, hc, if_false]
      omega
  -- split at nLeaves
  have hle : T.nLeaves ≤ T.size := by omega
  have hsplit : ∑ j ∈ Finset.range T.size, ch0 j =
      ∑ j ∈ Finset.range T.nLeaves, ch0 j + ∑ j ∈ Finset.Ico T.nLeaves T.size, ch0 j := by
    rw [Finset.range_eq_Ico, Finset.range_eq_Ico, Finset.sum_Ico_consecutive _ (by omega) hle]
  have hz : ∑ j ∈ Finset.range T.nLeaves, ch0 j = 0 := by
    apply Finset.sum_eq_zero
    intro j hj
    have := hleaf j (by simpa using hj)
    simp [Node.isLeaf] at this
    simp [ch0, this]
  have hI : ∑ j ∈ Finset.Ico T.nLeaves T.size, ch0 j ≤ T.nLeaves - 1 := by
    have : ∑ j ∈ Finset.Ico T.nLeaves T.size, ch0 j ≤ ∑ j ∈ Finset.Ico T.nLeaves T.size, 1 := by
      apply Finset.sum_le_sum; intro j _; simp only [ch0]; split <;> simp
    simp at this; omega
  have hge : ∀ i ∈ Finset.range T.size, (if i = T.size - 1 then 0 else 1) ≤ T.countChildren i := by
    intro i hi
    have hi' := Finset.mem_range.1 hi
    have := hch i hi'
    split
    · simp
    · rename_i hne
      rw [hr1 i hi' hne] at this
      simp at this; omega
  have hones : ∑ i ∈ Finset.range T.size, (if i = T.size - 1 then 0 else 1) = T.size - 1 := by
    have : ∑ i ∈ Finset.range T.size, ((if i = T.size - 1 then 0 else 1) +
        (if i = T.size - 1 then 1 else 0)) = T.size := by
      have h1 : ∀ i ∈ Finset.range T.size, ((if i = T.size - 1 then 0 else 1) +
        (if i = T.size - 1 then 1 else 0)) = 1 := by intro i _; split <;> simp
      rw [Finset.sum_congr rfl h1]; simp
    rw [Finset.sum_add_distrib, Finset.sum_ite_eq'] at this
    rw [if_pos (by simp; omega)] at this
    omega
  rw [← Finset.mul_sum, hsplit, hz] at hsum
  have hsum' : ∑ i ∈ Finset.range T.size, T.countChildren i ≤
      ∑ i ∈ Finset.range T.size, (if i = T.size - 1 then 0 else 1) := by
    rw [hones]; omega
  have heq := (Finset.sum_eq_sum_iff_of_le hge).1 (le_antisymm (Finset.sum_le_sum hge) hsum')
  refine ⟨?_, ?_, ?_⟩
  · intro i hi
    constructor
    · intro hc
      by_contra hcon
      have hlow := Finset.sum_le_sum hge
      rw [hones] at hlow
      have hlt : ∑ j ∈ Finset.Ico T.nLeaves T.size, ch0 j < ∑ j ∈ Finset.Ico T.nLeaves T.size, 1 := by
        apply Finset.sum_lt_sum
        · intro j _; simp only [ch0]; split <;> simp
        · exact ⟨i, by simp; omega, by simp [ch0, hc]⟩
      simp at hlt
      omega
    · intro h'; have := hleaf i h'; simpa [Node.isLeaf] using this
  · intro i hi; rw [← hrootiff i hi]; simp [Node.isRoot]
  · intro i hi; exact (heq i (by simpa using hi)).symm

theorem countChildren_pos {T : Tree} {i : ℕ} (h : 0 < T.countChildren i) :
    ∃ j < T.size, T.IsChild i j := by
  unfold countChildren at h
  rcases Nat.add_pos_iff_pos_or_pos.1 h with h | h
  · obtain ⟨j, hj, hc⟩ := List.countP_pos_iff.1 h
    exact ⟨j, by simpa using hj, Or.inl (by simpa using hc)⟩
  · obtain ⟨j, hj, hc⟩ := List.countP_pos_iff.1 h
    simp at hc
    exact ⟨j, by simpa using hj, Or.inr hc.2⟩

theorem countChildren_ge_one {T : Tree} {i j : ℕ} (hj : j < T.size)
    (hv : (T.nodes j).isValid = true) (hc : T.IsChild i j) : 1 ≤ T.countChildren i := by
  unfold countChildren
  rcases hc with hc | hc
  · have : 0 < (List.range T.size).countP (fun j => (T.nodes j).c0 == some i) :=
      List.countP_pos_iff.2 ⟨j, by simpa using hj, by simp [hc]⟩
    omega
  · have : 0 < (List.range T.size).countP
        (fun j => (T.nodes j).c0 != none && (T.nodes j).c1 == some i) := by
      refine List.countP_pos_iff.2 ⟨j, by simpa using hj, ?_⟩
      have : (T.nodes j).c0 ≠ none := by
        intro h0
        simp [Node.isValid, h0, hc] at hv
      simp [hc, this]
    omega

theorem countChildren_ge_two {T : Tree} {i j k : ℕ} (hj : j < T.size) (hk : k < T.size)
    (hvj : (T.nodes j).isValid = true) (hvk : (T.nodes k).isValid = true)
    (hcj : T.IsChild i j) (hck : T.IsChild i k) (hne : j ≠ k) : 2 ≤ T.countChildren i := by
  have hc0 : ∀ {m}, (T.nodes m).isValid = true → (T.nodes m).c1 = some i → (T.nodes m).c0 ≠ none := by
    intro m hv hc h0; simp [Node.isValid, h0, hc] at hv
  have two : ∀ f : ℕ → Bool, f j = true → f k = true → 2 ≤ (List.range T.size).countP f := by
    intro f h1 h2
    rw [countP_range]
    have : (∑ m ∈ Finset.range T.size, if f m then 1 else 0) ≥
        ∑ m ∈ ({j, k} : Finset ℕ), if f m then 1 else 0 := by
      apply Finset.sum_le_sum_of_subset
      intro m hm; simp at hm ⊢; omega
    rw [Finset.sum_pair hne, h1, h2] at this
    simpa using this
  have one : ∀ f : ℕ → Bool, ∀ m < T.size, f m = true → 1 ≤ (List.range T.size).countP f := by
    intro f m hm h1
    exact List.countP_pos_iff.2 ⟨m, by simpa using hm, h1⟩
  unfold countChildren
  rcases hcj with h1 | h1 <;> rcases hck with h2 | h2
  · have := two (fun j => (T.nodes j).c0 == some i) (by simp [h1]) (by simp [h2]); omega
  · have a := one (fun j => (T.nodes j).c0 == some i) j hj (by simp [h1])
    have b := one (fun j => (T.nodes j).c0 != none && (T.nodes j).c1 == some i) k hk
      (by simp [h2, hc0 hvk h2])
    omega
  · have a := one (fun j => (T.nodes j).c0 == some i) k hk (by simp [h2])
    have b := one (fun j => (T.nodes j).c0 != none && (T.nodes j).c1 == some i) j hj
      (by simp [h1, hc0 hvj h1])
    omega
  · have := two (fun j => (T.nodes j).c0 != none && (T.nodes j).c1 == some i)
      (by simp [h1, hc0 hvj h1]) (by simp [h2, hc0 hvk h2])
    omega

end Tree

/-- Every real contraction tree passes `is_valid`. -/
theorem Linked.isValid {T : Tree} (h : Linked T) : T.isValid = true := by
  rw [Tree.isValid_iff]
  have hroot' : ∀ i < T.size, ((T.nodes i).isRoot = true ↔ i = T.size - 1) := by
    intro i hi; rw [← h.root i hi]; simp [Node.isRoot]
  have hleaf' : ∀ i < T.size, ((T.nodes i).isLeaf = true ↔ i < T.nLeaves) := by
    intro i hi; rw [← h.leaf0 i hi]; simp [Node.isLeaf]
  have hpos := h.pos
  have hsz := h.size
  have hv : ∀ i < T.size, (T.nodes i).isValid = true := by
    intro i hi
    have h0 := h.leaf0 i hi
    have h1 := h.leaf1 i hi
    have hd := h.distinct i hi
    have hp := h.parent_ne i hi
    unfold Node.isValid
    have e1 : ((T.nodes i).c0.isNone != (T.nodes i).c1.isNone) = false := by
      have h01 := h0.trans h1.symm
      cases h0' : (T.nodes i).c0 <;> cases h1' : (T.nodes i).c1 <;> simp [h0', h1'] at h01 ⊢
    rw [e1]
    simp only [Bool.false_eq_true, if_false]
    cases hc0 : (T.nodes i).c0 with
    | none => simp [Node.isLeaf, hc0]
    | some c =>
      have hne : (T.nodes i).c1 ≠ some c := hd c hc0
      have e2 : (!(T.nodes i).isLeaf && some c == (T.nodes i).c1) = false := by
        cases h1' : (T.nodes i).c1 with
        | none => simp
        | some x => simp; rw [h1'] at hne; intro _ h'; apply hne; rw [h']
      rw [e2]
      simp only [Bool.false_eq_true, if_false]
      cases hq : (T.nodes i).parent with
      | none => simp [Node.isRoot, hq]
      | some q =>
        have := hp q hq
        have e3 : (some q == some c) = false := by
          have := this.1; rw [hc0] at this; simp at this ⊢; omega
        have e4 : (some q == (T.nodes i).c1) = false := by
          cases h1' : (T.nodes i).c1 with
          | none => rfl
          | some x => have := this.2; rw [h1'] at this; simp at this ⊢; omega
        rw [e3, e4]; simp
  refine ⟨?_, (hroot' _ (by omega)).2 rfl, ?_, ?_, hsz, ?_, ?_⟩
  · intro i hi
    refine ⟨?_, ?_, ?_, hv i hi⟩
    · cases hq : (T.nodes i).parent with
      | none => rfl
      | some q => simpa [Tree.refOk] using (h.parent i hi q hq).1
    · cases hq : (T.nodes i).c0 with
      | none => rfl
      | some q => simpa [Tree.refOk] using (h.child0 i hi q hq).1
    · cases hq : (T.nodes i).c1 with
      | none => rfl
      | some q => simpa [Tree.refOk] using (h.child1 i hi q hq).1
  · rw [countP_range]
    have : ∀ j ∈ Finset.range T.size, (if (T.nodes j).isRoot = true then 1 else 0) =
        if j = T.size - 1 then 1 else 0 := by
      intro j hj
      have := hroot' j (by simpa using hj)
      by_cases hj' : j = T.size - 1
      · rw [if_pos (this.2 hj'), if_pos hj']
      · have hn : (T.nodes j).isRoot = false := by
          rw [← Bool.not_eq_true]; exact fun hc => hj' (this.1 hc)
        simp [hn, hj']
    rw [Finset.sum_congr rfl this, Finset.sum_ite_eq', if_pos (by simp; omega)]
  · have := List.countP_eq_length (p := fun i => (T.nodes i).isLeaf) (l := List.range T.nLeaves)
    rw [List.length_range] at this
    rw [this]
    intro a ha
    have ha' : a < T.nLeaves := by simpa using ha
    exact (hleaf' a (by omega)).2 ha'
  · intro i hi
    by_cases hl : i < T.nLeaves
    · rw [if_pos ((hleaf' i hi).2 hl)]
      intro hcon
      have : 0 < T.countParents i := by omega
      obtain ⟨j, hj, hc⟩ := List.countP_pos_iff.1 this
      have hj' : j < T.size := by simpa using hj
      have hc' : (T.nodes j).parent = some i := by simpa using hc
      obtain ⟨-, h'⟩ := h.parent j hj' i hc'
      have a := (h.leaf0 i hi).2 hl
      have b := (h.leaf1 i hi).2 hl
      rw [a, b] at h'; simp at h'
    · have : (T.nodes i).isLeaf = false := by
        rw [← Bool.not_eq_true]; exact fun hc => hl ((hleaf' i hi).1 hc)
      rw [this]
      simp only [Bool.false_eq_true, if_false]
      intro hcon
      have hn : (T.nodes i).c0 ≠ none := by
        intro h0; exact hl ((h.leaf0 i hi).1 h0)
      obtain ⟨c, hc⟩ := Option.ne_none_iff_exists'.1 hn
      obtain ⟨hcs, hcp⟩ := h.child0 i hi c hc
      have : 0 < T.countParents i := List.countP_pos_iff.2 ⟨c, by simpa using hcs, by simp [hcp]⟩
      omega
  · intro i hi
    by_cases hr : i = T.size - 1
    · rw [if_pos ((hroot' i hi).2 hr)]
      intro hcon
      obtain ⟨j, hj, hc⟩ := Tree.countChildren_pos (T := T) (i := i) (by omega)
      have hp : (T.nodes i).parent = some j := by
        rcases hc with hc | hc
        · exact (h.child0 j hj i hc).2
        · exact (h.child1 j hj i hc).2
      rw [(h.root i hi).2 hr] at hp; simp at hp
    · have : (T.nodes i).isRoot = false := by
        rw [← Bool.not_eq_true]; exact fun hc => hr ((hroot' i hi).1 hc)
      rw [this]
      simp only [Bool.false_eq_true, if_false]
      have hn : (T.nodes i).parent ≠ none := fun h0 => hr ((h.root i hi).1 h0)
      obtain ⟨q, hq⟩ := Option.ne_none_iff_exists'.1 hn
      obtain ⟨hqs, hqc⟩ := h.parent i hi q hq
      have := Tree.countChildren_ge_one hqs (hv q hqs) hqc
      omega

end TNCO
