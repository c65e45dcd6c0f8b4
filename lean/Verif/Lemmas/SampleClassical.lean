import Verif.Model.Sampling
import Verif.Spec.Sampling
import Verif.Lemmas.GateOp
import Mathlib.Data.List.Perm.Basic
import Mathlib.Data.List.NodupEquivFin
import Mathlib.Data.Fintype.Card
import Mathlib.Algebra.GroupWithZero.Units.Lemmas

/-! # Classical operations -/

namespace TNCO
variable {Q K R : Type} [DecidableEq Q] [Field K] [StarRing K] [DecidableEq K] [Field R] [LinearOrder R] [IsStrictOrderedRing R]

theorem mem_nonzeros {m : NDArray K} {r c : ℕ} {p : ℕ × ℕ} : p ∈ nonzeros m r c ↔ p.1 < r ∧ p.2 < c ∧ m.get [p.1, p.2] ≠ 0 := by
  obtain ⟨i, j⟩ := p
  simp [nonzeros, List.mem_flatMap]

theorem nodup_nonzeros (m : NDArray K) (r c : ℕ) : (nonzeros m r c).Nodup := by
  unfold nonzeros
  rw [List.nodup_flatMap]
  refine ⟨fun i _ => (List.nodup_range.filter _).map fun a b h => by simpa using h, ?_⟩
  refine List.nodup_range.imp fun {a b} hab => ?_
  intro p h1 h2
  simp only [List.mem_map] at h1 h2
  obtain ⟨j, -, rfl⟩ := h1
  obtain ⟨k, -, h⟩ := h2
  simp only [Prod.mk.injEq] at h
  exact hab h.1.symm

theorem sorted_range {l : List ℕ} {n : ℕ} : l.insertionSort (· ≤ ·) = List.range n ↔ l.Nodup ∧ ∀ x, x ∈ l ↔ x < n := by
  constructor
  · intro h
    have hp := List.perm_insertionSort (· ≤ ·) l
    rw [h] at hp
    exact ⟨hp.nodup_iff.1 List.nodup_range, fun x => by rw [← hp.mem_iff, List.mem_range]⟩
  · rintro ⟨h1, h2⟩
    have hp : (l.insertionSort (· ≤ ·)).Perm (List.range n) :=
      (List.perm_insertionSort (· ≤ ·) l).trans ((List.perm_ext_iff_of_nodup h1 List.nodup_range).2 fun x => by rw [h2, List.mem_range])
    exact hp.eq_of_pairwise (fun a b _ _ h1 h2 => le_antisymm h1 h2) (List.pairwise_insertionSort (· ≤ ·) l) List.pairwise_le_range

/-- The matrices that pass the tests at 58-66. -/
theorem accepted_iff {sq : K → R} {m : NDArray K} {r c : ℕ} :
    (((nonzeros m r c).map Prod.fst).insertionSort (· ≤ ·) = List.range r ∧ ((nonzeros m r c).map Prod.snd).insertionSort (· ≤ ·) = List.range r ∧
      (nonzeros m r c).all (fun p => sq (m.get [p.1, p.2]) = 1) = true) ↔
    (∀ i < r, ∃! j, j < c ∧ m.get [i, j] ≠ 0) ∧ (∀ j < c, j < r → ∃! i, i < r ∧ m.get [i, j] ≠ 0) ∧ r ≤ c ∧
      (∀ i < r, ∀ j < c, r ≤ j → m.get [i, j] = 0) ∧ ∀ i < r, ∀ j < c, m.get [i, j] ≠ 0 → sq (m.get [i, j]) = 1 := by
  rw [sorted_range, sorted_range, List.nodup_map_iff_inj_on (nodup_nonzeros m r c), List.nodup_map_iff_inj_on (nodup_nonzeros m r c), List.all_eq_true]
  simp only [List.mem_map, mem_nonzeros, Prod.exists, exists_and_right, exists_eq_right, decide_eq_true_eq, Prod.forall, Prod.mk.injEq]
  constructor
  · rintro ⟨⟨a1, a2⟩, ⟨b1, b2⟩, h3⟩
    refine ⟨fun i hi => ?_, fun j hj hjr => ?_, ?_, fun i hi j hj hr => ?_, fun i hi j hj h => h3 i j ⟨hi, hj, h⟩⟩
    · obtain ⟨j, -, hj, h⟩ := (a2 i).2 hi
      exact ⟨j, ⟨hj, h⟩, fun k hk => (a1 i k ⟨hi, hk.1, hk.2⟩ i j ⟨hi, hj, h⟩ rfl).2⟩
    · obtain ⟨i, hi, -, h⟩ := (b2 j).2 hjr
      exact ⟨i, ⟨hi, h⟩, fun k hk => (b1 k j ⟨hk.1, hj, hk.2⟩ i j ⟨hi, hj, h⟩ rfl).1⟩
    · by_contra hlt
      obtain ⟨i, -, hc, -⟩ := (b2 c).2 (by omega)
      omega
    · by_contra hne
      have := (b2 j).1 ⟨i, hi, hj, hne⟩
      omega
  · rintro ⟨h1, h2, h3, h4, h5⟩
    refine ⟨⟨fun i j hij k l hkl e => ⟨e, ?_⟩, fun i => ⟨fun ⟨j, h, _⟩ => h, fun hi => ?_⟩⟩, ⟨fun i j hij k l hkl e => ⟨?_, e⟩, fun j => ⟨fun ⟨i, hi, hj, h⟩ => ?_, fun hj => ?_⟩⟩,
      fun i j h => h5 i h.1 j h.2.1 h.2.2⟩
    · subst e
      exact (h1 i hij.1).unique hij.2 hkl.2
    · obtain ⟨j, hj, -⟩ := h1 i hi
      exact ⟨j, hi, hj⟩
    · subst e
      have : j < r := by
        by_contra hlt
        exact hij.2.2 (h4 i hij.1 j hij.2.1 (by omega))
      exact (h2 j hij.2.1 this).unique ⟨hij.1, hij.2.2⟩ ⟨hkl.1, hkl.2.2⟩
    · by_contra hlt
      exact h (h4 i hi j hj (by omega))
    · obtain ⟨i, hi, -⟩ := h2 j (by omega) hj
      exact ⟨i, hi.1, by omega, hi.2⟩

theorem IsAbsSq.inj {sq : K → R} (A : IsAbsSq sq) {a b : R} (h : A.emb a = A.emb b) : a = b := by
  have : A.emb (a - b) = 0 := by rw [map_sub, h, sub_self]
  exact sub_eq_zero.1 ((map_eq_zero A.emb).1 this)

theorem IsAbsSq.eq_one {sq : K → R} (A : IsAbsSq sq) {a : K} : sq a = 1 ↔ star a * a = 1 := by
  rw [← A.emb_sq]
  constructor
  · intro h; rw [h, map_one]
  · intro h; exact A.inj (by rw [h, map_one])

theorem IsAbsSq.eq_zero {sq : K → R} (A : IsAbsSq sq) {a : K} (h : a = 0) : sq a = 0 := by
  apply A.inj
  rw [A.emb_sq, h, mul_zero, map_zero]

theorem IsAbsSq.mul {sq : K → R} (A : IsAbsSq sq) (a b : K) : sq (a * b) = sq a * sq b := by
  apply A.inj
  rw [A.emb_sq, map_mul, A.emb_sq, A.emb_sq, star_mul]
  ring

/-- For square matrices, the accepted ones are those with one entry of modulus one in each row and column. -/
theorem isClassical_square {sq : K → R} (A : IsAbsSq sq) {m : NDArray K} {r : ℕ} (hs : m.shape = [r, r]) :
    isClassical sq m = .ok true ↔ IsMonomial r m := by
  unfold isClassical
  simp only [hs, ne_eq, not_true_eq_false, false_and, if_false]
  have key : (if ((nonzeros m r r).map Prod.fst).insertionSort (· ≤ ·) = List.range r ∧ ((nonzeros m r r).map Prod.snd).insertionSort (· ≤ ·) = List.range r then
      (Except.ok ((nonzeros m r r).all fun p => sq (m.get [p.1, p.2]) = 1) : Except PyErr Bool) else .ok false) = .ok true ↔
      (((nonzeros m r r).map Prod.fst).insertionSort (· ≤ ·) = List.range r ∧ ((nonzeros m r r).map Prod.snd).insertionSort (· ≤ ·) = List.range r ∧
      (nonzeros m r r).all (fun p => sq (m.get [p.1, p.2]) = 1) = true) := by
    split
    · rename_i h
      simp [h.1, h.2]
    · rename_i h
      simp only [Except.ok.injEq, Bool.false_eq_true, false_iff]
      exact fun h' => h ⟨h'.1, h'.2.1⟩
  rw [key, accepted_iff]
  constructor
  · rintro ⟨h1, h2, -, -, h5⟩
    have h2' : ∀ j : Fin r, ∃ i : Fin r, m.get [(i : ℕ), j] ≠ 0 := fun j => by
      obtain ⟨i, hi, -⟩ := h2 j j.2 j.2
      exact ⟨⟨i, hi.1⟩, hi.2⟩
    choose f hf using h2'
    have hinj : Function.Injective f := fun j k hjk => by
      have a := hf j
      have b := hf k
      rw [← hjk] at b
      exact Fin.ext ((h1 (f j) (f j).2).unique ⟨j.2, a⟩ ⟨k.2, b⟩)
    refine ⟨⟨Equiv.ofBijective f (Finite.injective_iff_bijective.1 hinj), fun i j => ⟨fun h => ?_, fun h => ?_⟩⟩, fun i j h => A.eq_one.1 (h5 i i.2 j j.2 h)⟩
    · exact Fin.ext ((h2 j j.2 j.2).unique ⟨i.2, h⟩ ⟨(f j).2, hf j⟩)
    · have h : i = f j := h
      rw [h]
      exact hf j
  · rintro ⟨⟨σ, h⟩, h5⟩
    refine ⟨fun i hi => ⟨σ.symm ⟨i, hi⟩, ⟨(σ.symm ⟨i, hi⟩).2, (h ⟨i, hi⟩ _).2 (by simp)⟩, fun k hk => ?_⟩,
      fun j hj _ => ⟨σ ⟨j, hj⟩, ⟨(σ ⟨j, hj⟩).2, (h _ ⟨j, hj⟩).2 rfl⟩, fun k hk => ?_⟩, le_rfl, fun i hi j hj hr => by omega,
      fun i hi j hj hne => A.eq_one.2 (h5 ⟨i, hi⟩ ⟨j, hj⟩ hne)⟩
    · have := (h ⟨i, hi⟩ ⟨k, hk.1⟩).1 hk.2
      rw [this]; simp
    · have := (h ⟨k, hk.1⟩ ⟨j, hj⟩).1 hk.2
      rw [← this]

end TNCO
