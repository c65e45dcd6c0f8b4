import Verif.Model.NDArray
import Verif.Lemmas.Einsum
import Mathlib.Data.List.GetD
import Mathlib.Tactic.Ring

/-! Row-major order. -/

namespace TNCO

theorem ravel_append (d1 d2 i1 i2 : List ℕ) (h : d1.length = i1.length) :
    ravel (d1 ++ d2) (i1 ++ i2) = ravel d1 i1 * d2.prod + ravel d2 i2 := by
  induction d1 generalizing i1 with
  | nil =>
    have : i1 = [] := List.length_eq_zero_iff.1 h.symm
    subst this; simp [ravel]
  | cons d ds ih =>
    match i1, h with
    | i :: is, h =>
      simp only [List.cons_append, ravel, List.prod_append, ih is (by simpa using h)]
      ring

theorem ravel_lt {ds is : List ℕ} (h : List.Forall₂ (· < ·) is ds) : ravel ds is < ds.prod := by
  induction h with
  | nil => simp [ravel]
  | @cons i d is ds h1 _ ih =>
    simp only [ravel, List.prod_cons]
    calc i * ds.prod + ravel ds is < i * ds.prod + ds.prod := by omega
      _ = (i + 1) * ds.prod := by ring
      _ ≤ d * ds.prod := Nat.mul_le_mul_right _ h1

theorem unravel_ravel {ds is : List ℕ} (h : List.Forall₂ (· < ·) is ds) : unravel ds (ravel ds is) = is := by
  induction h with
  | nil => rfl
  | @cons i d is ds h1 h2 ih =>
    have hlt := ravel_lt h2
    have hp : 0 < ds.prod := by omega
    simp only [ravel, unravel]
    rw [Nat.mul_comm i, Nat.mul_add_div hp, Nat.div_eq_of_lt hlt, Nat.mul_add_mod, Nat.mod_eq_of_lt hlt, ih]
    simp

variable {ι R : Type} [DecidableEq ι]

theorem forall2_map {d f : ι → ℕ} {xs : List ι} (h : ∀ x ∈ xs, f x < d x) :
    List.Forall₂ (· < ·) (xs.map f) (xs.map d) := by
  induction xs with
  | nil => exact .nil
  | cons x xs ih => exact .cons (h x (by simp)) (ih fun y hy => h y (by simp [hy]))

/-- A transposition by names. -/
theorem transpose_named {a : NDArray R} {xs ys : List ι} {d : ι → ℕ} (hs : a.shape = xs.map d) (hn : xs.Nodup)
    (hp : ys.Perm xs) :
    ∃ b, a.transpose (ys.map fun x => xs.idxOf x) = .ok b ∧ b.shape = ys.map d ∧
      ∀ f : ι → ℕ, (∀ x ∈ xs, f x < d x) → b.get (ys.map f) = a.get (xs.map f) := by
  have hny : ys.Nodup := hp.nodup_iff.2 hn
  have hnd : a.ndim = xs.length := by simp [NDArray.ndim, hs]
  have hmem : ∀ y, y ∈ ys ↔ y ∈ xs := fun y => hp.mem_iff
  have hax : (ys.map fun x => xs.idxOf x).Nodup := by
    refine (List.nodup_map_iff_inj_on hny).2 ?_
    intro u hu v hv e
    have h1 := List.getElem_idxOf (List.idxOf_lt_length_of_mem ((hmem u).1 hu))
    have h2 := List.getElem_idxOf (List.idxOf_lt_length_of_mem ((hmem v).1 hv))
    rw [← h1, ← h2]; simp only [e]
  have hif : ¬ ((ys.map fun x => xs.idxOf x).length ≠ a.ndim ∨ ¬ (ys.map fun x => xs.idxOf x).Nodup ∨
      ∃ p ∈ ys.map fun x => xs.idxOf x, a.ndim ≤ p) := by
    rintro (h | h | ⟨p, h, h'⟩)
    · rw [hnd, List.length_map] at h; exact h hp.length_eq
    · exact h hax
    · obtain ⟨y, hy, rfl⟩ := List.mem_map.1 h
      have := List.idxOf_lt_length_of_mem ((hmem y).1 hy)
      omega
  have hshape : ((ys.map fun x => xs.idxOf x).map fun p => a.shape.getD p 0) = ys.map d := by
    rw [List.map_map]
    refine List.map_congr_left fun y hy => ?_
    have hlt := List.idxOf_lt_length_of_mem ((hmem y).1 hy)
    simp only [Function.comp_apply]
    rw [hs, List.getD_eq_getElem _ _ (by simpa using hlt), List.getElem_map, List.getElem_idxOf]
  refine ⟨_, by unfold NDArray.transpose; rw [if_neg hif], hshape, ?_⟩
  intro f hf
  simp only [NDArray.get, hshape]
  rw [unravel_ravel (forall2_map fun y hy => hf y ((hmem y).1 hy))]
  congr 2
  refine List.ext_getElem (by simp [hnd]) ?_
  intro p h1 h2
  simp only [List.getElem_map, List.getElem_range]
  have hpl : p < xs.length := by simpa using h2
  have hy : xs[p] ∈ ys := (hmem _).2 (List.getElem_mem hpl)
  have hidx : (ys.map fun x => xs.idxOf x).idxOf p = ys.idxOf xs[p] := by
    have hk := List.idxOf_lt_length_of_mem hy
    have e : (ys.map fun x => xs.idxOf x)[ys.idxOf xs[p]]'(by simpa using hk) = p := by
      rw [List.getElem_map, List.getElem_idxOf, hn.idxOf_getElem]
    have := hax.idxOf_getElem (ys.idxOf xs[p]) (by simpa using hk)
    rw [e] at this
    exact this
  have hk := List.idxOf_lt_length_of_mem hy
  rw [hidx, List.getD_eq_getElem _ _ (by simpa using hk), List.getElem_map, List.getElem_idxOf]

/-- Summing over row-major positions is summing over the values of the indices. -/
theorem sum_ravel [AddCommMonoid R] {d : ι → ℕ} {s : List ι} (hn : s.Nodup) (G : ℕ → R) (f : ι → ℕ) :
    ∑ k ∈ Finset.range (s.map d).prod, G k = sumOver d s (fun g => G (ravel (s.map d) (s.map g))) f := by
  induction s generalizing G f with
  | nil => simp [sumOver, ravel]
  | cons x s ih =>
    rw [List.nodup_cons] at hn
    simp only [List.map_cons, List.prod_cons, sumOver, ravel]
    have hsplit : ∀ n P : ℕ, ∑ k ∈ Finset.range (n * P), G k =
        ∑ i ∈ Finset.range n, ∑ k ∈ Finset.range P, G (i * P + k) := by
      intro n P
      induction n with
      | zero => simp
      | succ n ihn => rw [Nat.succ_mul, Finset.sum_range_add, ihn, Finset.sum_range_succ]
    rw [hsplit]
    refine Finset.sum_congr rfl fun i _ => ?_
    rw [ih hn.2 (fun k => G (i * (s.map d).prod + k)) (Function.update f x i)]
    refine sumOver_congr fun g hg _ => ?_
    rw [hg x hn.1, Function.update_self]

end TNCO
