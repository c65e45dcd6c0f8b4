import Verif.Spec.Einsum
import Mathlib.Algebra.BigOperators.Ring.Finset
import Mathlib.Algebra.BigOperators.Group.Finset.Sigma
import Mathlib.Data.List.Nodup
import Mathlib.Data.List.Perm.Basic

/-! Sums over the values of indices. -/

namespace TNCO
variable {ι R : Type} [DecidableEq ι]

section
variable [AddCommMonoid R] {d : ι → ℕ}

theorem sumOver_congr {l : List ι} {F F' : (ι → ℕ) → R} {f : ι → ℕ}
    (h : ∀ g, (∀ x, x ∉ l → g x = f x) → (∀ x ∈ l, g x < d x) → F g = F' g) :
    sumOver d l F f = sumOver d l F' f := by
  induction l generalizing f with
  | nil => exact h f (fun _ _ => rfl) (by simp)
  | cons x l ih =>
    unfold sumOver
    refine Finset.sum_congr rfl fun i hi => ih fun g h1 h2 => h g ?_ ?_
    · intro y hy
      rw [h1 y (fun hm => hy (by simp [hm])), Function.update_of_ne (fun e => hy (by simp [e]))]
    · intro y hy
      by_cases hyl : y ∈ l
      · exact h2 y hyl
      · have : y = x := (List.mem_cons.1 hy).resolve_right hyl
        subst this
        rw [h1 y hyl, Function.update_self]
        exact Finset.mem_range.1 hi

theorem sumOver_append (l m : List ι) (F : (ι → ℕ) → R) (f : ι → ℕ) :
    sumOver d (l ++ m) F f = sumOver d l (fun g => sumOver d m F g) f := by
  induction l generalizing f with
  | nil => rfl
  | cons x l ih => simp only [List.cons_append, sumOver, ih]

theorem sumOver_perm {l m : List ι} (h : l.Perm m) (hn : l.Nodup) (F : (ι → ℕ) → R) (f : ι → ℕ) :
    sumOver d l F f = sumOver d m F f := by
  induction h generalizing f with
  | nil => rfl
  | cons x _ ih =>
    unfold sumOver
    exact Finset.sum_congr rfl fun i _ => ih (List.nodup_cons.1 hn).2 _
  | swap x y l =>
    have hxy : y ≠ x := by
      intro e; subst e; simp at hn
    unfold sumOver
    simp only [sumOver]
    rw [Finset.sum_comm]
    refine Finset.sum_congr rfl fun i _ => Finset.sum_congr rfl fun j _ => ?_
    rw [Function.update_comm hxy]
  | trans h1 _ ih1 ih2 => rw [ih1 hn, ih2 (h1.nodup_iff.1 hn)]

/-- The sum does not depend on the given values of the indices summed over. -/
theorem sumOver_update {l : List ι} {x : ι} (hx : x ∈ l) (hn : l.Nodup) (F : (ι → ℕ) → R) (f : ι → ℕ) (i : ℕ) :
    sumOver d l F (Function.update f x i) = sumOver d l F f := by
  induction l generalizing f with
  | nil => cases hx
  | cons y l ih =>
    unfold sumOver
    refine Finset.sum_congr rfl fun j _ => ?_
    by_cases hxy : x = y
    · subst hxy; rw [Function.update_idem]
    · rw [Function.update_comm hxy]
      exact ih ((List.mem_cons.1 hx).resolve_left hxy) (List.nodup_cons.1 hn).2 _

theorem sumOver_eq_of_agree {l : List ι} (hn : l.Nodup) {F : (ι → ℕ) → R} {f f' : ι → ℕ}
    (h : ∀ x, x ∉ l → f x = f' x) : sumOver d l F f = sumOver d l F f' := by
  induction l generalizing f f' with
  | nil =>
    have : f = f' := funext fun x => h x (by simp)
    rw [this]
  | cons y l ih =>
    unfold sumOver
    refine Finset.sum_congr rfl fun j _ => ih (List.nodup_cons.1 hn).2 fun x hx => ?_
    by_cases hxy : x = y
    · subst hxy; simp
    · rw [Function.update_of_ne hxy, Function.update_of_ne hxy]
      exact h x (by simp [hxy, hx])

end

theorem sumOver_mul_left [CommSemiring R] {d : ι → ℕ} {l : List ι} (P Q : (ι → ℕ) → R) {f : ι → ℕ}
    (h : ∀ g, (∀ x, x ∉ l → g x = f x) → P g = P f) :
    sumOver d l (fun g => P g * Q g) f = P f * sumOver d l Q f := by
  have h1 : sumOver d l (fun g => P g * Q g) f = sumOver d l (fun g => P f * Q g) f :=
    sumOver_congr fun g hg _ => by rw [h g hg]
  rw [h1]
  clear h1 h
  generalize P f = p
  induction l generalizing f with
  | nil => rfl
  | cons x l ih =>
    unfold sumOver
    rw [Finset.mul_sum]
    exact Finset.sum_congr rfl fun i _ => ih

end TNCO
