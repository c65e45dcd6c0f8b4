import Verif.Lemmas.Einsum

/-! Sums over indices that are tied to other indices. -/

namespace TNCO
variable {ι R : Type} [DecidableEq ι]

theorem sumOver_zero [AddCommMonoid R] {d : ι → ℕ} {l : List ι} {F : (ι → ℕ) → R} {f : ι → ℕ}
    (h : ∀ g, (∀ x, x ∉ l → g x = f x) → (∀ x ∈ l, g x < d x) → F g = 0) : sumOver d l F f = 0 := by
  rw [sumOver_congr (F' := fun _ => 0) h]
  clear h
  induction l generalizing f with
  | nil => rfl
  | cons x l ih => unfold sumOver; exact Finset.sum_eq_zero fun i _ => ih

theorem sumOver_congr_base [AddCommMonoid R] {d : ι → ℕ} {l : List ι} {F F' : (ι → ℕ) → R} {f f' : ι → ℕ}
    (h : ∀ g g', (∀ x, x ∉ l → g x = f x) → (∀ x, x ∉ l → g' x = f' x) → (∀ x ∈ l, g x < d x ∧ g x = g' x) → F g = F' g') :
    sumOver d l F f = sumOver d l F' f' := by
  induction l generalizing f f' with
  | nil => exact h f f' (fun _ _ => rfl) (fun _ _ => rfl) (by simp)
  | cons x l ih =>
    unfold sumOver
    refine Finset.sum_congr rfl fun i hi => ih fun g g' h1 h2 h3 => ?_
    refine h g g' ?_ ?_ ?_
    · intro y hy
      rw [List.mem_cons, not_or] at hy
      rw [h1 y hy.2, Function.update_of_ne hy.1]
    · intro y hy
      rw [List.mem_cons, not_or] at hy
      rw [h2 y hy.2, Function.update_of_ne hy.1]
    · intro y hy
      by_cases hyl : y ∈ l
      · exact h3 y hyl
      · rcases List.mem_cons.1 hy with rfl | hy
        · rw [h1 y hyl, h2 y hyl, Function.update_self, Function.update_self]
          exact ⟨Finset.mem_range.1 hi, rfl⟩
        · exact absurd hy hyl

/-- Indices in `N` which must have the value of an index outside `N` disappear. -/
theorem sumOver_collapse [AddCommMonoid R] {d : ι → ℕ} {N : List ι} {π : ι → ι} (hn : N.Nodup) (hπ : ∀ x ∈ N, π x ∉ N)
    (Q : (ι → ℕ) → R) {f : ι → ℕ} (hf : ∀ x ∈ N, f (π x) < d x) :
    sumOver d N (fun g => if ∀ x ∈ N, g x = g (π x) then Q g else 0) f = Q fun x => if x ∈ N then f (π x) else f x := by
  induction N generalizing f with
  | nil => simp [sumOver]
  | cons x N ih =>
    rw [List.nodup_cons] at hn
    have hpx : π x ∉ x :: N := hπ x (by simp)
    rw [List.mem_cons, not_or] at hpx
    unfold sumOver
    rw [Finset.sum_eq_single (f (π x))]
    · rw [sumOver_congr (F' := fun g => if ∀ y ∈ N, g y = g (π y) then Q g else 0)]
      · rw [ih hn.2 (fun y hy h => hπ y (by simp [hy]) (by simp [h]))]
        · congr 1
          funext y
          by_cases hy : y ∈ N
          · rw [if_pos hy, if_pos (by simp [hy]), Function.update_of_ne]
            rintro h
            exact hπ y (by simp [hy]) (by simp [h])
          · rw [if_neg hy]
            by_cases hyx : y = x
            · subst hyx
              rw [Function.update_self, if_pos (by simp)]
            · rw [Function.update_of_ne hyx, if_neg (by simp [hy, hyx])]
        · intro y hy
          rw [Function.update_of_ne]
          · exact hf y (by simp [hy])
          · rintro h
            exact hπ y (by simp [hy]) (by simp [h])
      · intro g h1 _
        have e1 : g x = f (π x) := by rw [h1 x hn.1, Function.update_self]
        have e2 : g (π x) = f (π x) := by rw [h1 _ hpx.2, Function.update_of_ne hpx.1]
        have : (∀ y ∈ x :: N, g y = g (π y)) ↔ ∀ y ∈ N, g y = g (π y) := by
          constructor
          · intro h y hy; exact h y (by simp [hy])
          · intro h y hy
            rcases List.mem_cons.1 hy with rfl | hy
            · rw [e1, e2]
            · exact h y hy
        simp only [this]
    · intro i _ hi
      refine sumOver_zero fun g h1 _ => ?_
      rw [if_neg]
      intro h
      have e1 : g x = i := by rw [h1 x hn.1, Function.update_self]
      have e2 : g (π x) = f (π x) := by rw [h1 _ hpx.2, Function.update_of_ne hpx.1]
      have := h x (by simp)
      rw [e1, e2] at this
      exact hi this
    · intro h
      exact absurd (Finset.mem_range.2 (hf x (by simp))) h

theorem sumOver_free [CommSemiring R] {d : ι → ℕ} {l : List ι} {F : (ι → ℕ) → R} {f : ι → ℕ}
    (h : ∀ g, (∀ x, x ∉ l → g x = f x) → F g = F f) : sumOver d l F f = ((l.map d).prod : ℕ) * F f := by
  rw [sumOver_congr (F' := fun _ => F f) fun g hg _ => h g hg]
  generalize F f = c
  clear h
  induction l generalizing f with
  | nil => simp [sumOver]
  | cons x l ih =>
    unfold sumOver
    simp only [ih]
    rw [Finset.sum_const, Finset.card_range, List.map_cons, List.prod_cons, nsmul_eq_mul, Nat.cast_mul, mul_assoc]

end TNCO
