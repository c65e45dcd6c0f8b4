import Verif.Spec.NetEq
import Verif.Lemmas.NDArray
import Mathlib.Analysis.Normed.Field.Basic

/-! # Lemmas: comparing tensors and networks -/

namespace TNCO

theorem broadcastRev_self (s : List ℕ) : broadcastRev s s = some s := by
  induction s with
  | nil => rfl
  | cons a s ih => simp [broadcastRev, ih]

theorem broadcast_self (s : List ℕ) : broadcast s s = some s := by
  unfold broadcast
  rw [broadcastRev_self]
  simp

theorem broadcastRev_comm (s t : List ℕ) : broadcastRev s t = broadcastRev t s := by
  induction s generalizing t with
  | nil => cases t <;> rfl
  | cons a s ih =>
    cases t with
    | nil => rfl
    | cons b t =>
      simp only [broadcastRev, ih t]
      by_cases hab : a = b
      · subst hab
        simp
      · by_cases ha : a = 1 <;> by_cases hb : b = 1
        · omega
        · simp [ha, hb, Ne.symm hb]
        · simp [ha, hb, Ne.symm ha]
        · simp [ha, hb, hab, Ne.symm hab]

theorem broadcast_comm (s t : List ℕ) : broadcast s t = broadcast t s := by
  unfold broadcast
  rw [broadcastRev_comm]

theorem broadcastRev_none (s t : List ℕ) :
    broadcastRev s t = none ↔ ¬ ∀ (k m n : ℕ), s[k]? = some m → t[k]? = some n → m = n ∨ m = 1 ∨ n = 1 := by
  induction s generalizing t with
  | nil => simp [broadcastRev]
  | cons a s ih =>
    cases t with
    | nil => simp [broadcastRev]
    | cons b t =>
      have step : (∀ (k m n : ℕ), (a :: s)[k]? = some m → (b :: t)[k]? = some n → m = n ∨ m = 1 ∨ n = 1) ↔
          (a = b ∨ a = 1 ∨ b = 1) ∧ ∀ (k m n : ℕ), s[k]? = some m → t[k]? = some n → m = n ∨ m = 1 ∨ n = 1 := by
        constructor
        · intro h
          exact ⟨h 0 a b rfl rfl, fun k m n h1 h2 => h (k + 1) m n (by simpa using h1) (by simpa using h2)⟩
        · rintro ⟨h0, h⟩ k m n h1 h2
          cases k with
          | zero =>
            simp only [List.getElem?_cons_zero, Option.some.injEq] at h1 h2
            subst h1 h2
            exact h0
          | succ k => exact h k m n (by simpa using h1) (by simpa using h2)
      rw [step]
      simp only [broadcastRev]
      by_cases h1 : a = b ∨ b = 1
      · rw [if_pos h1, Option.map_eq_none_iff, ih t]
        have : a = b ∨ a = 1 ∨ b = 1 := by omega
        simp [this]
      · rw [if_neg h1]
        by_cases h2 : a = 1
        · rw [if_pos h2, Option.map_eq_none_iff, ih t]
          simp [h2]
        · rw [if_neg h2]
          have : ¬ (a = b ∨ a = 1 ∨ b = 1) := by omega
          simp [this]

theorem broadcast_none (s t : List ℕ) : broadcast s t = none ↔ ¬ ShapesFit s t := by
  unfold broadcast ShapesFit
  rw [Option.map_eq_none_iff, broadcastRev_none]

theorem castGet_eq {K : Type} (a : NDArray K) {idx : List ℕ} (h : List.Forall₂ (· < ·) idx a.shape) : a.castGet idx = a.get idx := by
  unfold NDArray.castGet
  rw [h.length_eq, Nat.sub_self, List.drop_zero]
  congr 1
  generalize a.shape = s at h
  induction h with
  | nil => rfl
  | @cons i d is ds h1 _ ih =>
    rw [List.zipWith_cons_cons, ih]
    split
    · congr 1
      omega
    · rfl

theorem unravel_fits {s : List ℕ} (hs : ∀ d ∈ s, 0 < d) {k : ℕ} (hk : k < s.prod) : List.Forall₂ (· < ·) (unravel s k) s := by
  induction s generalizing k with
  | nil => exact .nil
  | cons d s ih =>
    have hp : 0 < s.prod := List.prod_pos fun x hx => hs x (List.mem_cons_of_mem _ hx)
    rw [List.prod_cons] at hk
    exact .cons (Nat.div_lt_of_lt_mul (by rwa [mul_comm] at hk)) (ih (fun x hx => hs x (List.mem_cons_of_mem _ hx)) (Nat.mod_lt _ hp))

section
variable {K R : Type} [LT R] [DecidableLT R]

theorem entriesClose_same (dist : K → K → R) (atol : R) {a b : NDArray K} (h : a.shape = b.shape) (hp : ∀ d ∈ a.shape, 0 < d) :
    ∃ r, entriesClose dist atol a b = .ok r ∧ (r = true ↔ EntriesClose dist atol a b) := by
  unfold entriesClose
  rw [← h, broadcast_self]
  refine ⟨_, rfl, ?_⟩
  rw [List.all_eq_true]
  simp only [List.mem_range, decide_eq_true_eq]
  constructor
  · intro hall idx hi
    have := hall _ (ravel_lt hi)
    rwa [unravel_ravel hi, castGet_eq a hi, castGet_eq b (by rwa [← h])] at this
  · intro hc k hk
    have hi := unravel_fits hp hk
    rw [castGet_eq a hi, castGet_eq b (by rwa [← h])]
    exact hc _ hi

theorem entriesClose_comm (dist : K → K → R) (hd : ∀ x y, dist x y = dist y x) (atol : R) (a b : NDArray K) : entriesClose dist atol a b = entriesClose dist atol b a := by
  unfold entriesClose
  rw [broadcast_comm]
  cases broadcast b.shape a.shape with
  | none => rfl
  | some s =>
    simp only [Except.ok.injEq]
    congr 1
    funext k
    rw [hd]

theorem entriesClose_error (dist : K → K → R) (atol : R) (a b : NDArray K) (e : PyErr) :
    entriesClose dist atol a b = .error e ↔ e = .valueError ∧ ¬ ShapesFit a.shape b.shape := by
  unfold entriesClose
  rw [← broadcast_none]
  cases broadcast a.shape b.shape with
  | none => simp [eq_comm]
  | some s => simp

end

section
variable {ι K : Type} [DecidableEq ι] [NormedField K]

/-- Products of numbers that are close are close. -/
theorem prod_close {M δ : ℝ} (hδ : 0 ≤ δ) (hM : 0 ≤ M) {as bs : List K} (h : List.Forall₂ (fun a b => ‖a‖ ≤ M ∧ ‖a - b‖ ≤ δ) as bs) :
    ‖as.prod - bs.prod‖ ≤ (M + δ) ^ as.length - M ^ as.length ∧ ‖bs.prod‖ ≤ (M + δ) ^ as.length ∧ ‖as.prod‖ ≤ M ^ as.length := by
  induction h with
  | nil => simp
  | @cons a b as bs hab _ ih =>
    obtain ⟨ih1, ih2, ih3⟩ := ih
    obtain ⟨ha, hd⟩ := hab
    have hb : ‖b‖ ≤ M + δ := by
      have := norm_sub_norm_le b a
      rw [norm_sub_rev] at this
      linarith
    simp only [List.prod_cons, List.length_cons, norm_mul, pow_succ]
    refine ⟨?_, ?_, ?_⟩
    · have e : a * as.prod - b * bs.prod = a * (as.prod - bs.prod) + (a - b) * bs.prod := by ring
      rw [e]
      refine (norm_add_le _ _).trans ?_
      rw [norm_mul, norm_mul]
      have h1 : ‖a‖ * ‖as.prod - bs.prod‖ ≤ M * ((M + δ) ^ as.length - M ^ as.length) := mul_le_mul ha ih1 (norm_nonneg _) hM
      have h2 : ‖a - b‖ * ‖bs.prod‖ ≤ δ * (M + δ) ^ as.length := mul_le_mul hd ih2 (norm_nonneg _) hδ
      calc _ ≤ M * ((M + δ) ^ as.length - M ^ as.length) + δ * (M + δ) ^ as.length := add_le_add h1 h2
        _ = _ := by ring
    · rw [mul_comm]
      exact mul_le_mul ih2 hb (norm_nonneg _) (by positivity)
    · rw [mul_comm]
      exact mul_le_mul ih3 ha (norm_nonneg _) (by positivity)

/-- A sum over indices of terms that are close. -/
theorem sumOver_close {d : ι → ℕ} {l : List ι} {F G : (ι → ℕ) → K} {B : ℝ} {f : ι → ℕ}
    (h : ∀ g : ι → ℕ, (∀ x, x ∉ l → g x = f x) → (∀ x ∈ l, g x < d x) → ‖F g - G g‖ ≤ B) :
    ‖sumOver d l F f - sumOver d l G f‖ ≤ ((l.map d).prod : ℕ) * B := by
  induction l generalizing f with
  | nil => simpa [sumOver] using h f (fun _ _ => rfl) (by simp)
  | cons x l ih =>
    simp only [sumOver, List.map_cons, List.prod_cons]
    rw [← Finset.sum_sub_distrib]
    refine (norm_sum_le _ _).trans ?_
    have : ∀ i ∈ Finset.range (d x), ‖sumOver d l F (Function.update f x i) - sumOver d l G (Function.update f x i)‖ ≤ ((l.map d).prod : ℕ) * B := by
      intro i hi
      rw [Finset.mem_range] at hi
      refine ih fun g h1 h2 => h g (fun y hy => ?_) fun y hy => ?_
      · rw [List.mem_cons, not_or] at hy
        rw [h1 y hy.2, Function.update_of_ne hy.1]
      · by_cases hyl : y ∈ l
        · exact h2 y hyl
        · obtain rfl : y = x := (List.mem_cons.1 hy).resolve_right hyl
          rw [h1 y hyl, Function.update_self]
          exact hi
    refine (Finset.sum_le_sum this).trans (le_of_eq ?_)
    rw [Finset.sum_const, Finset.card_range, nsmul_eq_mul]
    push_cast
    ring

end

end TNCO
