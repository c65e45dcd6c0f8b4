import Verif.Lemmas.Twister
import Verif.Lemmas.Nearest
import Verif.Lemmas.Float
import Mathlib.Data.Int.CardIntervalMod

/-!
# The numbers of `[0, 1)` that are made of two draws
-/

namespace TNCO

theorem roundTo_nonneg {x : ℚ} (h : 0 ≤ x) : 0 ≤ roundTo 53 x := by
  have := roundTo_mono (p := 53) (by norm_num) h
  rwa [show roundTo 53 (0 : ℚ) = 0 from if_pos rfl] at this

theorem roundTo_eq_zero {x : ℚ} : roundTo 53 x = 0 ↔ x = 0 := by
  constructor
  · intro h
    have h1 := roundTo_near (p := 53) x
    rw [h, zero_sub, abs_neg] at h1
    have h2 := abs_nonneg x
    have h3 : |x| / 2 ^ 53 * 2 ^ 53 = |x| := by field_simp
    have h4 : |x| * 2 ^ 53 ≤ |x| := by
      calc |x| * 2 ^ 53 ≤ |x| / 2 ^ 53 * 2 ^ 53 := by gcongr
        _ = |x| := h3
    have h5 : |x| = 0 := by nlinarith
    exact abs_eq_zero.1 h5
  · rintro rfl
    exact if_pos rfl

/-- The sum of the two halves, rounded. -/
theorem canonical_range (a b : ℕ) : 0 ≤ canonical a b ∧ canonical a b < 1 := by
  unfold canonical
  have h : 0 ≤ roundTo 53 (roundTo 53 (a : ℚ) + roundTo 53 (b : ℚ) * 2 ^ 32) :=
    roundTo_nonneg (add_nonneg (roundTo_nonneg (by positivity)) (mul_nonneg (roundTo_nonneg (by positivity)) (by positivity)))
  split
  · constructor <;> norm_num
  · rename_i g
    exact ⟨by positivity, not_le.1 g⟩

theorem canonical_zero (a b : ℕ) : canonical a b = 0 ↔ a = 0 ∧ b = 0 := by
  have ha : 0 ≤ roundTo 53 (a : ℚ) := roundTo_nonneg (by positivity)
  have hb : 0 ≤ roundTo 53 (b : ℚ) := roundTo_nonneg (by positivity)
  have key : roundTo 53 (roundTo 53 (a : ℚ) + roundTo 53 (b : ℚ) * 2 ^ 32) = 0 ↔ a = 0 ∧ b = 0 := by
    rw [roundTo_eq_zero]
    constructor
    · intro h
      have h1 : roundTo 53 (a : ℚ) = 0 := by nlinarith
      have h2 : roundTo 53 (b : ℚ) = 0 := by nlinarith
      rw [roundTo_eq_zero] at h1 h2
      exact ⟨by exact_mod_cast h1, by exact_mod_cast h2⟩
    · rintro ⟨rfl, rfl⟩
      have : roundTo 53 ((0 : ℕ) : ℚ) = 0 := if_pos (by norm_num)
      rw [this]; norm_num
  rw [← key]
  unfold canonical
  split
  · rename_i g
    constructor
    · intro h; norm_num at h
    · intro h; rw [h] at g; norm_num at g
  · constructor
    · intro h
      have := div_eq_zero_iff.1 h
      rcases this with h | h
      · exact h
      · norm_num at h
    · intro h; rw [h]; norm_num

theorem roundTo_word {a : ℕ} (h : a < 2 ^ 32) : roundTo 53 (a : ℚ) = a :=
  roundTo_self (by norm_num) ⟨a, 0, by rw [abs_of_nonneg (by positivity)]; exact_mod_cast lt_trans h (by norm_num), by simp⟩

theorem canonical_close {a b : ℕ} (ha : a < 2 ^ 32) (hb : b < 2 ^ 32) :
    |canonical a b - ((a + b * 2 ^ 32 : ℕ) : ℚ) / 2 ^ 64| ≤ 1 / 2 ^ 53 := by
  unfold canonical
  rw [roundTo_word ha, roundTo_word hb]
  set x : ℚ := (a : ℚ) + b * 2 ^ 32 with hx
  have hcast : ((a + b * 2 ^ 32 : ℕ) : ℚ) = x := by rw [hx]; push_cast; norm_num
  have hx0 : 0 ≤ x := by positivity
  have hx1 : x < 2 ^ 64 := by
    rw [← hcast]
    have : a + b * 2 ^ 32 < 2 ^ 64 := by omega
    exact_mod_cast this
  have near := roundTo_near (p := 53) x
  rw [abs_of_nonneg hx0] at near
  rw [hcast]
  obtain ⟨n1, n2⟩ := abs_le.1 near
  generalize roundTo 53 x = r at *
  split
  · rename_i g
    have g' : (2 : ℚ) ^ 64 ≤ r := by
      rw [le_div_iff₀ (by positivity)] at g
      linarith
    rw [abs_le]
    constructor
    · have : x / 2 ^ 64 < 1 := by rw [div_lt_one (by positivity)]; exact hx1
      norm_num at this ⊢
      linarith
    · have : 1 - 1 / 2 ^ 53 ≤ x / 2 ^ 64 + 1 / 2 ^ 53 := by
        rw [← sub_le_iff_le_add, le_div_iff₀ (by positivity)]
        norm_num at *
        linarith
      norm_num at this ⊢
      linarith
  · rw [← sub_div, abs_div, abs_of_pos (show (0 : ℚ) < 2 ^ 64 by positivity), div_le_iff₀ (by positivity)]
    refine le_trans near ?_
    norm_num at *
    linarith

end TNCO
