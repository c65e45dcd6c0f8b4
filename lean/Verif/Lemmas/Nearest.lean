import Verif.Spec.FloatClass
import Verif.Lemmas.Float

/-! Rounding to nearest. -/

namespace TNCO

theorem zpow2_pos (e : ℤ) : (0 : ℚ) < (2 : ℚ) ^ e := zpow_pos (by norm_num) e

theorem zpow2_mono {a b : ℤ} (h : a ≤ b) : (2 : ℚ) ^ a ≤ (2 : ℚ) ^ b := zpow_le_zpow_right₀ (by norm_num) h

theorem zpow2_lt {a b : ℤ} (h : a < b) : (2 : ℚ) ^ a < (2 : ℚ) ^ b := zpow_lt_zpow_right₀ (by norm_num) h

theorem zpow2_lt_iff {a b : ℤ} : (2 : ℚ) ^ a < (2 : ℚ) ^ b ↔ a < b := zpow_lt_zpow_iff_right₀ (by norm_num)

theorem log2_eq {x : ℚ} {L : ℤ} (h1 : (2 : ℚ) ^ L ≤ x) (h2 : x < (2 : ℚ) ^ (L + 1)) : Int.log 2 x = L := by
  have hx : 0 < x := (zpow2_pos L).trans_le h1
  have a : ((2 : ℕ) : ℚ) ^ Int.log 2 x ≤ x := Int.zpow_log_le_self (by norm_num) hx
  have b : x < ((2 : ℕ) : ℚ) ^ (Int.log 2 x + 1) := Int.lt_zpow_succ_log_self (by norm_num) x
  have c := zpow2_lt_iff.1 (by push_cast at *; exact lt_of_le_of_lt a h2)
  have d := zpow2_lt_iff.1 (by push_cast at *; exact lt_of_le_of_lt h1 b)
  omega

theorem log2_le {x : ℚ} (hx : 0 < x) : (2 : ℚ) ^ Int.log 2 x ≤ x := by
  have := Int.zpow_log_le_self (R := ℚ) (b := 2) (by norm_num) hx
  exact_mod_cast this

theorem lt_log2 (x : ℚ) : x < (2 : ℚ) ^ (Int.log 2 x + 1) := by
  have := Int.lt_zpow_succ_log_self (R := ℚ) (b := 2) (by norm_num) x
  exact_mod_cast this

/-- The rounded integer is nearest, and the even one of two. -/
theorem roundEven_nearest (x : ℚ) (z : ℤ) : |(roundEven x : ℚ) - x| ≤ |(z : ℚ) - x| := by
  by_cases h : z = roundEven x
  · rw [h]
  · have h1 := roundEven_near x
    have h2 : (1 : ℚ) ≤ |(z : ℚ) - roundEven x| := by
      have : (1 : ℤ) ≤ |z - roundEven x| := Int.one_le_abs (sub_ne_zero.2 h)
      exact_mod_cast this
    have h3 : |(z : ℚ) - roundEven x| ≤ |(z : ℚ) - x| + |(roundEven x : ℚ) - x| := by
      have := abs_sub_le (z : ℚ) x (roundEven x)
      rwa [abs_sub_comm x] at this
    linarith

theorem roundEven_even (x : ℚ) (z : ℤ) (h : |(z : ℚ) - x| = |(roundEven x : ℚ) - x|) (hne : z ≠ roundEven x) :
    ∃ k : ℤ, roundEven x = 2 * k ∧ (z = 2 * k + 1 ∨ z = 2 * k - 1) := by
  have h1 := roundEven_near x
  have h2 : |(z : ℚ) - roundEven x| ≤ 1 := by
    have := abs_sub_le (z : ℚ) x (roundEven x)
    rw [abs_sub_comm x] at this
    linarith
  have h3 : |z - roundEven x| ≤ 1 := by exact_mod_cast h2
  have h3' := abs_le.1 h3
  have hz : z = roundEven x + 1 ∨ z = roundEven x - 1 := by omega
  -- both are at distance one half
  have hhalf : |(roundEven x : ℚ) - x| = 1 / 2 := by
    have h4 : (1 : ℚ) ≤ |(z : ℚ) - roundEven x| := by
      have : (1 : ℤ) ≤ |z - roundEven x| := Int.one_le_abs (sub_ne_zero.2 hne)
      exact_mod_cast this
    have := abs_sub_le (z : ℚ) x (roundEven x)
    rw [abs_sub_comm x] at this
    linarith
  have hev : roundEven x % 2 = 0 := by
    have f1 := Int.floor_le x
    have f2 := Int.lt_floor_add_one x
    unfold roundEven at hhalf ⊢
    split at hhalf
    · next c =>
      rw [abs_of_nonpos (by linarith)] at hhalf
      linarith
    · next c =>
      split at hhalf
      · next c2 =>
        push_cast at hhalf
        rw [abs_of_nonneg (by linarith)] at hhalf
        linarith
      · next c2 =>
        rw [if_neg c, if_neg c2]
        split
        · assumption
        · omega
  obtain ⟨k, hk⟩ := Int.dvd_of_emod_eq_zero hev
  exact ⟨k, hk, by omega⟩

theorem hasBits_zero (p : ℕ) : HasBits p 0 := ⟨0, 0, by simp, by simp⟩

theorem hasBits_neg {p : ℕ} {q : ℚ} (h : HasBits p q) : HasBits p (-q) := by
  obtain ⟨k, e, h1, rfl⟩ := h
  exact ⟨-k, e, by rwa [abs_neg], by push_cast; ring⟩

theorem hasBits_pow {p : ℕ} (hp : 1 ≤ p) (e : ℤ) : HasBits p ((2 : ℚ) ^ e) :=
  ⟨1, e, by simpa using Nat.one_lt_two_pow_iff.2 (by omega) |> fun h => (by exact_mod_cast h : (1 : ℤ) < 2 ^ p), by simp⟩

/-- Integers up to `2^p` times a power of two have `p` bits. -/
theorem hasBits_le {p : ℕ} (hp : 1 ≤ p) {k : ℤ} (h : |k| ≤ 2 ^ p) (e : ℤ) : HasBits p (k * (2 : ℚ) ^ e) := by
  rcases lt_or_eq_of_le h with h | h
  · exact ⟨k, e, h, rfl⟩
  · have h2 : k = 2 ^ p ∨ k = -2 ^ p := by
      rcases abs_choice k with c | c <;> omega
    have hb : HasBits p (((2 ^ p : ℤ) : ℚ) * (2 : ℚ) ^ e) := by
      have := hasBits_pow hp (p + e)
      rw [zpow_add₀ (by norm_num), zpow_natCast] at this
      exact_mod_cast this
    rcases h2 with rfl | rfl
    · exact hb
    · have := hasBits_neg hb
      rw [← neg_mul] at this
      push_cast at this ⊢
      exact this

/-- What lies below a power of two is a multiple of the last bit. -/
theorem hasBits_small {p : ℕ} {q : ℚ} (h : HasBits p q) {L : ℤ} (hq : (2 : ℚ) ^ L ≤ |q|) : ∃ z : ℤ, q = z * (2 : ℚ) ^ (L + 1 - p) := by
  obtain ⟨k, e, h1, rfl⟩ := h
  have h2 : |(k : ℚ) * (2 : ℚ) ^ e| < (2 : ℚ) ^ ((p : ℤ) + e) := by
    rw [abs_mul, abs_of_pos (zpow2_pos e), zpow_add₀ (by norm_num), zpow_natCast]
    apply mul_lt_mul_of_pos_right _ (zpow2_pos e)
    exact_mod_cast h1
  have h3 := zpow2_lt_iff.1 (hq.trans_lt h2)
  refine ⟨k * 2 ^ (e - (L + 1 - p)).toNat, ?_⟩
  push_cast
  rw [← zpow_natCast, Int.toNat_of_nonneg (by omega), mul_assoc, ← zpow_add₀ (by norm_num)]
  congr 2
  ring

theorem roundTo_bits {p : ℕ} (hp : 1 ≤ p) (x : ℚ) : HasBits p (roundTo p x) := by
  unfold roundTo
  split
  · exact hasBits_zero p
  next hx =>
  apply hasBits_le hp
  have h1 : |x / (2 : ℚ) ^ ulpExp p x| < 2 ^ p := by
    rw [abs_div, abs_of_pos (zpow2_pos _), div_lt_iff₀ (zpow2_pos _)]
    have := lt_log2 |x|
    rw [← zpow_natCast, ← zpow_add₀ (by norm_num)]
    unfold ulpExp
    rwa [show (p : ℤ) + (Int.log 2 |x| + 1 - p) = Int.log 2 |x| + 1 by ring]
  have h2 := roundEven_nearest (x / (2 : ℚ) ^ ulpExp p x) (2 ^ p)
  have h3 := roundEven_nearest (x / (2 : ℚ) ^ ulpExp p x) (-2 ^ p)
  push_cast at h2 h3
  rw [abs_lt] at h1
  rw [abs_le]
  constructor
  · by_contra hc
    push Not at hc
    have hc' : (roundEven (x / (2 : ℚ) ^ ulpExp p x) : ℚ) < -2 ^ p := by exact_mod_cast hc
    rw [abs_of_neg (by linarith), abs_of_neg (by linarith)] at h3
    linarith
  · by_contra hc
    push Not at hc
    have hc' : (2 : ℚ) ^ p < roundEven (x / (2 : ℚ) ^ ulpExp p x) := by exact_mod_cast hc
    rw [abs_of_pos (by linarith), abs_of_pos (by linarith)] at h2
    linarith

/-- Scaling of distances to the grid. -/
theorem grid_dist (x : ℚ) (u : ℚ) (hu : 0 < u) (z : ℤ) : |(z : ℚ) * u - x| = |(z : ℚ) - x / u| * u := by
  rw [← abs_of_pos hu, ← abs_mul, abs_of_pos hu]
  congr 1
  field_simp

theorem roundTo_nearest {p : ℕ} (hp : 1 ≤ p) (x : ℚ) : Nearest p x (roundTo p x) := by
  by_cases hx : x = 0
  · subst hx
    have h0 : roundTo p 0 = 0 := if_pos rfl
    rw [h0]
    refine ⟨hasBits_zero p, fun q _ => by simp, fun q _ h => Or.inl ?_⟩
    simpa using h
  have hax : 0 < |x| := abs_pos.2 hx
  have hu := zpow2_pos (ulpExp p x)
  have e : roundTo p x = (roundEven (x / (2 : ℚ) ^ ulpExp p x) : ℚ) * (2 : ℚ) ^ ulpExp p x := if_neg hx
  -- multiples of the last bit
  have hgrid : ∀ z : ℤ, |roundTo p x - x| ≤ |(z : ℚ) * (2 : ℚ) ^ ulpExp p x - x| := by
    intro z
    rw [e, grid_dist _ _ hu, grid_dist _ _ hu]
    exact mul_le_mul_of_nonneg_right (roundEven_nearest _ _) hu.le
  -- the power of two below
  have hpow : |roundTo p x - x| ≤ |x| - (2 : ℚ) ^ Int.log 2 |x| := by
    have hl := log2_le hax
    obtain ⟨z, hz⟩ : ∃ z : ℤ, (2 : ℚ) ^ Int.log 2 |x| = z * (2 : ℚ) ^ ulpExp p x := by
      apply hasBits_small (hasBits_pow hp _)
      rw [abs_of_pos (zpow2_pos _)]
    rcases lt_or_gt_of_ne hx with hneg | hpos
    · have := hgrid (-z)
      push_cast at this
      rw [neg_mul, ← hz] at this
      rw [abs_of_neg hneg] at hl ⊢
      rw [abs_of_neg hneg] at this
      rw [abs_of_nonneg (show (0 : ℚ) ≤ -(2 : ℚ) ^ Int.log 2 (-x) - x by linarith)] at this
      linarith
    · have := hgrid z
      rw [← hz] at this
      rw [abs_of_pos hpos] at hl ⊢
      rw [abs_of_pos hpos] at this
      rw [abs_of_nonpos (show (2 : ℚ) ^ Int.log 2 x - x ≤ 0 by linarith)] at this
      linarith
  have hfar : ∀ q, |q| < (2 : ℚ) ^ Int.log 2 |x| → |roundTo p x - x| < |q - x| := by
    intro q hq
    have : |x| - |q| ≤ |q - x| := by
      rw [abs_sub_comm]
      exact abs_sub_abs_le_abs_sub x q
    linarith
  refine ⟨roundTo_bits hp x, fun q hq => ?_, fun q hq ht => ?_⟩
  · rcases lt_or_ge |q| ((2 : ℚ) ^ Int.log 2 |x|) with h | h
    · exact (hfar q h).le
    · obtain ⟨z, rfl⟩ := hasBits_small hq h
      exact hgrid z
  · rcases lt_or_ge |q| ((2 : ℚ) ^ Int.log 2 |x|) with h | h
    · exact absurd ht (hfar q h).ne'
    · obtain ⟨z, rfl⟩ := hasBits_small hq h
      change |(z : ℚ) * (2 : ℚ) ^ ulpExp p x - x| = _ at ht
      rw [e, grid_dist _ _ hu, grid_dist _ _ hu] at ht
      have ht' := mul_right_cancel₀ hu.ne' ht
      by_cases hz : z = roundEven (x / (2 : ℚ) ^ ulpExp p x)
      · left; rw [e, ← hz]; rfl
      · right
        obtain ⟨k, hk, hk'⟩ := roundEven_even _ z ht' hz
        refine ⟨k, ulpExp p x, by rw [e, hk], ?_⟩
        rcases hk' with rfl | rfl
        · exact Or.inl rfl
        · exact Or.inr rfl

theorem zpow2_inj {a b : ℤ} (h : (2 : ℚ) ^ a = (2 : ℚ) ^ b) : a = b := by
  rcases lt_trichotomy a b with c | c | c
  · exact absurd h (zpow2_lt c).ne
  · exact c
  · exact absurd h (zpow2_lt c).ne'

/-- There is one nearest number. -/
theorem Nearest.unique {p : ℕ} {x r s : ℚ} (hr : Nearest p x r) (hs : Nearest p x s) : r = s := by
  have h : |r - x| = |s - x| := le_antisymm (hr.nearest s hs.bits) (hs.nearest r hr.bits)
  rcases hr.even s hs.bits h.symm with h1 | ⟨k, e, h1, h1'⟩
  · exact h1.symm
  rcases hs.even r hr.bits h with h2 | ⟨l, f, h2, h2'⟩
  · exact h2
  exfalso
  have e1 : |r - s| = (2 : ℚ) ^ e := by
    rcases h1' with h1' | h1'
    · rw [h1, h1']
      rw [show ((2 * k : ℤ) : ℚ) * (2 : ℚ) ^ e - ((2 * k + 1 : ℤ) : ℚ) * (2 : ℚ) ^ e = -(2 : ℚ) ^ e by push_cast; ring, abs_neg, abs_of_pos (zpow2_pos e)]
    · rw [h1, h1']
      rw [show ((2 * k : ℤ) : ℚ) * (2 : ℚ) ^ e - ((2 * k - 1 : ℤ) : ℚ) * (2 : ℚ) ^ e = (2 : ℚ) ^ e by push_cast; ring, abs_of_pos (zpow2_pos e)]
  have e2 : |r - s| = (2 : ℚ) ^ f := by
    rcases h2' with h2' | h2'
    · rw [h2, h2']
      rw [show ((2 * l + 1 : ℤ) : ℚ) * (2 : ℚ) ^ f - ((2 * l : ℤ) : ℚ) * (2 : ℚ) ^ f = (2 : ℚ) ^ f by push_cast; ring, abs_of_pos (zpow2_pos f)]
    · rw [h2, h2']
      rw [show ((2 * l - 1 : ℤ) : ℚ) * (2 : ℚ) ^ f - ((2 * l : ℤ) : ℚ) * (2 : ℚ) ^ f = -(2 : ℚ) ^ f by push_cast; ring, abs_neg, abs_of_pos (zpow2_pos f)]
  have e3 := zpow2_inj (e1.symm.trans e2)
  subst e3
  have hne := (zpow2_pos e).ne'
  rcases h2' with h2' | h2'
  · rw [h1] at h2'
    have := mul_right_cancel₀ hne h2'
    have : 2 * k = 2 * l + 1 := by exact_mod_cast this
    omega
  · rw [h1] at h2'
    have := mul_right_cancel₀ hne h2'
    have : 2 * k = 2 * l - 1 := by exact_mod_cast this
    omega

theorem Nearest.neg {p : ℕ} {x r : ℚ} (h : Nearest p x r) : Nearest p (-x) (-r) := by
  have e : ∀ q, |q - -x| = |-q - x| := fun q => by rw [← abs_neg]; congr 1; ring
  refine ⟨hasBits_neg h.bits, fun q hq => ?_, fun q hq ht => ?_⟩
  · rw [e, e, neg_neg]; exact h.nearest _ (hasBits_neg hq)
  · rw [e, e, neg_neg] at ht
    rcases h.even _ (hasBits_neg hq) ht with h1 | ⟨k, f, h1, h2⟩
    · left; linarith
    · right
      refine ⟨-k, f, by rw [h1]; push_cast; ring, ?_⟩
      rcases h2 with h2 | h2
      · right; rw [← neg_neg q, h2]; push_cast; ring
      · left; rw [← neg_neg q, h2]; push_cast; ring

theorem Nearest.mono {p : ℕ} {x y r s : ℚ} (hr : Nearest p x r) (hs : Nearest p y s) (h : x ≤ y) : r ≤ s := by
  rcases eq_or_lt_of_le h with rfl | h
  · exact (hr.unique hs).le
  by_contra hc
  push Not at hc
  have h1 := hr.nearest s hs.bits
  have h2 := hs.nearest r hr.bits
  have a1 : (r + s) / 2 ≤ x := by
    by_contra c
    push Not at c
    have : |s - x| < |r - x| := by
      rw [abs_lt]
      have : 0 < r - x := by linarith
      rw [abs_of_pos this]
      constructor <;> linarith
    linarith
  have a2 : y ≤ (r + s) / 2 := by
    by_contra c
    push Not at c
    have : |r - y| < |s - y| := by
      rw [abs_lt]
      have : s - y < 0 := by linarith
      rw [abs_of_neg this]
      constructor <;> linarith
    linarith
  linarith

theorem Nearest.of_bits {p : ℕ} {x : ℚ} (h : HasBits p x) : Nearest p x x := by
  refine ⟨h, fun q _ => by simp, fun q _ ht => Or.inl ?_⟩
  simpa [sub_eq_zero] using ht

theorem roundTo_eq {p : ℕ} (hp : 1 ≤ p) {x r : ℚ} (h : Nearest p x r) : roundTo p x = r := (roundTo_nearest hp x).unique h

theorem roundTo_self {p : ℕ} (hp : 1 ≤ p) {x : ℚ} (h : HasBits p x) : roundTo p x = x := roundTo_eq hp (Nearest.of_bits h)

theorem roundTo_neg {p : ℕ} (hp : 1 ≤ p) (x : ℚ) : roundTo p (-x) = -roundTo p x := roundTo_eq hp (roundTo_nearest hp x).neg

theorem roundTo_mono {p : ℕ} (hp : 1 ≤ p) {x y : ℚ} (h : x ≤ y) : roundTo p x ≤ roundTo p y :=
  (roundTo_nearest hp x).mono (roundTo_nearest hp y) h

theorem roundTo_abs {p : ℕ} (hp : 1 ≤ p) (x : ℚ) : |roundTo p x| = roundTo p |x| := by
  have h0 : roundTo p 0 = 0 := if_pos rfl
  rcases le_total 0 x with h | h
  · rw [abs_of_nonneg h, abs_of_nonneg]
    rw [← h0]; exact roundTo_mono hp h
  · rw [abs_of_nonpos h, roundTo_neg hp, abs_of_nonpos]
    rw [← h0]; exact roundTo_mono hp h

end TNCO
