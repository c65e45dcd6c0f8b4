import Verif.Spec.Report
import Verif.Lemmas.Float
import Mathlib.Tactic.NormNum

/-! Decimal rounding. -/

namespace TNCO

theorem roundEven_int (n : ℤ) : roundEven (n : ℚ) = n := by
  simp [roundEven]

/-- `roundEven` is a nearest integer. -/
theorem roundEven_best (x : ℚ) (n : ℤ) : |(roundEven x : ℚ) - x| ≤ |(n : ℚ) - x| := by
  have hf1 := Int.floor_le x
  have hf2 := Int.lt_floor_add_one x
  rcases le_or_gt n ⌊x⌋ with h | h
  · have hn : (n : ℚ) ≤ (⌊x⌋ : ℚ) := by exact_mod_cast h
    rw [abs_of_nonpos (a := (n : ℚ) - x) (by linarith)]
    unfold roundEven
    split
    · rw [abs_of_nonpos (by linarith)]; linarith
    · split
      · push_cast; rw [abs_of_nonneg (by linarith)]; linarith
      · split
        · rw [abs_of_nonpos (by linarith)]; linarith
        · push_cast; rw [abs_of_nonneg (by linarith)]; linarith
  · have hn : (⌊x⌋ : ℚ) + 1 ≤ (n : ℚ) := by exact_mod_cast h
    rw [abs_of_nonneg (a := (n : ℚ) - x) (by linarith)]
    unfold roundEven
    split
    · rw [abs_of_nonpos (by linarith)]; linarith
    · split
      · push_cast; rw [abs_of_nonneg (by linarith)]; linarith
      · split
        · rw [abs_of_nonpos (by linarith)]; linarith
        · push_cast; rw [abs_of_nonneg (by linarith)]; linarith

variable {p : ℕ}

theorem roundSig_zero : roundSig p 0 = 0 := by simp [roundSig]

theorem ten_zpow_pos (k : ℤ) : (0 : ℚ) < (10 : ℚ) ^ k := zpow_pos (by norm_num) _

theorem log10_le {x : ℚ} (h : x ≠ 0) : (10 : ℚ) ^ Int.log 10 |x| ≤ |x| := by
  have := Int.zpow_log_le_self (b := 10) (by norm_num) (abs_pos.2 h)
  exact_mod_cast this

theorem lt_log10 (x : ℚ) : |x| < (10 : ℚ) ^ (Int.log 10 |x| + 1) := by
  have := Int.lt_zpow_succ_log_self (b := 10) (by norm_num) |x|
  exact_mod_cast this

theorem roundSig_grid {x : ℚ} (h : x ≠ 0) (n : ℤ) :
    |roundSig p x - x| ≤ |n * (10 : ℚ) ^ (Int.log 10 |x| + 1 - p) - x| := by
  unfold roundSig
  rw [if_neg h]
  set u := (10 : ℚ) ^ (Int.log 10 |x| + 1 - p) with hu
  have hpos : 0 < u := ten_zpow_pos _
  have e : ∀ a : ℚ, a * u - x = (a - x / u) * u := fun a => by field_simp
  rw [e, e, abs_mul, abs_mul]
  exact mul_le_mul_of_nonneg_right (roundEven_best _ _) (abs_nonneg _)

/-- The result is a nearest number with `p` digits. -/
theorem roundSig_best (hp : 1 ≤ p) (x : ℚ) {y : ℚ} (hy : IsDec p y) : |roundSig p x - x| ≤ |y - x| := by
  by_cases h : x = 0
  · subst h; simp [roundSig_zero]
  obtain ⟨m, k, hm, rfl⟩ := hy
  rcases le_or_gt (Int.log 10 |x| + 1 - p) k with hk | hk
  · obtain ⟨d, hd⟩ := Int.le.dest hk
    have : (m : ℚ) * (10 : ℚ) ^ k = ((m * 10 ^ d : ℤ) : ℚ) * (10 : ℚ) ^ (Int.log 10 |x| + 1 - p) := by
      rw [← hd, zpow_add₀ (by norm_num), zpow_natCast]; push_cast; ring
    rw [this]
    exact roundSig_grid h _
  · -- the number is too small: the power of ten below `|x|` is closer
    have hsmall : |(m : ℚ) * (10 : ℚ) ^ k| ≤ (10 : ℚ) ^ Int.log 10 |x| := by
      rw [abs_mul, abs_of_pos (ten_zpow_pos k)]
      have h1 : |(m : ℚ)| ≤ (10 : ℚ) ^ p := by exact_mod_cast hm.le
      calc |(m : ℚ)| * (10 : ℚ) ^ k ≤ (10 : ℚ) ^ p * (10 : ℚ) ^ k := mul_le_mul_of_nonneg_right h1 (ten_zpow_pos k).le
        _ = (10 : ℚ) ^ ((p : ℤ) + k) := by rw [zpow_add₀ (by norm_num), zpow_natCast]
        _ ≤ _ := zpow_le_zpow_right₀ (by norm_num) (by omega)
    have hle := log10_le h
    have hgrid : (10 : ℚ) ^ Int.log 10 |x| = ((10 ^ (p - 1) : ℤ) : ℚ) * (10 : ℚ) ^ (Int.log 10 |x| + 1 - p) := by
      push_cast
      rw [← zpow_natCast, ← zpow_add₀ (by norm_num)]
      congr 1
      omega
    have hdist : |x| - (10 : ℚ) ^ Int.log 10 |x| ≤ |(m : ℚ) * (10 : ℚ) ^ k - x| := by
      have := abs_sub_abs_le_abs_sub x ((m : ℚ) * (10 : ℚ) ^ k)
      rw [abs_sub_comm] at this
      linarith
    refine le_trans ?_ hdist
    rcases lt_or_gt_of_ne h with hx | hx
    · refine le_trans (roundSig_grid h (-(10 ^ (p - 1)))) ?_
      have : ((-(10 ^ (p - 1)) : ℤ) : ℚ) * (10 : ℚ) ^ (Int.log 10 |x| + 1 - p) = - (10 : ℚ) ^ Int.log 10 |x| := by
        rw [hgrid]; push_cast; ring
      rw [this, abs_of_nonneg]
      · rw [abs_of_neg hx]; linarith
      · have := abs_of_neg hx; linarith
    · refine le_trans (roundSig_grid h (10 ^ (p - 1))) ?_
      rw [← hgrid, abs_of_nonpos]
      · rw [abs_of_pos hx]; linarith
      · have := abs_of_pos hx; linarith

theorem isDec_grid (hp : 1 ≤ p) {m : ℤ} (hm : |m| ≤ 10 ^ p) (k : ℤ) : IsDec p (m * (10 : ℚ) ^ k) := by
  rcases hm.lt_or_eq with h | h
  · exact ⟨m, k, h, rfl⟩
  · refine ⟨m.sign, k + p, ?_, ?_⟩
    · have : |m.sign| ≤ 1 := by
        rcases Int.sign_trichotomy m with h | h | h <;> simp [h]
      calc |m.sign| ≤ 1 := this
        _ < 10 ^ p := one_lt_pow₀ (by norm_num) (by omega)
    · have e : m = m.sign * 10 ^ p := by
        have h1 := Int.sign_mul_abs m
        rw [h] at h1
        exact h1.symm
      conv_lhs => rw [e]
      rw [zpow_add₀ (by norm_num), zpow_natCast]
      push_cast
      ring

theorem roundSig_isDec (hp : 1 ≤ p) (x : ℚ) : IsDec p (roundSig p x) := by
  by_cases h : x = 0
  · subst h
    rw [roundSig_zero]
    exact ⟨0, 0, by simp, by simp⟩
  unfold roundSig
  rw [if_neg h]
  refine isDec_grid hp ?_ _
  set u := (10 : ℚ) ^ (Int.log 10 |x| + 1 - p) with hu
  have hpos : 0 < u := ten_zpow_pos _
  have h1 : |x / u| < 10 ^ p := by
    rw [abs_div, abs_of_pos hpos, div_lt_iff₀ hpos]
    refine lt_of_lt_of_eq (lt_log10 x) ?_
    rw [hu, ← zpow_natCast, ← zpow_add₀ (by norm_num)]
    congr 1
    ring
  have h2 := roundEven_near (x / u)
  have h3 : |(roundEven (x / u) : ℚ)| < 10 ^ p + 1 := by
    have := abs_sub_abs_le_abs_sub (roundEven (x / u) : ℚ) (x / u)
    linarith
  have : |roundEven (x / u)| < 10 ^ p + 1 := by exact_mod_cast h3
  omega

theorem roundSig_dec (hp : 1 ≤ p) {x : ℚ} (h : IsDec p x) : roundSig p x = x := by
  have := roundSig_best hp x h
  rw [sub_self, abs_zero] at this
  exact sub_eq_zero.1 (abs_nonpos_iff.1 this)

theorem roundSig_mono (hp : 1 ≤ p) {x y : ℚ} (h : x ≤ y) : roundSig p x ≤ roundSig p y := by
  by_contra hc
  rw [not_le] at hc
  have h1 := roundSig_best hp x (roundSig_isDec hp y)
  have h2 := roundSig_best hp y (roundSig_isDec hp x)
  have h3 : x = y := by
    apply le_antisymm h
    by_contra hxy
    rw [not_le] at hxy
    rw [abs_le'] at h1 h2
    rcases abs_cases (roundSig p y - x) with ⟨e1, -⟩ | ⟨e1, -⟩ <;> rcases abs_cases (roundSig p x - y) with ⟨e2, -⟩ | ⟨e2, -⟩ <;>
      rw [e1] at h1 <;> rw [e2] at h2 <;> linarith [h1.1, h1.2, h2.1, h2.2]
  rw [h3] at hc
  exact lt_irrefl _ hc

/-- The relative error. -/
theorem roundSig_near (x : ℚ) : |roundSig p x - x| ≤ 5 / 10 ^ p * |x| := by
  by_cases h : x = 0
  · subst h; simp [roundSig_zero]
  unfold roundSig
  rw [if_neg h]
  set u := (10 : ℚ) ^ (Int.log 10 |x| + 1 - p) with hu
  have hpos : 0 < u := ten_zpow_pos _
  have e : (roundEven (x / u) : ℚ) * u - x = ((roundEven (x / u) : ℚ) - x / u) * u := by field_simp
  rw [e, abs_mul, abs_of_pos hpos]
  have e2 : u = 10 / 10 ^ p * (10 : ℚ) ^ Int.log 10 |x| := by
    rw [hu, zpow_sub₀ (by norm_num), zpow_add₀ (by norm_num), zpow_natCast, zpow_one]; ring
  calc _ ≤ 1 / 2 * u := mul_le_mul_of_nonneg_right (roundEven_near _) hpos.le
    _ = 5 / 10 ^ p * (10 : ℚ) ^ Int.log 10 |x| := by rw [e2]; ring
    _ ≤ _ := mul_le_mul_of_nonneg_left (log10_le h) (by positivity)

theorem isDec_int {n : ℤ} (h : |n| < 10 ^ p) : IsDec p (n : ℚ) := ⟨n, 0, h, by simp⟩

theorem IsDec.mono {q : ℕ} (h : p ≤ q) {x : ℚ} : IsDec p x → IsDec q x := by
  rintro ⟨m, k, hm, rfl⟩
  exact ⟨m, k, hm.trans_le (pow_le_pow_right₀ (by norm_num) h), rfl⟩

theorem roundPoint_int (k : ℕ) (n : ℤ) : roundPoint k (n : ℚ) = n := by
  unfold roundPoint
  have : (n : ℚ) * 10 ^ k = ((n * 10 ^ k : ℤ) : ℚ) := by push_cast; ring
  rw [this, roundEven_int]
  push_cast
  field_simp

/-! Costs. -/

theorem shownErr_nonneg (fixed : Bool) : 0 ≤ shownErr fixed := by
  unfold shownErr; split <;> norm_num

theorem shownErr_lt (fixed : Bool) : shownErr fixed < 1 := by
  unfold shownErr; split <;> norm_num

theorem shownCost_fixed (c : ℤ) : shownCost true c = c := by
  simp only [shownCost, if_true]
  exact roundPoint_int _ _

theorem shownCost_zero (fixed : Bool) : shownCost fixed 0 = 0 := by
  cases fixed
  · simp [shownCost, roundSig_zero]
  · exact_mod_cast shownCost_fixed 0

theorem shownCost_near (fixed : Bool) (c : ℤ) : |shownCost fixed c - c| ≤ shownErr fixed * |(c : ℚ)| := by
  cases fixed
  · exact roundSig_near _
  · rw [shownCost_fixed]; simp [shownErr]

theorem shownCost_mono (fixed : Bool) {a b : ℤ} (h : a ≤ b) : shownCost fixed a ≤ shownCost fixed b := by
  have hq : (a : ℚ) ≤ b := by exact_mod_cast h
  cases fixed
  · exact roundSig_mono (by norm_num) hq
  · rw [shownCost_fixed, shownCost_fixed]; exact hq

theorem shownCost_nonneg (fixed : Bool) {c : ℤ} (h : 0 ≤ c) : 0 ≤ shownCost fixed c := by
  have := shownCost_mono fixed h
  rwa [shownCost_zero] at this

theorem shownCost_small {c : ℤ} (h : |c| < 10 ^ 6) (fixed : Bool) : shownCost fixed c = c := by
  cases fixed
  · exact roundSig_dec (by norm_num) (isDec_int h)
  · exact shownCost_fixed c

theorem shownCost_bounds (fixed : Bool) {c : ℤ} (h : 0 ≤ c) :
    (1 - shownErr fixed) * c ≤ shownCost fixed c ∧ shownCost fixed c ≤ (1 + shownErr fixed) * c := by
  have h1 := shownCost_near fixed c
  rw [abs_of_nonneg (a := (c : ℚ)) (by exact_mod_cast h), abs_le] at h1
  constructor <;> linarith [h1.1, h1.2]

/-- The relative error of an addition of `Decimal`s. -/
def sumErr : ℚ := 5 / 10 ^ 28

theorem sumErr_pos : 0 < sumErr ∧ sumErr < 1 := by unfold sumErr; constructor <;> norm_num

theorem foldl_bounds {l : List ℚ} (hl : ∀ x ∈ l, 0 ≤ x) : ∀ a : ℚ, 0 ≤ a →
    (1 - sumErr) ^ l.length * (a + l.sum) ≤ l.foldl (fun a x => roundSig 28 (a + x)) a ∧
      l.foldl (fun a x => roundSig 28 (a + x)) a ≤ (1 + sumErr) ^ l.length * (a + l.sum) := by
  obtain ⟨e0, e1⟩ := sumErr_pos
  induction l with
  | nil => intro a _; simp
  | cons x l ih =>
    intro a ha
    have hx : 0 ≤ x := hl x (by simp)
    have hs : 0 ≤ l.sum := List.sum_nonneg fun y hy => hl y (by simp [hy])
    have hn := roundSig_near (p := 28) (a + x)
    rw [abs_of_nonneg (a := a + x) (by linarith), abs_le] at hn
    change -(sumErr * (a + x)) ≤ _ ∧ _ ≤ sumErr * (a + x) at hn
    have hr : 0 ≤ roundSig 28 (a + x) := by nlinarith [hn.1]
    obtain ⟨g1, g2⟩ := ih (fun y hy => hl y (by simp [hy])) _ hr
    simp only [List.foldl_cons, List.length_cons, List.sum_cons]
    have hlo : 0 ≤ (1 - sumErr) ^ l.length := pow_nonneg (by linarith) _
    have hhi : 0 ≤ (1 + sumErr) ^ l.length := pow_nonneg (by linarith) _
    constructor
    · refine le_trans ?_ g1
      rw [pow_succ, mul_assoc]
      refine mul_le_mul_of_nonneg_left ?_ hlo
      nlinarith [hn.1]
    · refine le_trans g2 ?_
      rw [pow_succ, mul_assoc]
      refine mul_le_mul_of_nonneg_left ?_ hhi
      nlinarith [hn.2]

theorem decimalSum_bounds {l : List ℚ} (hl : ∀ x ∈ l, 0 ≤ x) :
    (1 - sumErr) ^ l.length * l.sum ≤ decimalSum l ∧ decimalSum l ≤ (1 + sumErr) ^ l.length * l.sum := by
  have := foldl_bounds hl 0 le_rfl
  simpa [decimalSum] using this

/-- Sums of integers below `10^28` are exact. -/
theorem decimalSum_int {l : List ℤ} (hl : ∀ x ∈ l, 0 ≤ x) (hs : l.sum < 10 ^ 28) : decimalSum (l.map fun x : ℤ => (x : ℚ)) = (l.sum : ℤ) := by
  have : ∀ (l : List ℤ), (∀ x ∈ l, 0 ≤ x) → ∀ a : ℤ, 0 ≤ a → a + l.sum < 10 ^ 28 →
      (l.map fun x : ℤ => (x : ℚ)).foldl (fun a x => roundSig 28 (a + x)) (a : ℚ) = ((a + l.sum : ℤ) : ℚ) := by
    intro l
    induction l with
    | nil => intro _ a _ _; simp
    | cons x l ih =>
      intro hl a ha hs
      have hx : 0 ≤ x := hl x (by simp)
      have hp : 0 ≤ l.sum := List.sum_nonneg fun y hy => hl y (by simp [hy])
      simp only [List.sum_cons] at hs
      simp only [List.map_cons, List.foldl_cons, List.sum_cons]
      have e : roundSig 28 ((a : ℚ) + x) = ((a + x : ℤ) : ℚ) := by
        rw [← Int.cast_add]
        refine roundSig_dec (by norm_num) (isDec_int ?_)
        rw [abs_of_nonneg (by omega)]
        omega
      rw [e, ih (fun y hy => hl y (by simp [hy])) (a + x) (by omega) (by omega)]
      congr 1
      ring
  have := this l hl 0 le_rfl (by simpa using hs)
  simpa [decimalSum] using this

theorem decimalSum_single (x : ℚ) : decimalSum [x] = roundSig 28 x := by simp [decimalSum]

/-- The bounds for a total. -/
theorem total_bounds (fixed : Bool) {l : List ℤ} (hl : ∀ x ∈ l, 0 ≤ x) :
    (1 - shownErr fixed) * (1 - sumErr) ^ l.length * l.sum ≤ decimalSum (l.map (shownCost fixed)) ∧
      decimalSum (l.map (shownCost fixed)) ≤ (1 + shownErr fixed) * (1 + sumErr) ^ l.length * l.sum := by
  obtain ⟨e0, e1⟩ := sumErr_pos
  have hn : ∀ x ∈ l.map (shownCost fixed), 0 ≤ x := by
    intro x hx
    obtain ⟨c, hc, rfl⟩ := List.mem_map.1 hx
    exact shownCost_nonneg fixed (hl c hc)
  obtain ⟨h1, h2⟩ := decimalSum_bounds hn
  have hs : (1 - shownErr fixed) * (l.sum : ℤ) ≤ (l.map (shownCost fixed)).sum ∧ (l.map (shownCost fixed)).sum ≤ (1 + shownErr fixed) * (l.sum : ℤ) := by
    clear h1 h2 hn
    induction l with
    | nil => simp
    | cons x l ih =>
      obtain ⟨g1, g2⟩ := ih fun y hy => hl y (by simp [hy])
      obtain ⟨k1, k2⟩ := shownCost_bounds fixed (hl x (by simp))
      simp only [List.map_cons, List.sum_cons, Int.cast_add]
      constructor <;> linarith
  rw [List.length_map] at h1 h2
  constructor
  · refine le_trans ?_ h1
    rw [mul_comm (1 - shownErr fixed), mul_assoc]
    exact mul_le_mul_of_nonneg_left hs.1 (pow_nonneg (by linarith) _)
  · refine le_trans h2 ?_
    rw [mul_comm (1 + shownErr fixed), mul_assoc]
    exact mul_le_mul_of_nonneg_left hs.2 (pow_nonneg (by linarith) _)

/-- Small costs are reported as they are. -/
theorem total_exact (fixed : Bool) {l : List ℤ} (hl : ∀ x ∈ l, 0 ≤ x) (h : fixed = true ∨ ∀ x ∈ l, x < 10 ^ 6) (hs : l.sum < 10 ^ 28) :
    decimalSum (l.map (shownCost fixed)) = (l.sum : ℤ) := by
  have : l.map (shownCost fixed) = l.map fun x : ℤ => (x : ℚ) := by
    refine List.map_congr_left fun x hx => ?_
    rcases h with rfl | h
    · exact shownCost_fixed x
    · exact shownCost_small (by rw [abs_of_nonneg (hl x hx)]; exact h x hx) fixed
  rw [this]
  exact decimalSum_int hl hs

theorem foldl_zeros {l : List ℚ} (hl : ∀ x ∈ l, x = 0) {a : ℚ} (ha : IsDec 28 a) : l.foldl (fun a x => roundSig 28 (a + x)) a = a := by
  induction l with
  | nil => rfl
  | cons x l ih =>
    rw [List.foldl_cons, hl x (by simp), add_zero, roundSig_dec (by norm_num) ha]
    exact ih fun y hy => hl y (by simp [hy])

/-- A total in which at most one part is not zero. -/
theorem total_one (fixed : Bool) {l : List ℤ} (hl : l.Pairwise fun a b => a = 0 ∨ b = 0) :
    decimalSum (l.map (shownCost fixed)) = roundSig (reportDigits fixed) (l.sum : ℤ) := by
  have key : decimalSum (l.map (shownCost fixed)) = roundSig 28 (shownCost fixed l.sum) := by
    induction l with
    | nil => simp [decimalSum, shownCost_zero, roundSig_zero]
    | cons c l ih =>
      obtain ⟨h1, h2⟩ := List.pairwise_cons.1 hl
      by_cases hc : c = 0
      · subst hc
        have := ih h2
        unfold decimalSum at this ⊢
        simp only [List.map_cons, List.foldl_cons, shownCost_zero, add_zero, roundSig_zero, List.sum_cons, zero_add]
        exact this
      · have hz : ∀ b ∈ l, b = 0 := fun b hb => (h1 b hb).resolve_left hc
        unfold decimalSum
        rw [List.map_cons, List.foldl_cons, zero_add, foldl_zeros _ (roundSig_isDec (by norm_num) _)]
        · rw [List.sum_cons, List.sum_eq_zero hz, add_zero]
        · intro x hx
          obtain ⟨b, hb, rfl⟩ := List.mem_map.1 hx
          rw [hz b hb, shownCost_zero]
  rw [key]
  cases fixed
  · exact roundSig_dec (by norm_num) ((roundSig_isDec (p := 6) (by norm_num) _).mono (by norm_num))
  · rw [shownCost_fixed]; rfl

end TNCO
