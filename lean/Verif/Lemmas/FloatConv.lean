import Verif.Lemmas.FloatText
import Mathlib.Data.Nat.Digits.Defs

/-! Conversions of `float1024` from and to integers, `float` and text. -/

namespace TNCO

/-! ## Integers and `float` -/

theorem int_toIeee {n : ℤ} (h0 : n ≠ 0) (s : Bool) : (Mpf.fin s ((|n| : ℤ) : ℚ)).toIeee float64 =
    if 2 ^ 1024 ≤ roundTo 53 ((|n| : ℤ) : ℚ) then .inf s else .fin s (roundTo 53 ((|n| : ℤ) : ℚ)) := by
  apply toIeee_normal (F := float64) (by decide)
  have h1 : (1 : ℚ) ≤ ((|n| : ℤ) : ℚ) := by exact_mod_cast Int.one_le_abs h0
  have h2 : (2 : ℚ) ^ (1 - (float64.emax : ℤ)) ≤ (2 : ℚ) ^ (0 : ℤ) := zpow2_mono (by decide)
  rw [zpow_zero] at h2
  linarith

theorem ok53 : MpfFormat.Ok ⟨53, 0, 0⟩ := ⟨by decide, by decide⟩

theorem int_lt_iff (n : ℤ) : roundTo 53 ((|n| : ℤ) : ℚ) < 2 ^ 1024 ↔ (|n| : ℚ) < (2 - 1 / 2 ^ 53) * 2 ^ 1023 := by
  have h := roundTo_lt_iff ok53 ((|n| : ℤ) : ℚ) 1023
  dsimp only at h
  have hn : (0 : ℚ) ≤ ((|n| : ℤ) : ℚ) := by exact_mod_cast abs_nonneg n
  rw [roundTo_abs (by norm_num), abs_of_nonneg hn] at h
  have e1 : (2 : ℚ) ^ ((1023 : ℤ) + 1) = 2 ^ 1024 := by rw [show ((1023 : ℤ) + 1) = ((1024 : ℕ) : ℤ) by norm_num, zpow_natCast]
  have e2 : (2 : ℚ) ^ (1023 : ℤ) = 2 ^ 1023 := by rw [show (1023 : ℤ) = ((1023 : ℕ) : ℤ) by norm_num, zpow_natCast]
  rw [e1, e2] at h
  rw [h]
  push_cast
  exact Iff.rfl

theorem asDouble_int (n : ℤ) (h0 : n ≠ 0) (h : (|n| : ℚ) < (2 - 1 / 2 ^ 53) * 2 ^ 1023) :
    asDouble (.int n) = some (.fin (decide (n < 0)) (roundTo 53 |(n : ℚ)|)) := by
  have h1 := (int_lt_iff n).2 h
  unfold asDouble
  dsimp only
  rw [int_toIeee h0, if_neg (not_le.2 h1)]
  push_cast
  rfl

theorem asDouble_large (n : ℤ) (h : (2 - 1 / 2 ^ 53) * 2 ^ 1023 ≤ (|n| : ℚ)) : asDouble (.int n) = none := by
  have h0 : n ≠ 0 := by
    rintro rfl
    have hpos : (0 : ℚ) < (2 - 1 / 2 ^ 53) * 2 ^ 1023 := by
      apply mul_pos
      · norm_num
      · positivity
    rw [Int.cast_zero, abs_zero] at h
    exact absurd h (not_le.2 hpos)
  have h1 : (2 : ℚ) ^ 1024 ≤ roundTo 53 ((|n| : ℤ) : ℚ) := by
    rw [← not_lt, int_lt_iff, not_lt]
    exact h
  unfold asDouble
  dsimp only
  rw [int_toIeee h0, if_pos h1]

theorem asDouble_small (n : ℤ) (h : |n| ≤ 2 ^ 53) : asDouble (.int n) = some (.fin (decide (n < 0)) ((|n| : ℤ) : ℚ)) := by
  by_cases h0 : n = 0
  · subst h0; rfl
  · have hb : HasBits 53 ((|n| : ℤ) : ℚ) := by
      have := hasBits_le (p := 53) (by norm_num) (k := |n|) (by rwa [abs_abs]) 0
      rwa [zpow_zero, mul_one] at this
    rw [asDouble_int n h0]
    · have := roundTo_self (by norm_num) hb
      push_cast at this ⊢
      rw [this]
    · have h2 : ((|n| : ℤ) : ℚ) ≤ 2 ^ 53 := by exact_mod_cast h
      push_cast at h2
      have h3 : (2 : ℚ) ^ 53 ≤ 2 ^ 1023 := pow_le_pow_right₀ (by norm_num) (by norm_num)
      have h4 : (1 : ℚ) < 2 - 1 / 2 ^ 53 := by norm_num
      have h5 : (0 : ℚ) < 2 ^ 1023 := by positivity
      refine lt_of_le_of_lt (h2.trans h3) ?_
      generalize (2 : ℚ) ^ 1023 = P at *
      nlinarith

/-- A number with 53 bits in the range of `float` is one. -/
theorem isDouble_of_bits (s : Bool) {m : ℚ} (hb : HasBits 53 m) (h1 : (1 : ℚ) ≤ m) (h2 : m < 2 ^ 1024) : IsDouble (.fin s m) := by
  have hpos : 0 < m := by linarith
  have hL : (2 : ℚ) ^ Int.log 2 m ≤ |m| := by rw [abs_of_pos hpos]; exact log2_le hpos
  obtain ⟨z, hz⟩ := hasBits_small hb hL
  have hlog1 : Int.log 2 m < 1024 := by
    apply zpow2_lt_iff.1
    refine (log2_le hpos).trans_lt ?_
    rwa [show (1024 : ℤ) = ((1024 : ℕ) : ℤ) by norm_num, zpow_natCast]
  have hlog0 : 0 < Int.log 2 m + 1 := by
    apply zpow2_lt_iff.1
    rw [zpow_zero]
    exact h1.trans_lt (lt_log2 m)
  have hu := zpow2_pos (Int.log 2 m + 1 - (53 : ℕ))
  have hz0 : 0 ≤ z := by
    by_contra hc
    have : (z : ℚ) < 0 := by exact_mod_cast not_le.1 hc
    have := mul_neg_of_neg_of_pos this hu
    linarith
  have hz2 : (z : ℚ) < 2 ^ 53 := by
    have h3 := lt_log2 m
    rw [hz] at h3
    have e : (2 : ℚ) ^ (Int.log 2 m + 1) = 2 ^ 53 * (2 : ℚ) ^ (Int.log 2 m + 1 - (53 : ℕ)) := by
      rw [← zpow_natCast (2 : ℚ) 53, ← zpow_add₀ (by norm_num)]
      congr 1; ring
    rw [← hz, e] at h3
    rw [hz] at h3
    rw [← hz] at h3
    have h4 : (z : ℚ) * (2 : ℚ) ^ (Int.log 2 m + 1 - (53 : ℕ)) < 2 ^ 53 * (2 : ℚ) ^ (Int.log 2 m + 1 - (53 : ℕ)) := hz ▸ h3
    exact lt_of_mul_lt_mul_right h4 hu.le
  refine ⟨z.toNat, Int.log 2 m + 1 - (53 : ℕ), ?_, by push_cast; omega, by push_cast; omega, ?_⟩
  · have : z < 2 ^ 53 := by exact_mod_cast hz2
    omega
  · have e : ((z.toNat : ℕ) : ℚ) = z := by
      have : ((z.toNat : ℕ) : ℤ) = z := Int.toNat_of_nonneg hz0
      exact_mod_cast this
    rw [e]
    exact hz

theorem asDouble_isDouble (n : ℤ) {d : Mpf} (h : asDouble (.int n) = some d) : IsDouble d := by
  by_cases h0 : n = 0
  · subst h0
    rw [asDouble_small 0 (by norm_num)] at h
    cases h
    exact ⟨0, 0, by norm_num, by norm_num, by norm_num, by simp⟩
  · by_cases hl : (|n| : ℚ) < (2 - 1 / 2 ^ 53) * 2 ^ 1023
    · have hlt := (int_lt_iff n).2 hl
      rw [asDouble_int n h0 hl] at h
      cases h
      have h1 : (1 : ℚ) ≤ |(n : ℚ)| := by exact_mod_cast Int.one_le_abs h0
      have h2 := roundTo_mono (p := 53) (by norm_num) h1
      have hb1 : HasBits 53 (1 : ℚ) := by
        have := hasBits_pow (p := 53) (by norm_num) 0
        rwa [zpow_zero] at this
      rw [roundTo_self (by norm_num) hb1] at h2
      refine isDouble_of_bits _ (roundTo_bits (by norm_num) _) h2 ?_
      push_cast at hlt
      exact hlt
    · rw [asDouble_large n (not_lt.1 hl)] at h
      cases h

theorem double_in {F : MpfFormat} (hW : F.Wide) {d : Mpf} (h : IsDouble d) : d.In F := by
  cases d with
  | nan s => trivial
  | inf s => trivial
  | fin s m =>
    obtain ⟨k, e, hk, he1, he2, rfl⟩ := h
    by_cases hk0 : k = 0
    · subst hk0; left; simp
    · right
      have hk1 : (1 : ℚ) ≤ k := by exact_mod_cast Nat.pos_of_ne_zero hk0
      have hk2 : (k : ℚ) < 2 ^ 53 := by exact_mod_cast hk
      refine ⟨⟨k, e, ?_, by push_cast; rfl⟩, ?_, ?_⟩
      · rw [abs_of_nonneg (by omega)]
        have : (2 : ℤ) ^ 53 ≤ 2 ^ F.prec := pow_le_pow_right₀ (by norm_num) hW.prec
        have h3 : (k : ℤ) < 2 ^ 53 := by exact_mod_cast hk
        omega
      · have h1 : (2 : ℚ) ^ F.lo ≤ (2 : ℚ) ^ e := zpow2_mono (hW.lo.trans he1)
        have h2 := zpow2_pos e
        nlinarith
      · calc (k : ℚ) * (2 : ℚ) ^ e < 2 ^ 53 * (2 : ℚ) ^ e := mul_lt_mul_of_pos_right hk2 (zpow2_pos e)
          _ = (2 : ℚ) ^ ((53 : ℕ) + e) := by rw [zpow_add₀ (by norm_num), zpow_natCast]
          _ ≤ (2 : ℚ) ^ (F.hi + 1) := zpow2_mono (by have := hW.hi; push_cast; omega)

theorem toFloat_self {d : Mpf} (h : IsDouble d) : d.toFloat = d := by
  cases d with
  | nan s => rfl
  | inf s => rfl
  | fin s m =>
    obtain ⟨k, e, hk, he1, he2, rfl⟩ := h
    unfold Mpf.toFloat
    rw [toIeee_self (F := float128) s (lt_of_lt_of_le hk (by decide)) (by change 2 - (16383 : ℤ) - 64 ≤ e; omega) (by change e ≤ (16383 : ℤ) + 1 - 64; omega),
      toIeee_self (F := float64) s hk (by change 2 - (1023 : ℤ) - 53 ≤ e; omega) (by change e ≤ (1023 : ℤ) + 1 - 53; omega)]

theorem toFloat_near (s : Bool) {m : ℚ} (h1 : (2 : ℚ) ^ (-1022 : ℤ) ≤ m) (h2 : m ≤ 2 ^ 1023) :
    ∃ m', (Mpf.fin s m).toFloat = .fin s m' ∧ |m' - m| ≤ m / 2 ^ 53 + m / 2 ^ 63 := by
  have hpos : 0 < m := (zpow2_pos _).trans_le h1
  have hb : ∀ p : ℕ, 1 ≤ p → ∀ e : ℤ, roundTo p ((2 : ℚ) ^ e) = (2 : ℚ) ^ e := fun p hp e => roundTo_self hp (hasBits_pow hp e)
  have e1023 : (2 : ℚ) ^ 1023 = (2 : ℚ) ^ (1023 : ℤ) := by rw [show (1023 : ℤ) = ((1023 : ℕ) : ℤ) by norm_num, zpow_natCast]
  have a1 : (2 : ℚ) ^ (-1022 : ℤ) ≤ roundTo 64 m := by
    have := roundTo_mono (p := 64) (by norm_num) h1
    rwa [hb 64 (by norm_num)] at this
  have a2 : roundTo 64 m ≤ 2 ^ 1023 := by
    have := roundTo_mono (p := 64) (by norm_num) h2
    rwa [e1023, hb 64 (by norm_num), ← e1023] at this
  have b2 : roundTo 53 (roundTo 64 m) ≤ 2 ^ 1023 := by
    have := roundTo_mono (p := 53) (by norm_num) a2
    rwa [e1023, hb 53 (by norm_num), ← e1023] at this
  have lt1 : roundTo 64 m < 2 ^ 16384 := a2.trans_lt (pow_lt_pow_right₀ (by norm_num) (by norm_num))
  have lt2 : roundTo 53 (roundTo 64 m) < 2 ^ 1024 := b2.trans_lt (pow_lt_pow_right₀ (by norm_num) (by norm_num))
  have c1 : (Mpf.fin s m).toIeee float128 = .fin s (roundTo 64 m) := by
    rw [toIeee_normal (F := float128) (by decide) s ((zpow2_mono (by decide)).trans h1)]
    exact if_neg (not_le.2 lt1)
  have c2 : (Mpf.fin s (roundTo 64 m)).toIeee float64 = .fin s (roundTo 53 (roundTo 64 m)) := by
    rw [toIeee_normal (F := float64) (by decide) s ((zpow2_mono (by decide)).trans a1)]
    exact if_neg (not_le.2 lt2)
  refine ⟨roundTo 53 (roundTo 64 m), by unfold Mpf.toFloat; rw [c1, c2], ?_⟩
  have n1 := roundTo_near (p := 64) m
  have n2 := roundTo_near (p := 53) (roundTo 64 m)
  have hr : 0 < roundTo 64 m := (zpow2_pos _).trans_le a1
  rw [abs_of_pos hpos] at n1
  rw [abs_of_pos hr] at n2
  have n1' := abs_le.1 n1
  have n2' := abs_le.1 n2
  generalize roundTo 53 (roundTo 64 m) = r2 at *
  generalize roundTo 64 m = r1 at *
  rw [abs_le]
  norm_num at n1' n2' ⊢
  constructor <;> linarith

/-! ## Text -/

theorem digsVal_ofDigits (b : ℕ) (ds : List ℕ) : digsVal b ds = Nat.ofDigits b ds.reverse := by
  induction ds using List.reverseRecOn with
  | nil => rfl
  | append_singleton ds d ih =>
    rw [digsVal_append, List.reverse_append, ih]
    simp [digsVal, Nat.ofDigits_cons]
    ring

theorem roundEven_nonneg {x : ℚ} (h : 0 ≤ x) : 0 ≤ roundEven x := by
  have h1 := roundEven_near x
  rw [abs_le] at h1
  have h2 : (-1 : ℚ) < roundEven x := by linarith
  have h3 : (-1 : ℤ) < roundEven x := by exact_mod_cast h2
  omega

theorem text_val (N : ℕ) : digsVal 10 (decDigits (N / 10 ^ digits10) ++ fixedDigits 10 digits10 (N % 10 ^ digits10)) = N := by
  rw [digsVal_append, digsVal_dec, digsVal_fixed (by norm_num), fixedDigits_length, Nat.mod_mod]
  exact Nat.div_add_mod' N (10 ^ digits10)

theorem str_close {m : ℚ} (hm : 0 ≤ m) : |(((roundEven (m * 10 ^ digits10)).toNat : ℕ) : ℚ) / 10 ^ digits10 - m| ≤ 1 / (2 * 10 ^ digits10) := by
  have hp : (0 : ℚ) < 10 ^ digits10 := by positivity
  have h0 : 0 ≤ roundEven (m * 10 ^ digits10) := roundEven_nonneg (by positivity)
  have h1 := roundEven_near (m * 10 ^ digits10)
  have e : (((roundEven (m * 10 ^ digits10)).toNat : ℕ) : ℚ) = (roundEven (m * 10 ^ digits10) : ℚ) := by
    have := Int.toNat_of_nonneg h0
    exact_mod_cast this
  rw [e]
  have e2 : (roundEven (m * 10 ^ digits10) : ℚ) / 10 ^ digits10 - m = ((roundEven (m * 10 ^ digits10) : ℚ) - m * 10 ^ digits10) / 10 ^ digits10 := by
    field_simp
  rw [e2, abs_div, abs_of_pos hp, div_le_div_iff₀ hp (by positivity)]
  nlinarith

theorem str_value {m : ℚ} (hm : 0 ≤ m) :
    |(Nat.ofDigits 10 (decDigits ((roundEven (m * 10 ^ digits10)).toNat / 10 ^ digits10) ++
      fixedDigits 10 digits10 ((roundEven (m * 10 ^ digits10)).toNat % 10 ^ digits10)).reverse : ℕ) / (10 : ℚ) ^ digits10 - m| ≤ 1 / (2 * 10 ^ digits10) := by
  rw [← digsVal_ofDigits, text_val]
  exact str_close hm

theorem readText_in {F : MpfFormat} (hF : F.Ok) (auto : Bool) (s : List Char) : (readText F auto s).In F := by
  have hn : ∀ neg cs, (readFloat F auto neg cs).In F := by
    intro neg cs
    unfold readFloat
    split
    · left; rfl
    · split
      · left; rfl
      · next h => exact round_in hF fun h' => h (signed_eq_zero.1 h')
  unfold readText
  split
  · trivial
  · split
    · trivial
    · split
      · trivial
      · exact hn _ _

theorem two_ten : (2 : ℚ) ^ 1023 < 10 ^ 308 := by
  have h : 2 ^ 1023 < 10 ^ 308 := by decide +kernel
  exact_mod_cast h

/-- A number from 1 on with 1024 bits is the nearest to its decimal expansion with 308 digits after the point. -/
theorem nearest_of_close {m y : ℚ} (hb : HasBits 1024 m) (h1 : 1 < m) (hy : |y - m| ≤ 1 / (2 * 10 ^ 308)) : Nearest 1024 y m := by
  have hgap : ∀ q, HasBits 1024 q → q ≠ m → (2 : ℚ) ^ (-1023 : ℤ) ≤ |q - m| := by
    intro q hq hne
    have hgrid : ∀ {q : ℚ}, HasBits 1024 q → 1 ≤ q → ∃ z : ℤ, q = z * (2 : ℚ) ^ (-1023 : ℤ) := by
      intro q hq h
      obtain ⟨z, hz⟩ := hasBits_small hq (L := 0) (by rw [zpow_zero]; exact h.trans (le_abs_self q))
      exact ⟨z, by rw [hz]; norm_num⟩
    have hu := zpow2_pos (-1023)
    obtain ⟨z, hz⟩ := hgrid hb h1.le
    obtain ⟨o, ho⟩ := hgrid (q := 1) (by have := hasBits_pow (p := 1024) (by norm_num) 0; rwa [zpow_zero] at this) le_rfl
    have hdist : ∀ a b : ℤ, a ≠ b → (2 : ℚ) ^ (-1023 : ℤ) ≤ |(a : ℚ) * (2 : ℚ) ^ (-1023 : ℤ) - b * (2 : ℚ) ^ (-1023 : ℤ)| := by
      intro a b hab
      rw [← sub_mul, abs_mul, abs_of_pos hu]
      have h : (1 : ℤ) ≤ |a - b| := Int.one_le_abs (sub_ne_zero.2 hab)
      have h2 : (1 : ℚ) ≤ |(a : ℚ) - b| := by exact_mod_cast h
      nlinarith
    rcases le_or_gt 1 q with hq1 | hq1
    · obtain ⟨w, hw⟩ := hgrid hq hq1
      have : w ≠ z := by
        rintro rfl
        exact hne (hw.trans hz.symm)
      rw [hw, hz]
      exact hdist w z this
    · have h2 : z ≠ o := by
        rintro rfl
        rw [← ho] at hz
        linarith
      have h3 := hdist z o h2
      rw [← hz, ← ho, abs_of_pos (by linarith)] at h3
      rw [abs_of_neg (by linarith)]
      linarith
  have hsmall : (1 : ℚ) / 10 ^ 308 < (2 : ℚ) ^ (-1023 : ℤ) := by
    rw [zpow_neg, show (1023 : ℤ) = ((1023 : ℕ) : ℤ) by norm_num, zpow_natCast, ← one_div]
    apply one_div_lt_one_div_of_lt (by positivity)
    exact two_ten
  have hfar : ∀ q, HasBits 1024 q → q ≠ m → |m - y| < |q - y| := by
    intro q hq hne
    have g := hgap q hq hne
    have t : |q - m| ≤ |q - y| + |y - m| := abs_sub_le q y m
    rw [abs_sub_comm m y]
    have : (1 : ℚ) / (2 * 10 ^ 308) = 1 / 10 ^ 308 / 2 := by rw [div_div, mul_comm]
    rw [this] at hy
    linarith
  refine ⟨hb, fun q hq => ?_, fun q hq ht => ?_⟩
  · by_cases h : q = m
    · rw [h]
    · exact (hfar q hq h).le
  · by_contra hc
    rw [not_or] at hc
    exact absurd ht (hfar q hq hc.1).ne'

theorem readText_text {x : Mpf} (hx : x.In mpfr1024) (hfin : ∀ s m, x = .fin s m → m = 0 ∨ 1 ≤ m ∨ ∃ k : ℕ, m * 10 ^ 308 = k)
    (hnan : ∀ s, x = .nan s → s = false) : readText mpfr1024 false x.text = x := by
  cases x with
  | nan s => rw [hnan s rfl]; rfl
  | inf s => cases s <;> rfl
  | fin s m =>
    have hm : 0 ≤ m := by
      rcases hx with h | ⟨_, h, _⟩
      · rw [h]
      · exact (zpow2_pos _).le.trans h
    have hF : mpfr1024.Ok := ⟨by decide, by decide⟩
    have hr := readText_decimal mpfr1024 s (decDigits ((roundEven (m * 10 ^ digits10)).toNat / 10 ^ digits10))
      (fixedDigits 10 digits10 ((roundEven (m * 10 ^ digits10)).toNat % 10 ^ digits10)) (decDigits_lt _) (fixedDigits_lt (by norm_num) _ _) (decDigits_ne _) [] rfl
    rw [text_val, fixedDigits_length, show expFactor 10 [] = 1 from rfl, mul_one, List.append_nil] at hr
    have ht : (Mpf.fin s m).text = signText s ++ (decDigits ((roundEven (m * 10 ^ digits10)).toNat / 10 ^ digits10)).map digitChar ++
        '.' :: (fixedDigits 10 digits10 ((roundEven (m * 10 ^ digits10)).toNat % 10 ^ digits10)).map digitChar := by
      simp [Mpf.text]
    rw [ht, hr]
    have hc := str_close hm
    have hexact : (∃ k : ℕ, m * 10 ^ 308 = k) → (((roundEven (m * 10 ^ digits10)).toNat : ℕ) : ℚ) / 10 ^ digits10 = m := by
      rintro ⟨k, hk⟩
      have e : m * 10 ^ digits10 = ((k : ℤ) : ℚ) := by rw [digits10, hk]; push_cast; rfl
      rw [e, roundEven_int, Int.toNat_natCast, div_eq_iff (by positivity), e]
      push_cast
      rfl
    by_cases h0 : m = 0
    · rw [hexact ⟨0, by rw [h0]; simp⟩, if_pos h0, h0]
    · have hpos : 0 < m := lt_of_le_of_ne hm (Ne.symm h0)
      have hb : HasBits 1024 m := by
        rcases hx with h | ⟨h, _, _⟩
        · exact absurd h h0
        · exact h
      have done : ∀ y, 0 < y → Nearest 1024 y m → (if y = 0 then Mpf.fin s 0 else mpfr1024.round (signed s y)) = .fin s m := by
        intro y hy hn
        rw [if_neg hy.ne']
        exact round_of_nearest hF hpos hx hy hn
      have ex : (∃ k : ℕ, m * 10 ^ 308 = k) → (if (((roundEven (m * 10 ^ digits10)).toNat : ℕ) : ℚ) / 10 ^ digits10 = 0 then Mpf.fin s 0
          else mpfr1024.round (signed s ((((roundEven (m * 10 ^ digits10)).toNat : ℕ) : ℚ) / 10 ^ digits10))) = .fin s m := by
        intro h
        rw [hexact h]
        exact done m hpos (Nearest.of_bits hb)
      rcases hfin s m rfl with h | h | h
      · exact absurd h h0
      · rcases eq_or_lt_of_le h with h | h
        · exact ex ⟨10 ^ 308, by rw [← h]; push_cast; ring⟩
        · apply done _ _ (nearest_of_close hb h hc)
          rw [abs_le] at hc
          have : (1 : ℚ) / (2 * 10 ^ digits10) < 1 := by
            have h2 : (1 : ℚ) ≤ 10 ^ digits10 := one_le_pow₀ (by norm_num)
            rw [div_lt_one (by positivity)]
            linarith
          linarith [hc.1]
      · exact ex h

theorem hexExp_le (m : ℚ) : hexExp m ≤ Int.log 2 m ∧ Int.log 2 m < hexExp m + 4 := by
  unfold hexExp
  omega

/-- The hexadecimal digits are exact. -/
theorem hexDigits_val {p : ℕ} (hp : 1 ≤ p) {m : ℚ} (hb : HasBits p m) (hm : 0 < m) :
    (digsVal 16 (hexDigits p m) : ℚ) = m / (2 : ℚ) ^ hexExp m * 16 ^ p := by
  have hE := hexExp_le m
  obtain ⟨z, hz⟩ := hasBits_small hb (L := Int.log 2 m) (by rw [abs_of_pos hm]; exact log2_le hm)
  have e16 : (16 : ℚ) ^ p = (2 : ℚ) ^ (4 * (p : ℤ)) := by
    rw [show (4 * (p : ℤ)) = ((4 * p : ℕ) : ℤ) by push_cast; rfl, zpow_natCast, pow_mul]
    norm_num
  have hint : m / (2 : ℚ) ^ hexExp m * 16 ^ p = ((z * 2 ^ (Int.log 2 m + 1 - p - hexExp m + 4 * p).toNat : ℤ) : ℚ) := by
    push_cast
    rw [← zpow_natCast (2 : ℚ) (Int.toNat _), Int.toNat_of_nonneg (by omega), e16, zpow_add₀ (by norm_num), zpow_sub₀ (by norm_num)]
    have hz2 : m / (2 : ℚ) ^ hexExp m * (2 : ℚ) ^ (4 * (p : ℤ)) = z * (2 : ℚ) ^ (Int.log 2 m + 1 - p) / (2 : ℚ) ^ hexExp m * (2 : ℚ) ^ (4 * (p : ℤ)) := by
      rw [← hz]
    rw [hz2]
    ring
  have hlt : m / (2 : ℚ) ^ hexExp m * 16 ^ p < 16 ^ (p + 1) := by
    have h1 : m / (2 : ℚ) ^ hexExp m < 16 := by
      rw [div_lt_iff₀ (zpow2_pos _)]
      calc m < (2 : ℚ) ^ (Int.log 2 m + 1) := lt_log2 m
        _ ≤ (2 : ℚ) ^ (4 + hexExp m) := zpow2_mono (by omega)
        _ = 16 * (2 : ℚ) ^ hexExp m := by rw [zpow_add₀ (by norm_num)]; norm_num
    rw [pow_succ']
    exact mul_lt_mul_of_pos_right h1 (by positivity)
  have hpos : 0 ≤ m / (2 : ℚ) ^ hexExp m * 16 ^ p := by have := zpow2_pos (hexExp m); positivity
  unfold hexDigits
  rw [digsVal_fixed (by norm_num), hint, Rat.num_intCast]
  rw [hint] at hlt hpos
  generalize z * 2 ^ (Int.log 2 m + 1 - p - hexExp m + 4 * p).toNat = k at *
  have hk0 : 0 ≤ k := by exact_mod_cast hpos
  have hk1 : k < 16 ^ (p + 1) := by exact_mod_cast hlt
  obtain ⟨n, rfl⟩ := Int.eq_ofNat_of_zero_le hk0
  have hn : n < 16 ^ (p + 1) := by exact_mod_cast hk1
  rw [show ((n : ℤ)).toNat = n from rfl, Nat.mod_eq_of_lt hn]
  push_cast
  rfl

/-- What is printed by `%Ra` is read exactly. -/
theorem readText_dump {F : MpfFormat} (hF : F.Ok) {x : Mpf} (hx : x.In F) (hnan : ∀ s, x = .nan s → s = false) : readText F true (x.dump F) = x := by
  cases x with
  | nan s => rw [hnan s rfl]; rfl
  | inf s => cases s <;> rfl
  | fin s m =>
    by_cases h0 : m = 0
    · subst h0
      have e : (Mpf.fin s 0).dump F = signText s ++ digitChar 0 :: ['x', '0', 'p', '+', '0'] := by
        unfold Mpf.dump
        dsimp only
        rw [if_pos rfl]
        rfl
      rw [e, readText_digit F true s (by norm_num)]
      have hm : readMagnitude (takeBase true (digitChar 0 :: ['x', '0', 'p', '+', '0'])).1 (takeBase true (digitChar 0 :: ['x', '0', 'p', '+', '0'])).2 = some 0 := by
        decide +kernel
      unfold readFloat
      rw [hm]
      exact if_pos rfl
    · have hx' := hx
      rcases hx with h | ⟨hb, h1, h2⟩
      · exact absurd h h0
      have hpos : 0 < m := (zpow2_pos _).trans_le h1
      obtain ⟨d, hd⟩ : ∃ d, (hexDigits F.prec m).take 1 = [d] := by
        have hl : (hexDigits F.prec m).length = F.prec + 1 := fixedDigits_length _ _ _
        cases e : hexDigits F.prec m with
        | nil => rw [e] at hl; simp at hl
        | cons a l => exact ⟨a, rfl⟩
      have hsplit : hexDigits F.prec m = d :: (hexDigits F.prec m).drop 1 := by
        conv_lhs => rw [← List.take_append_drop 1 (hexDigits F.prec m), hd]
        rfl
      have hl : ((hexDigits F.prec m).drop 1).length = F.prec := by
        rw [List.length_drop, show (hexDigits F.prec m).length = F.prec + 1 from fixedDigits_length _ _ _]
        rfl
      have hlt : ∀ a ∈ hexDigits F.prec m, a < 16 := fixedDigits_lt (by norm_num) _ _
      obtain ⟨j, hj⟩ := dropZeros_spec ((hexDigits F.prec m).drop 1)
      have hv := hexDigits_val hF.prec hb hpos
      rw [hsplit, hj, ← List.cons_append, digsVal_zeros] at hv
      have hlen : (dropZeros ((hexDigits F.prec m).drop 1)).length + j = F.prec := by
        have := congrArg List.length hj
        rw [hl, List.length_append, List.length_replicate] at this
        exact this.symm
      have hfs : ∀ a ∈ dropZeros ((hexDigits F.prec m).drop 1), digitVal 16 (digitChar a) = some a := by
        intro a ha
        apply digitVal_hex
        apply hlt
        apply List.mem_of_mem_drop (i := 1)
        rw [hj]
        exact List.mem_append_left _ ha
      have hds : ∀ a ∈ [d], digitVal 16 (digitChar a) = some a := by
        intro a ha
        rw [List.mem_singleton.1 ha]
        exact digitVal_hex (hlt d (by rw [hsplit]; exact List.mem_cons_self ..))
      have hval : (digsVal 16 ([d] ++ dropZeros ((hexDigits F.prec m).drop 1)) : ℚ) / (16 : ℚ) ^ (dropZeros ((hexDigits F.prec m).drop 1)).length *
          (2 : ℚ) ^ hexExp m = m := by
        have e1 : (16 : ℚ) ^ F.prec = 16 ^ (dropZeros ((hexDigits F.prec m).drop 1)).length * 16 ^ j := by rw [← pow_add, hlen]
        rw [e1] at hv
        push_cast at hv
        have hj0 : (16 : ℚ) ^ j ≠ 0 := by positivity
        have hz := (zpow2_pos (hexExp m)).ne'
        rw [← mul_assoc] at hv
        have hv2 := mul_right_cancel₀ hj0 hv
        rw [List.singleton_append, hv2]
        field_simp
      have hexpf : expFactor 16 ('p' :: expText (hexExp m)) = (2 : ℚ) ^ hexExp m := by
        unfold expFactor
        dsimp only
        rw [if_neg (by decide), if_neg (by decide), if_pos ⟨rfl, Or.inl rfl⟩, expAfter_expText]
      have hmag : readMagnitude 16 ([d].map digitChar ++ (pointText (dropZeros ((hexDigits F.prec m).drop 1)) ++ 'p' :: expText (hexExp m))) = some m := by
        cases hdz : dropZeros ((hexDigits F.prec m).drop 1) with
        | nil =>
          rw [hdz] at hval
          have := readMagnitude_plain (base := 16) [d] hds ('p' :: expText (hexExp m)) rfl rfl (by simp)
          rw [hexpf] at this
          simp only [List.append_nil, List.length_nil, pow_zero, div_one] at hval
          rw [hval] at this
          exact this
        | cons a l =>
          rw [hdz] at hval hfs
          have := readMagnitude_point (base := 16) [d] (a :: l) hds hfs ('p' :: expText (hexExp m)) rfl rfl (by simp)
          rw [hexpf] at this
          push_cast at this
          rw [hval] at this
          exact this
      have e : (Mpf.fin s m).dump F = signText s ++ digitChar 0 :: ('x' :: ([d].map digitChar ++ (pointText (dropZeros ((hexDigits F.prec m).drop 1)) ++
          'p' :: expText (hexExp m)))) := by
        unfold Mpf.dump
        dsimp only
        rw [if_neg h0, hd]
        simp [digitChar]
      rw [e, readText_digit F true s (by norm_num)]
      have hbase : takeBase true (digitChar 0 :: 'x' :: ([d].map digitChar ++ (pointText (dropZeros ((hexDigits F.prec m).drop 1)) ++
          'p' :: expText (hexExp m)))) = (16, [d].map digitChar ++ (pointText (dropZeros ((hexDigits F.prec m).drop 1)) ++ 'p' :: expText (hexExp m))) := by
        change (if (true : Bool) = true ∧ ('x' = 'x' ∨ 'x' = 'X') ∧ (readMagnitude 16 _).isSome = true then _ else _) = _
        rw [if_pos]
        refine ⟨rfl, Or.inl rfl, ?_⟩
        rw [hmag]
        rfl
      unfold readFloat
      rw [hbase]
      dsimp only
      rw [hmag]
      dsimp only
      rw [if_neg h0]
      exact round_self hF hpos hx'

end TNCO
