import Verif.Model.Float
import Verif.Model.Cost
import Mathlib.Tactic.Linarith
import Mathlib.Tactic.Ring
import Mathlib.Tactic.Positivity
import Mathlib.Tactic.FieldSimp

/-! Error bounds of floating-point operations. -/

namespace TNCO

theorem roundEven_near (x : ℚ) : |(roundEven x : ℚ) - x| ≤ 1 / 2 := by
  have h1 := Int.floor_le x
  have h2 := Int.lt_floor_add_one x
  unfold roundEven
  split
  · rw [abs_le]; constructor <;> linarith
  · split
    · push_cast; rw [abs_le]; constructor <;> linarith
    · split
      · rw [abs_le]; constructor <;> linarith
      · push_cast; rw [abs_le]; constructor <;> linarith

/-- The relative error of rounding is at most half a unit in the last place. -/
theorem roundTo_near {p : ℕ} (x : ℚ) : |roundTo p x - x| ≤ |x| / 2 ^ p := by
  unfold roundTo
  split
  · next h => subst h; simp
  next h =>
  have hpos : (0 : ℚ) < (2 : ℚ) ^ ulpExp p x := zpow_pos (by norm_num) _
  have h1 := roundEven_near (x / (2 : ℚ) ^ ulpExp p x)
  have e : (roundEven (x / (2 : ℚ) ^ ulpExp p x) : ℚ) * (2 : ℚ) ^ ulpExp p x - x =
      ((roundEven (x / (2 : ℚ) ^ ulpExp p x) : ℚ) - x / (2 : ℚ) ^ ulpExp p x) * (2 : ℚ) ^ ulpExp p x := by
    field_simp
  rw [e, abs_mul, abs_of_pos hpos]
  have hl : ((2 : ℕ) : ℚ) ^ Int.log 2 |x| ≤ |x| := Int.zpow_log_le_self (by norm_num) (abs_pos.2 h)
  have e2 : (2 : ℚ) ^ ulpExp p x = 2 * (2 : ℚ) ^ Int.log 2 |x| / 2 ^ p := by
    unfold ulpExp
    rw [zpow_sub₀ (by norm_num), zpow_add₀ (by norm_num), zpow_natCast, zpow_one, mul_comm]
  calc _ ≤ 1 / 2 * (2 : ℚ) ^ ulpExp p x := mul_le_mul_of_nonneg_right h1 hpos.le
    _ = (2 : ℚ) ^ Int.log 2 |x| / 2 ^ p := by rw [e2]; ring
    _ ≤ _ := by
      apply div_le_div_of_nonneg_right _ (by positivity)
      exact_mod_cast hl

/-- A number that is the sum `T` of positive numbers up to `k` roundings with relative error `2^-p`; infinity only for a `T` beyond the format, up to
the same error. -/
def Within (F : FloatFormat) (p k : ℕ) (x : Fl F) (T : ℚ) : Prop :=
  (∃ q, x = Flt.fin q ∧ q < 2 ^ (F.emax + 1) ∧ (1 - 1 / 2 ^ p) ^ k * T ≤ q ∧ q ≤ (1 + 1 / 2 ^ p) ^ k * T) ∨
  (x = Flt.inf false ∧ 2 ^ (F.emax + 1) ≤ (1 + 1 / 2 ^ p) ^ k * T)

section
variable {F : FloatFormat} {p : ℕ}

theorem lo_pos (hp : 1 ≤ p) : (0 : ℚ) < 1 - 1 / 2 ^ p := by
  have : (1 : ℚ) < 2 ^ p := one_lt_pow₀ (by norm_num) (by omega)
  rw [sub_pos, div_lt_one (by positivity)]
  exact this

theorem lo_le (p : ℕ) : (1 : ℚ) - 1 / 2 ^ p ≤ 1 := by
  have : (0 : ℚ) < 1 / 2 ^ p := by positivity
  linarith

theorem hi_ge (p : ℕ) : (1 : ℚ) ≤ 1 + 1 / 2 ^ p := by
  have : (0 : ℚ) < 1 / 2 ^ p := by positivity
  linarith

theorem hi_pow (p : ℕ) {k l : ℕ} (h : k ≤ l) {T : ℚ} (hT : 0 ≤ T) : ((1 : ℚ) + 1 / 2 ^ p) ^ k * T ≤ (1 + 1 / 2 ^ p) ^ l * T :=
  mul_le_mul_of_nonneg_right (pow_le_pow_right₀ (hi_ge p) h) hT

theorem lo_pow (hp : 1 ≤ p) {k l : ℕ} (h : k ≤ l) {T : ℚ} (hT : 0 ≤ T) : ((1 : ℚ) - 1 / 2 ^ p) ^ l * T ≤ (1 - 1 / 2 ^ p) ^ k * T :=
  mul_le_mul_of_nonneg_right (pow_le_pow_of_le_one (lo_pos hp).le (lo_le p) h) hT

theorem Within.mono (hp : 1 ≤ p) {k l : ℕ} (hkl : k ≤ l) {x : Fl F} {T : ℚ} (hT : 0 ≤ T) (h : Within F p k x T) : Within F p l x T := by
  rcases h with ⟨q, rfl, h1, h2, h3⟩ | ⟨rfl, h⟩
  · exact Or.inl ⟨q, rfl, h1, (lo_pow hp hkl hT).trans h2, h3.trans (hi_pow p hkl hT)⟩
  · exact Or.inr ⟨rfl, h.trans (hi_pow p hkl hT)⟩

/-- One rounding of a number between two bounds. -/
theorem within_round (hp : 1 ≤ p) (hF : p ≤ F.prec) {k : ℕ} {q T : ℚ} (h0 : 0 ≤ q) (h1 : (1 - 1 / 2 ^ p) ^ k * T ≤ q)
    (h2 : q ≤ (1 + 1 / 2 ^ p) ^ k * T) : Within F p (k + 1) (F.round q) T := by
  have hn := roundTo_near (p := F.prec) q
  rw [abs_of_nonneg h0] at hn
  have hd : q / 2 ^ F.prec ≤ q * (1 / 2 ^ p) := by
    rw [div_eq_mul_one_div]
    apply mul_le_mul_of_nonneg_left _ h0
    exact one_div_le_one_div_of_le (by positivity) (pow_le_pow_right₀ (by norm_num) hF)
  have hn' := abs_le.1 (hn.trans hd)
  have lo : (1 - 1 / 2 ^ p) ^ (k + 1) * T ≤ roundTo F.prec q := by
    have : (1 - 1 / 2 ^ p) * ((1 - 1 / 2 ^ p) ^ k * T) ≤ (1 - 1 / 2 ^ p) * q := mul_le_mul_of_nonneg_left h1 (lo_pos hp).le
    calc _ = (1 - 1 / 2 ^ p) * ((1 - 1 / 2 ^ p) ^ k * T) := by ring
      _ ≤ _ := this
      _ ≤ _ := by linarith [hn'.1]
  have hi : roundTo F.prec q ≤ (1 + 1 / 2 ^ p) ^ (k + 1) * T := by
    have : (1 + 1 / 2 ^ p) * q ≤ (1 + 1 / 2 ^ p) * ((1 + 1 / 2 ^ p) ^ k * T) := mul_le_mul_of_nonneg_left h2 (by linarith [hi_ge p])
    calc _ ≤ (1 + 1 / 2 ^ p) * q := by linarith [hn'.2]
      _ ≤ _ := this
      _ = _ := by ring
  by_cases h : 2 ^ (F.emax + 1) ≤ roundTo F.prec q
  · exact Or.inr ⟨if_pos h, h.trans hi⟩
  · have h' : ¬ roundTo F.prec q ≤ - 2 ^ (F.emax + 1) := by
      have : (0 : ℚ) ≤ roundTo F.prec q := by
        have : 0 ≤ q * (1 - 1 / 2 ^ p) := mul_nonneg h0 (lo_pos hp).le
        linarith [hn'.1]
      have h3 : (0 : ℚ) < 2 ^ (F.emax + 1) := by positivity
      linarith
    exact Or.inl ⟨_, (if_neg h).trans (if_neg h'), not_le.1 h, lo, hi⟩

theorem within_ofNat (hp : 1 ≤ p) (hF : p ≤ F.prec) (n : ℕ) : Within F p 1 (F.ofNat n) n :=
  within_round hp hF (k := 0) (by positivity) (by simp) (by simp)

theorem within_zero (k : ℕ) : Within F p k 0 0 := Or.inl ⟨0, rfl, by positivity, by simp, by simp⟩

theorem within_nonneg (hp : 1 ≤ p) {k : ℕ} {q T : ℚ} (hT : 0 ≤ T) (h : (1 - 1 / 2 ^ p) ^ k * T ≤ q) : 0 ≤ q :=
  (mul_nonneg (pow_nonneg (lo_pos hp).le _) hT).trans h

theorem within_add (hp : 1 ≤ p) (hF : p ≤ F.prec) {k l n : ℕ} (hk : k ≤ n) (hl : l ≤ n) {x y : Fl F} {S T : ℚ} (hS : 0 ≤ S) (hT : 0 ≤ T)
    (hx : Within F p k x S) (hy : Within F p l y T) : Within F p (n + 1) (x + y) (S + T) := by
  have hx := hx.mono hp hk hS
  have hy := hy.mono hp hl hT
  have up : ∀ {U : ℚ}, 0 ≤ U → U ≤ S + T → (1 + 1 / 2 ^ p) ^ n * U ≤ ((1 : ℚ) + 1 / 2 ^ p) ^ (n + 1) * (S + T) := by
    intro U h0 h
    refine (hi_pow p (Nat.le_succ n) h0).trans (mul_le_mul_of_nonneg_left h ?_)
    positivity
  rcases hx with ⟨a, rfl, a1, a2, a3⟩ | ⟨rfl, a1⟩ <;> rcases hy with ⟨b, rfl, b1, b2, b3⟩ | ⟨rfl, b1⟩
  · change Within F p (n + 1) (F.round (a + b)) (S + T)
    refine within_round hp hF (add_nonneg (within_nonneg hp hS a2) (within_nonneg hp hT b2)) ?_ ?_
    · rw [mul_add]; exact add_le_add a2 b2
    · rw [mul_add]; exact add_le_add a3 b3
  · exact Or.inr ⟨rfl, b1.trans (up hT (by linarith))⟩
  · exact Or.inr ⟨rfl, a1.trans (up hS (by linarith))⟩
  · exact Or.inr ⟨rfl, a1.trans (up hS (by linarith))⟩

theorem within_pos (hp : 1 ≤ p) {k : ℕ} {q T : ℚ} (hT : 1 ≤ T) (h : (1 - 1 / 2 ^ p) ^ k * T ≤ q) : 0 < q :=
  (mul_pos (pow_pos (lo_pos hp) _) (by linarith)).trans_le h

theorem within_mul (hp : 1 ≤ p) (hF : p ≤ F.prec) {k l : ℕ} {x y : Fl F} {S T : ℚ} (hS : 1 ≤ S) (hT : 1 ≤ T)
    (hx : Within F p k x S) (hy : Within F p l y T) : Within F p (k + l + 1) (x * y) (S * T) := by
  have one : ∀ k, (1 : ℚ) ≤ (1 + 1 / 2 ^ p) ^ k := fun k => one_le_pow₀ (hi_ge p)
  have upS : (1 + 1 / 2 ^ p) ^ k * S ≤ ((1 : ℚ) + 1 / 2 ^ p) ^ (k + l + 1) * (S * T) := by
    have h1 : (1 + 1 / 2 ^ p) ^ k * S ≤ ((1 : ℚ) + 1 / 2 ^ p) ^ (k + l + 1) * S := hi_pow p (by omega) (by linarith)
    refine h1.trans (mul_le_mul_of_nonneg_left ?_ (by positivity))
    nlinarith
  have upT : (1 + 1 / 2 ^ p) ^ l * T ≤ ((1 : ℚ) + 1 / 2 ^ p) ^ (k + l + 1) * (S * T) := by
    have h1 : (1 + 1 / 2 ^ p) ^ l * T ≤ ((1 : ℚ) + 1 / 2 ^ p) ^ (k + l + 1) * T := hi_pow p (by omega) (by linarith)
    refine h1.trans (mul_le_mul_of_nonneg_left ?_ (by positivity))
    nlinarith
  rcases hx with ⟨a, rfl, a1, a2, a3⟩ | ⟨rfl, a1⟩ <;> rcases hy with ⟨b, rfl, b1, b2, b3⟩ | ⟨rfl, b1⟩
  · have ha := within_pos hp hS a2
    have hb := within_pos hp hT b2
    change Within F p (k + l + 1) (F.round (a * b)) (S * T)
    refine within_round hp hF (mul_pos ha hb).le ?_ ?_
    · calc _ = ((1 - 1 / 2 ^ p) ^ k * S) * ((1 - 1 / 2 ^ p) ^ l * T) := by rw [pow_add]; ring
        _ ≤ _ := mul_le_mul a2 b2 (mul_nonneg (pow_nonneg (lo_pos hp).le _) (by linarith)) ha.le
    · calc _ ≤ ((1 + 1 / 2 ^ p) ^ k * S) * ((1 + 1 / 2 ^ p) ^ l * T) := mul_le_mul a3 b3 hb.le (by positivity)
        _ = _ := by rw [pow_add]; ring
  · have ha := within_pos hp hS a2
    refine Or.inr ⟨?_, b1.trans upT⟩
    change Flt.mul F.round (Flt.fin a) (Flt.inf false) = _
    simp [Flt.mul, ha.ne', ha.le]
  · have hb := within_pos hp hT b2
    refine Or.inr ⟨?_, a1.trans upS⟩
    change Flt.mul F.round (Flt.inf false) (Flt.fin b) = _
    simp [Flt.mul, hb.ne', hb.le]
  · exact Or.inr ⟨rfl, a1.trans upS⟩

theorem within_min {n : ℕ} {x y : Fl F} {S T : ℚ} (hp : 1 ≤ p) (hx : Within F p n x S) (hy : Within F p n y T) :
    Within F p n (if x < y then x else y) (min S T) := by
  have hl : (1 - 1 / 2 ^ p) ^ n * min S T ≤ (1 - 1 / 2 ^ p) ^ n * S := mul_le_mul_of_nonneg_left (min_le_left _ _) (pow_nonneg (lo_pos hp).le _)
  have hr : (1 - 1 / 2 ^ p) ^ n * min S T ≤ (1 - 1 / 2 ^ p) ^ n * T := mul_le_mul_of_nonneg_left (min_le_right _ _) (pow_nonneg (lo_pos hp).le _)
  have hm : ∀ {q : ℚ}, q ≤ (1 + 1 / 2 ^ p) ^ n * S → q ≤ (1 + 1 / 2 ^ p) ^ n * T → q ≤ (1 + 1 / 2 ^ p) ^ n * min S T := by
    intro q h1 h2
    rcases min_choice S T with h | h <;> rw [h] <;> assumption
  by_cases hxy : x < y
  · rw [if_pos hxy]
    rcases hx with ⟨a, rfl, a1, a2, a3⟩ | ⟨rfl, a1⟩
    · refine Or.inl ⟨a, rfl, a1, hl.trans a2, hm a3 ?_⟩
      rcases hy with ⟨b, rfl, b1, b2, b3⟩ | ⟨rfl, b1⟩
      · exact (show a < b from of_decide_eq_true hxy).le.trans b3
      · exact a1.le.trans b1
    · rcases hy with ⟨b, rfl, b1, b2, b3⟩ | ⟨rfl, b1⟩
      · exact absurd (show false = true from hxy) (by simp)
      · exact absurd (show false = true from hxy) (by simp)
  · rw [if_neg hxy]
    rcases hy with ⟨b, rfl, b1, b2, b3⟩ | ⟨rfl, b1⟩
    · refine Or.inl ⟨b, rfl, b1, hr.trans b2, hm ?_ b3⟩
      rcases hx with ⟨a, rfl, a1, a2, a3⟩ | ⟨rfl, a1⟩
      · have h : ¬ a < b := fun h' => hxy (decide_eq_true h')
        exact (not_lt.1 h).trans a3
      · exact b1.le.trans a1
    · rcases hx with ⟨a, rfl, a1, a2, a3⟩ | ⟨rfl, a1⟩
      · exact absurd (show Flt.ltb (Flt.fin a) (Flt.inf false) = true from rfl) hxy
      · exact Or.inr ⟨rfl, hm a1 b1⟩

/-- What comparing two costs says about the exact ones. -/
theorem within_compare {k l : ℕ} {x y : Fl F} {S T : ℚ} (hx : Within F p k x S) (hy : Within F p l y T) (hf : x ≠ Flt.inf false)
    (h : ¬ y < x) : (1 - 1 / 2 ^ p) ^ k * S ≤ (1 + 1 / 2 ^ p) ^ l * T := by
  rcases hx with ⟨a, rfl, a1, a2, a3⟩ | ⟨rfl, a1⟩
  · rcases hy with ⟨b, rfl, b1, b2, b3⟩ | ⟨rfl, b1⟩
    · have h : ¬ b < a := fun h' => h (decide_eq_true h')
      exact a2.trans ((not_lt.1 h).trans b3)
    · exact a2.trans (a1.le.trans b1)
  · exact absurd rfl hf

theorem Within.ne_nan {k : ℕ} {x : Fl F} {T : ℚ} (h : Within F p k x T) : x ≠ Flt.nan := by
  rcases h with ⟨_, rfl, _⟩ | ⟨rfl, _⟩ <;> intro h <;> cases h

theorem not_lt_trans' {x y z : Fl F} (hy : y ≠ Flt.nan) (h1 : ¬ y < x) (h2 : ¬ z < y) : ¬ z < x := by
  change Flt.ltb _ _ ≠ true at *
  rcases y with b | t | _
  · rcases x with a | s | _ <;> rcases z with c | u | _ <;> simp_all [Flt.ltb]
    exact h1.trans h2
  · rcases x with a | s | _ <;> rcases z with c | u | _ <;> simp_all [Flt.ltb]
  · exact absurd rfl hy

theorem flt_asymm {x y : Fl F} (h : x < y) (h' : y < x) : False := by
  change Flt.ltb _ _ = true at *
  rcases x with a | s | _ <;> rcases y with b | t | _ <;> simp_all [Flt.ltb]
  exact lt_asymm h h'

theorem not_lt_self (x : Fl F) : ¬ x < x := by
  change Flt.ltb _ _ ≠ true
  rcases x with a | s | _ <;> simp [Flt.ltb]

end

end TNCO
