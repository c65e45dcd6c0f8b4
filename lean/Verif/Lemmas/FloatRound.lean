import Verif.Lemmas.Nearest

/-! What MPFR returns for an exact value. -/

namespace TNCO

section
variable {F : MpfFormat} (hF : F.Ok)

theorem signed_abs (v : ℚ) : signed (decide (v < 0)) |v| = v := by
  unfold signed
  by_cases h : v < 0
  · simp [h, abs_of_neg h]
  · simp [h, abs_of_nonneg (not_lt.1 h)]

theorem abs_signed (s : Bool) (m : ℚ) : |signed s m| = |m| := by
  cases s <;> simp [signed]

theorem signed_eq_zero {s : Bool} {m : ℚ} : signed s m = 0 ↔ m = 0 := by
  cases s <;> simp [signed]

theorem signed_not (s : Bool) (m : ℚ) : signed (!s) m = -signed s m := by
  cases s <;> simp [signed]

include hF

theorem prec_half : (1 : ℚ) / 2 ^ F.prec ≤ 1 / 2 := by
  have : (2 : ℚ) ^ 1 ≤ 2 ^ F.prec := pow_le_pow_right₀ (by norm_num) hF.prec
  apply one_div_le_one_div_of_le (by norm_num)
  linarith

theorem prec_pos : (0 : ℚ) < 1 / 2 ^ F.prec := by positivity

/-- The sign of a number is kept. -/
theorem roundTo_sign {v : ℚ} (hv : v ≠ 0) : signed (decide (v < 0)) |roundTo F.prec v| = roundTo F.prec v ∧ 0 < |roundTo F.prec v| := by
  have hn := roundTo_near (p := F.prec) v
  have hp := prec_half hF
  have hav := abs_pos.2 hv
  have hlt : |roundTo F.prec v - v| < |v| := by
    have : |v| / 2 ^ F.prec ≤ |v| * (1 / 2) := by
      rw [div_eq_mul_one_div]
      exact mul_le_mul_of_nonneg_left hp hav.le
    linarith
  rw [abs_lt] at hlt
  unfold signed
  by_cases h : v < 0
  · rw [abs_of_neg h] at hlt
    have : roundTo F.prec v < 0 := by linarith [hlt.2]
    simp [h, abs_of_neg this, this]
  · have h' : 0 < v := lt_of_le_of_ne (not_lt.1 h) (Ne.symm hv)
    rw [abs_of_pos h'] at hlt
    have : 0 < roundTo F.prec v := by linarith [hlt.1]
    simp [h, abs_of_pos this, this]

/-- The middle between the greatest number and the next power of two becomes that power. -/
theorem roundTo_middle (L : ℤ) : roundTo F.prec ((2 - 1 / 2 ^ F.prec) * (2 : ℚ) ^ L) = (2 : ℚ) ^ (L + 1) := by
  have hh := prec_half hF
  have hp0 := prec_pos hF
  have hL := zpow2_pos L
  have hx : 0 < (2 - 1 / 2 ^ F.prec) * (2 : ℚ) ^ L := mul_pos (by linarith) hL
  have hlog : Int.log 2 |(2 - 1 / 2 ^ F.prec) * (2 : ℚ) ^ L| = L := by
    rw [abs_of_pos hx]
    apply log2_eq
    · nlinarith
    · rw [zpow_add_one₀ (by norm_num)]
      nlinarith
  unfold roundTo
  rw [if_neg hx.ne']
  have hu : ulpExp F.prec ((2 - 1 / 2 ^ F.prec) * (2 : ℚ) ^ L) = L + 1 - F.prec := by
    unfold ulpExp
    rw [hlog]
  rw [hu]
  have e1 : (2 - 1 / 2 ^ F.prec) * (2 : ℚ) ^ L / (2 : ℚ) ^ (L + 1 - F.prec) = 2 ^ F.prec - 1 / 2 := by
    rw [zpow_sub₀ (by norm_num), zpow_add_one₀ (by norm_num), zpow_natCast]
    field_simp
  rw [e1]
  have e2 : roundEven ((2 : ℚ) ^ F.prec - 1 / 2) = 2 ^ F.prec := by
    have hf : ⌊(2 : ℚ) ^ F.prec - 1 / 2⌋ = 2 ^ F.prec - 1 := by
      rw [Int.floor_eq_iff]
      push_cast
      constructor <;> linarith
    obtain ⟨k, hk⟩ : ∃ k : ℤ, (2 : ℤ) ^ F.prec = 2 * k := ⟨2 ^ (F.prec - 1), by rw [← pow_succ']; congr 1; have := hF.prec; omega⟩
    unfold roundEven
    rw [hf]
    push_cast
    rw [if_neg (by linarith), if_neg (by linarith), if_neg (by rw [hk]; omega)]
    ring
  rw [e2]
  push_cast
  rw [← zpow_natCast, ← zpow_add₀ (by norm_num)]
  congr 1
  ring

/-- The greatest number below a power of two. -/
theorem hasBits_max (L : ℤ) : HasBits F.prec ((2 - 2 / 2 ^ F.prec) * (2 : ℚ) ^ L) := by
  have h1 : (1 : ℤ) ≤ 2 ^ F.prec := by exact_mod_cast Nat.one_le_two_pow
  refine ⟨2 ^ F.prec - 1, L + 1 - F.prec, by rw [abs_of_nonneg (by omega)]; omega, ?_⟩
  rw [zpow_sub₀ (by norm_num), zpow_add_one₀ (by norm_num), zpow_natCast]
  push_cast
  field_simp

/-- When rounding reaches the next power of two. -/
theorem roundTo_lt_iff (v : ℚ) (L : ℤ) : |roundTo F.prec v| < (2 : ℚ) ^ (L + 1) ↔ |v| < (2 - 1 / 2 ^ F.prec) * (2 : ℚ) ^ L := by
  rw [roundTo_abs hF.prec]
  have hL := zpow2_pos L
  have hp0 := prec_pos hF
  constructor
  · intro h
    by_contra hc
    push Not at hc
    have := roundTo_mono hF.prec hc
    rw [roundTo_middle hF] at this
    linarith
  · intro h
    have hM := hasBits_max hF L
    have hMlt : (2 - 2 / 2 ^ F.prec) * (2 : ℚ) ^ L < (2 : ℚ) ^ (L + 1) := by
      rw [zpow_add_one₀ (by norm_num)]
      have : (0 : ℚ) < 2 / 2 ^ F.prec := by positivity
      nlinarith
    rcases le_total |v| ((2 - 2 / 2 ^ F.prec) * (2 : ℚ) ^ L) with c | c
    · have := roundTo_mono hF.prec c
      rw [roundTo_self hF.prec hM] at this
      exact this.trans_lt hMlt
    · by_contra hc
      push Not at hc
      have hn := (roundTo_nearest hF.prec |v|).nearest _ hM
      rw [zpow_add_one₀ (by norm_num)] at hc
      have e : (2 : ℚ) / 2 ^ F.prec = 2 * (1 / 2 ^ F.prec) := by ring
      rw [e] at hn c
      have hge : 0 ≤ roundTo F.prec |v| - |v| := by nlinarith
      have hle : (2 - 2 * (1 / 2 ^ F.prec)) * (2 : ℚ) ^ L - |v| ≤ 0 := by linarith
      rw [abs_of_nonneg hge, abs_of_nonpos hle] at hn
      nlinarith

theorem log_roundTo_le {v : ℚ} (hv : v ≠ 0) (L : ℤ) : Int.log 2 |roundTo F.prec v| ≤ L ↔ |v| < (2 - 1 / 2 ^ F.prec) * (2 : ℚ) ^ L := by
  rw [← roundTo_lt_iff hF]
  have hpos := (roundTo_sign hF hv).2
  constructor
  · intro h
    exact (lt_log2 _).trans_le (zpow2_mono (by omega))
  · intro h
    have := zpow2_lt_iff.1 ((log2_le hpos).trans_lt h)
    omega

theorem round_rounded {v : ℚ} (hv : v ≠ 0) : Rounded F v (F.round v) := by
  have hlo := log_roundTo_le hF hv
  have hp0 := prec_pos hF
  have hh := prec_half hF
  have hsign := roundTo_sign hF hv
  have hL := zpow2_pos F.lo
  have hlo1 : (2 : ℚ) ^ F.lo = 2 * (2 : ℚ) ^ (F.lo - 1) := by
    rw [← zpow_one_add₀ (by norm_num)]; congr 1; ring
  have hmono := zpow2_mono hF.range
  have hL' := zpow2_pos (F.lo - 1)
  have lower : (2 : ℚ) ^ F.lo ≤ |v| → F.lo ≤ Int.log 2 |roundTo F.prec v| := by
    intro h
    have := roundTo_mono hF.prec h
    rw [roundTo_self hF.prec (hasBits_pow hF.prec _), ← roundTo_abs hF.prec] at this
    have h2 := this.trans_lt (lt_log2 _)
    have := zpow2_lt_iff.1 h2
    omega
  refine ⟨fun h1 h2 => ?_, fun h => ?_, fun h => ?_, fun h1 h2 => ?_⟩
  · unfold MpfFormat.round
    rw [if_neg (by have := (hlo F.hi).2 h2; omega), if_neg (by have := lower h1; omega)]
    refine ⟨_, abs_nonneg _, rfl, ?_⟩
    rw [hsign.1]
    exact roundTo_nearest hF.prec v
  · unfold MpfFormat.round
    rw [if_pos]
    by_contra hc
    have := (hlo F.hi).1 (not_lt.1 hc)
    linarith
  · have h3 : Int.log 2 |roundTo F.prec v| ≤ F.lo - 1 := (hlo _).2 (by nlinarith)
    unfold MpfFormat.round
    rw [if_neg (by have := hF.range; omega), if_pos (by omega), if_pos h]
  · have hhi : ¬ F.hi < Int.log 2 |roundTo F.prec v| := by
      have := (hlo F.lo).2 (by nlinarith)
      have := hF.range
      omega
    unfold MpfFormat.round
    rw [if_neg hhi]
    split
    · rw [if_neg (not_le.2 h1)]
    · next hc =>
      -- rounded up to the least number
      have h3 : (2 : ℚ) ^ F.lo ≤ |roundTo F.prec v| := (zpow2_mono (not_lt.1 hc)).trans (log2_le hsign.2)
      have h4 := roundTo_mono hF.prec h2.le
      rw [roundTo_self hF.prec (hasBits_pow hF.prec _), ← roundTo_abs hF.prec] at h4
      rw [le_antisymm h4 h3]

/-- Correct rounding determines the result. -/
theorem Rounded.unique {v : ℚ} {r r' : Mpf} (h : Rounded F v r) (h' : Rounded F v r') : r = r' := by
  rcases le_or_gt ((2 - 1 / 2 ^ F.prec) * (2 : ℚ) ^ F.hi) |v| with c | c
  · rw [h.over c, h'.over c]
  rcases le_or_gt ((2 : ℚ) ^ F.lo) |v| with c2 | c2
  · obtain ⟨m, hm0, rfl, hm⟩ := h.normal c2 c
    obtain ⟨n, hn0, rfl, hn⟩ := h'.normal c2 c
    have := hm.unique hn
    have e : |signed (decide (v < 0)) m| = |signed (decide (v < 0)) n| := by rw [this]
    rw [abs_signed, abs_signed, abs_of_nonneg hm0, abs_of_nonneg hn0] at e
    rw [e]
  rcases le_or_gt |v| ((2 : ℚ) ^ (F.lo - 1)) with c3 | c3
  · rw [h.under c3, h'.under c3]
  · rw [h.least c3 c2, h'.least c3 c2]

theorem round_eq {v : ℚ} {r : Mpf} (hv : v ≠ 0) (h : Rounded F v r) : F.round v = r := Rounded.unique hF (round_rounded hF hv) h

theorem hasBits_abs {p : ℕ} {q : ℚ} (h : HasBits p q) : HasBits p |q| := by
  rcases abs_choice q with e | e
  · rwa [e]
  · rw [e]; exact hasBits_neg h

/-- Rounding stays in the format. -/
theorem round_in {v : ℚ} (hv : v ≠ 0) : (F.round v).In F := by
  have h := round_rounded hF hv
  rcases le_or_gt ((2 - 1 / 2 ^ F.prec) * (2 : ℚ) ^ F.hi) |v| with c | c
  · rw [h.over c]; trivial
  rcases le_or_gt ((2 : ℚ) ^ F.lo) |v| with c2 | c2
  · obtain ⟨m, hm0, e, hm⟩ := h.normal c2 c
    rw [e]
    have hr := roundTo_eq hF.prec hm
    have hm' : |roundTo F.prec v| = m := by rw [hr, abs_signed, abs_of_nonneg hm0]
    right
    refine ⟨?_, ?_, ?_⟩
    · rw [← hm']
      exact hasBits_abs hF (roundTo_bits hF.prec v)
    · have := roundTo_mono hF.prec c2
      rwa [roundTo_self hF.prec (hasBits_pow hF.prec _), ← roundTo_abs hF.prec, hm'] at this
    · have := (roundTo_lt_iff hF v F.hi).2 c
      rwa [hm'] at this
  rcases le_or_gt |v| ((2 : ℚ) ^ (F.lo - 1)) with c3 | c3
  · rw [h.under c3]; exact Or.inl rfl
  · rw [h.least c3 c2]
    exact Or.inr ⟨hasBits_pow hF.prec _, le_rfl, zpow2_lt (by have := hF.range; omega)⟩

/-- A number of the format is not changed. -/
theorem round_self {s : Bool} {m : ℚ} (hm : 0 < m) (h : (Mpf.fin s m).In F) : F.round (signed s m) = .fin s m := by
  rcases h with h | ⟨hb, h1, h2⟩
  · exact absurd h hm.ne'
  have hne : signed s m ≠ 0 := by rw [Ne, signed_eq_zero]; exact hm.ne'
  have habs : |signed s m| = m := by rw [abs_signed, abs_of_pos hm]
  have hneg : decide (signed s m < 0) = s := by
    cases s
    · simp [signed, hm.le]
    · simp [signed, hm]
  have hb' : HasBits F.prec (signed s m) := by
    cases s
    · exact hb
    · exact hasBits_neg hb
  have hr : roundTo F.prec (signed s m) = signed s m := roundTo_self hF.prec hb'
  unfold MpfFormat.round
  have hlog : Int.log 2 |roundTo F.prec (signed s m)| ≤ F.hi := by
    rw [hr, habs]
    have := zpow2_lt_iff.1 ((log2_le hm).trans_lt h2)
    omega
  have hlog2 : F.lo ≤ Int.log 2 |roundTo F.prec (signed s m)| := by
    rw [hr, habs]
    have := zpow2_lt_iff.1 (h1.trans_lt (lt_log2 m))
    omega
  rw [if_neg (by omega), if_neg (by omega), hr, habs, hneg]

end

end TNCO
