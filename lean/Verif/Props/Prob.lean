import Verif.Model.Prob
import Mathlib.MeasureTheory.Measure.Lebesgue.Basic

/-!
# Property C18: the Metropolis-Hastings acceptance rule
-/

namespace TNCO

theorem probMH_eq (beta delta old : ℝ) (hold : 0 < old) (hd : 0 < delta) :
    probMH beta delta old = (old / (old + delta)) ^ beta := by
  unfold probMH
  rw [if_neg (not_le.2 hd), Real.rpow_neg (by positivity), ← Real.inv_rpow (by positivity)]
  congr 1
  field_simp

/-- C18: for a positive current cost and a non-negative inverse temperature the value is a
probability; moves that do not increase the cost are always accepted; otherwise the value is
`(old / new) ^ beta`. -/
theorem C18_value (beta old new : ℝ) (hb : 0 ≤ beta) (hold : 0 < old) :
    0 < probMH beta (new - old) old ∧ probMH beta (new - old) old ≤ 1 ∧
    (new ≤ old → probMH beta (new - old) old = 1) ∧
    (old < new → probMH beta (new - old) old = (old / new) ^ beta) := by
  by_cases h : new ≤ old
  · have : probMH beta (new - old) old = 1 := by unfold probMH; rw [if_pos (by linarith)]
    exact ⟨by rw [this]; norm_num, this.le, fun _ => this, fun h' => absurd h (not_le.2 h')⟩
  · push Not at h
    have e : probMH beta (new - old) old = (old / new) ^ beta := by
      rw [probMH_eq beta _ _ hold (by linarith)]; congr 2; ring
    have hn : 0 < new := by linarith
    refine ⟨?_, ?_, fun h' => absurd h (not_lt.2 h'), fun _ => e⟩
    · rw [e]; positivity
    · rw [e]; exact Real.rpow_le_one (by positivity) ((div_le_one hn).2 h.le) hb

/-- C18: the acceptance test `u <= prob` with `u` uniform on `[0, 1)` succeeds with
probability exactly `prob`. -/
theorem C18_accept_measure (beta old new : ℝ) (hb : 0 ≤ beta) (hold : 0 < old) :
    MeasureTheory.volume {u : ℝ | u ∈ Set.Ico 0 1 ∧ u ≤ probMH beta (new - old) old} =
      ENNReal.ofReal (probMH beta (new - old) old) := by
  obtain ⟨h0, h1, -⟩ := C18_value beta old new hb hold
  rcases h1.lt_or_eq with h | h
  · have : {u : ℝ | u ∈ Set.Ico 0 1 ∧ u ≤ probMH beta (new - old) old} =
        Set.Icc 0 (probMH beta (new - old) old) := by
      ext u; simp only [Set.mem_ofPred_eq, Set.mem_Ico, Set.mem_Icc]
      constructor
      · rintro ⟨⟨a, -⟩, b⟩; exact ⟨a, b⟩
      · rintro ⟨a, b⟩; exact ⟨⟨a, by linarith⟩, b⟩
    rw [this, Real.volume_Icc, sub_zero]
  · have : {u : ℝ | u ∈ Set.Ico 0 1 ∧ u ≤ probMH beta (new - old) old} = Set.Ico 0 1 := by
      ext u; simp only [Set.mem_ofPred_eq, Set.mem_Ico]
      constructor
      · rintro ⟨a, -⟩; exact a
      · intro a; exact ⟨a, by linarith [a.2]⟩
    rw [this, Real.volume_Ico, h]; norm_num

/-- C18: a larger increase is never accepted more often, and a larger inverse temperature
never accepts a move more often. -/
theorem C18_monotone (beta beta' delta delta' old : ℝ) (hb : 0 ≤ beta) (hold : 0 < old)
    (hbb : beta ≤ beta') (hdd : delta ≤ delta') :
    probMH beta delta' old ≤ probMH beta delta old ∧
    probMH beta' delta old ≤ probMH beta delta old := by
  have one : ∀ b d, 0 ≤ b → probMH b d old ≤ 1 := by
    intro b d h
    have := (C18_value b old (old + d) h hold).2.1
    rwa [add_sub_cancel_left] at this
  constructor
  · by_cases h : delta ≤ 0
    · have : probMH beta delta old = 1 := if_pos h
      rw [this]; exact one _ _ hb
    · push Not at h
      rw [probMH_eq _ _ _ hold h, probMH_eq _ _ _ hold (by linarith)]
      have : 0 < old + delta' := by linarith
      exact Real.rpow_le_rpow (by positivity) (div_le_div_of_nonneg_left hold.le (by linarith) (by linarith)) hb
  · by_cases h : delta ≤ 0
    · have : probMH beta delta old = 1 := if_pos h
      rw [this]; exact one _ _ (by linarith)
    · push Not at h
      rw [probMH_eq _ _ _ hold h, probMH_eq _ _ _ hold h]
      exact Real.rpow_le_rpow_of_exponent_ge (by positivity) ((div_le_one (by linarith)).2 (by linarith)) hbb

/-- C18: detailed balance with respect to the weight `cost ^ (-beta)`. -/
theorem C18_detailed_balance (beta x y : ℝ) (hx : 0 < x) (hy : 0 < y) :
    x ^ (-beta) * probMH beta (y - x) x = y ^ (-beta) * probMH beta (x - y) y := by
  have key : ∀ x y : ℝ, 0 < x → x < y →
      x ^ (-beta) * probMH beta (y - x) x = y ^ (-beta) * probMH beta (x - y) y := by
    intro x y hx hxy
    have hy : 0 < y := by linarith
    have h1 : probMH beta (x - y) y = 1 := if_pos (by linarith)
    rw [h1, probMH_eq _ _ _ hx (by linarith), add_sub_cancel, Real.div_rpow hx.le hy.le,
      Real.rpow_neg hx.le, Real.rpow_neg hy.le]
    have : x ^ beta ≠ 0 := (Real.rpow_pos_of_pos hx _).ne'
    field_simp
  rcases lt_trichotomy x y with h | h | h
  · exact key x y hx h
  · subst h; rfl
  · exact (key y x hy h).symm

/-- A move from cost 2 to cost 4 at `beta = 2` is accepted with probability 1/4. -/
example : (0 : ℝ) ≤ 2 ∧ (0 : ℝ) < 2 ∧ probMH 2 (4 - 2) 2 = 1 / 4 := by
  refine ⟨by norm_num, by norm_num, ?_⟩
  rw [(C18_value 2 2 4 (by norm_num) (by norm_num)).2.2.2 (by norm_num)]
  norm_num

end TNCO
