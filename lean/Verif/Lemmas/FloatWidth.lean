import Verif.Model.FloatWidth
import Verif.Lemmas.Rounding
import Verif.Lemmas.ShadowFw

/-! Error bounds of floating-point widths. -/

namespace TNCO

section
variable {F : FloatFormat} {p n : ℕ} {A a b : ℚ}

/-- `x` is the number `a` up to `n` roundings of numbers of size at most `A`. -/
def Near (F : FloatFormat) (p : ℕ) (A : ℚ) (n : ℕ) (x : Fl F) (a : ℚ) : Prop :=
  ∃ q : ℚ, x = Flt.fin q ∧ |q - a| ≤ A * ((1 + 1 / 2 ^ p) ^ n - 1)

theorem near_pow (hA : 0 ≤ A) {k l : ℕ} (h : k ≤ l) : A * ((1 + 1 / 2 ^ p) ^ k - 1) ≤ A * ((1 + 1 / 2 ^ p) ^ l - 1) :=
  mul_le_mul_of_nonneg_left (by linarith [pow_le_pow_right₀ (hi_ge p) h]) hA

theorem Near.mono (hA : 0 ≤ A) {k l : ℕ} (h : k ≤ l) {x : Fl F} (hx : Near F p A k x a) : Near F p A l x a := by
  obtain ⟨q, e, h1⟩ := hx
  exact ⟨q, e, h1.trans (near_pow hA h)⟩

/-- One rounding. -/
theorem near_round (hF : p ≤ F.prec) (hA : A * (1 + 1 / 2 ^ p) ^ (n + 1) < 2 ^ (F.emax + 1)) {q : ℚ} (ha : |a| ≤ A)
    (h : |q - a| ≤ A * ((1 + 1 / 2 ^ p) ^ n - 1)) : Near F p A (n + 1) (F.round q) a := by
  have hA0 : 0 ≤ A := (abs_nonneg _).trans ha
  have hq : |q| ≤ A * (1 + 1 / 2 ^ p) ^ n := by
    have : |q| ≤ |q - a| + |a| := by simpa using abs_add_le (q - a) a
    linarith
  have hn := roundTo_near (p := F.prec) q
  have hd : |q| / 2 ^ F.prec ≤ |q| * (1 / 2 ^ p) := by
    rw [div_eq_mul_one_div]
    apply mul_le_mul_of_nonneg_left _ (abs_nonneg _)
    exact one_div_le_one_div_of_le (by positivity) (pow_le_pow_right₀ (by norm_num) hF)
  have hu : |q| * (1 / 2 ^ p) ≤ A * (1 + 1 / 2 ^ p) ^ n * (1 / 2 ^ p) := mul_le_mul_of_nonneg_right hq (by positivity)
  have h1 : |roundTo F.prec q - a| ≤ A * ((1 + 1 / 2 ^ p) ^ (n + 1) - 1) := by
    have e : roundTo F.prec q - a = (roundTo F.prec q - q) + (q - a) := by ring
    rw [e]
    refine (abs_add_le _ _).trans ?_
    have e2 : A * ((1 + 1 / 2 ^ p) ^ (n + 1) - 1) = A * (1 + 1 / 2 ^ p) ^ n * (1 / 2 ^ p) + A * ((1 + 1 / 2 ^ p) ^ n - 1) := by ring
    rw [e2]
    exact add_le_add ((hn.trans hd).trans hu) h
  have h2 : |roundTo F.prec q| < 2 ^ (F.emax + 1) := by
    have : |roundTo F.prec q| ≤ |roundTo F.prec q - a| + |a| := by simpa using abs_add_le (roundTo F.prec q - a) a
    have e : A * ((1 + 1 / 2 ^ p) ^ (n + 1) - 1) + A = A * (1 + 1 / 2 ^ p) ^ (n + 1) := by ring
    linarith
  have h3 := abs_lt.1 h2
  exact ⟨roundTo F.prec q, (if_neg (not_le.2 h3.2)).trans (if_neg (not_le.2 h3.1)), h1⟩

/-- A number known up to `n` roundings is stored with another one. -/
theorem near_convert {D : FloatFormat} (hF : p ≤ F.prec) (hA : A * (1 + 1 / 2 ^ p) ^ (n + 1) < 2 ^ (F.emax + 1)) {x : Fl D} (ha : |a| ≤ A)
    (h : Near D p A n x a) : Near F p A (n + 1) (F.convert x) a := by
  obtain ⟨q, rfl, h⟩ := h
  exact near_round hF hA ha h

theorem pow_both (p n k : ℕ) (hA : 0 ≤ A) :
    A * ((1 + 1 / 2 ^ p) ^ n - 1) + A * ((1 + 1 / 2 ^ p) ^ k - 1) ≤ A * ((1 + 1 / 2 ^ p) ^ (n + k) - 1) := by
  have h1 : (1 : ℚ) ≤ (1 + 1 / 2 ^ p) ^ n := one_le_pow₀ (hi_ge p)
  have h2 : (1 : ℚ) ≤ (1 + 1 / 2 ^ p) ^ k := one_le_pow₀ (hi_ge p)
  have : (1 + 1 / 2 ^ p) ^ n - 1 + ((1 + 1 / 2 ^ p) ^ k - 1) ≤ ((1 : ℚ) + 1 / 2 ^ p) ^ (n + k) - 1 := by rw [pow_add]; nlinarith
  calc _ = A * ((1 + 1 / 2 ^ p) ^ n - 1 + ((1 + 1 / 2 ^ p) ^ k - 1)) := by ring
    _ ≤ _ := mul_le_mul_of_nonneg_left this hA

/-- A sum: the roundings of both sides and one more. -/
theorem near_add {k : ℕ} (hF : p ≤ F.prec) (hA : A * (1 + 1 / 2 ^ p) ^ (n + k + 1) < 2 ^ (F.emax + 1)) {x y : Fl F} (hab : |a + b| ≤ A)
    (hx : Near F p A n x a) (hy : Near F p A k y b) : Near F p A (n + k + 1) (x + y) (a + b) := by
  obtain ⟨q, rfl, hq⟩ := hx
  obtain ⟨s, rfl, hs⟩ := hy
  change Near F p A (n + k + 1) (F.round (q + s)) (a + b)
  refine near_round hF hA hab ?_
  have e : q + s - (a + b) = (q - a) + (s - b) := by ring
  rw [e]
  exact (abs_add_le _ _).trans ((add_le_add hq hs).trans (pow_both p n k ((abs_nonneg _).trans hab)))

theorem near_sub {k : ℕ} (hF : p ≤ F.prec) (hA : A * (1 + 1 / 2 ^ p) ^ (n + k + 1) < 2 ^ (F.emax + 1)) {x y : Fl F} (hab : |a - b| ≤ A)
    (hx : Near F p A n x a) (hy : Near F p A k y b) : Near F p A (n + k + 1) (x - y) (a - b) := by
  obtain ⟨s, rfl, hs⟩ := hy
  rw [sub_eq_add_neg] at hab ⊢
  refine near_add (y := (Flt.fin (-s) : Fl F)) hF hA hab hx ⟨-s, rfl, ?_⟩
  rw [show -s - -b = -(s - b) by ring, abs_neg]
  exact hs

end

/-- The values of `log2` for positive integers. -/
structure LogTable (lg : ℕ → Fl float64) (ν : ℕ → ℚ) : Prop where
  fin : ∀ d, 1 ≤ d → lg d = Flt.fin (ν d)
  nonneg : ∀ d, 1 ≤ d → 0 ≤ ν d

section
variable {F : FloatFormat} {p : ℕ} {lg : ℕ → Fl float64} {ν : ℕ → ℚ} {dims : Dims} {U : ISet}

theorem posDims_at (h : PosDims dims U) {x : ℕ} (hx : x ∈ U) : 1 ≤ dims.get x := by
  cases dims with
  | int d => exact h
  | vec l => exact h x hx

theorem exactWidth_eq (xs : ISet) : simpleWidth ν dims xs = ∑ x ∈ xs, ν (dims.get x) := by
  cases dims with
  | int d => simp [simpleWidth, Dims.get]
  | vec l => rfl

theorem exactWidth_mono (hν : LogTable lg ν) (hd : PosDims dims U) {xs ys : ISet} (h : xs ⊆ ys) (hU : ys ⊆ U) :
    simpleWidth ν dims xs ≤ simpleWidth ν dims ys := by
  rw [exactWidth_eq, exactWidth_eq]
  exact Finset.sum_le_sum_of_subset_of_nonneg h fun i hi _ => hν.nonneg _ (posDims_at hd (hU hi))

theorem exactWidth_nonneg (hν : LogTable lg ν) (hd : PosDims dims U) {xs : ISet} (hU : xs ⊆ U) : 0 ≤ simpleWidth ν dims xs := by
  rw [exactWidth_eq]
  exact Finset.sum_nonneg fun i hi => hν.nonneg _ (posDims_at hd (hU hi))

theorem exactWidth_erase {xs : ISet} {x : ℕ} (hx : x ∈ xs) : simpleWidth ν dims (xs.erase x) = simpleWidth ν dims xs - ν (dims.get x) := by
  rw [exactWidth_eq, exactWidth_eq, ← Finset.add_sum_erase _ _ hx]; ring

theorem log_le (hν : LogTable lg ν) (hd : PosDims dims U) {x : ℕ} (hx : x ∈ U) : ν (dims.get x) ≤ simpleWidth ν dims U := by
  rw [exactWidth_eq]
  exact Finset.single_le_sum (f := fun i => ν (dims.get i)) (fun i hi => hν.nonneg _ (posDims_at hd hi)) hx

/-- The assumptions on the format: `p` bits in the width type and in `double`, and room for the widths. -/
structure WidthFits (F : FloatFormat) (p : ℕ) (ν : ℕ → ℚ) (dims : Dims) (U : ISet) (N : ℕ) : Prop where
  prec : p ≤ F.prec
  prec64 : p ≤ 53
  card : U.card ≤ 2 ^ 53
  room : simpleWidth ν dims U * (1 + 1 / 2 ^ p) ^ N < 2 ^ (F.emax + 1)
  room64 : simpleWidth ν dims U * (1 + 1 / 2 ^ p) ^ N < 2 ^ 1024

theorem WidthFits.at {N : ℕ} (h : WidthFits F p ν dims U N) (h0 : 0 ≤ simpleWidth ν dims U) {k : ℕ} (hk : k ≤ N) :
    simpleWidth ν dims U * (1 + 1 / 2 ^ p) ^ k < 2 ^ (F.emax + 1) ∧ simpleWidth ν dims U * (1 + 1 / 2 ^ p) ^ k < 2 ^ (float64.emax + 1) := by
  have : simpleWidth ν dims U * (1 + 1 / 2 ^ p) ^ k ≤ simpleWidth ν dims U * (1 + 1 / 2 ^ p) ^ N :=
    mul_le_mul_of_nonneg_left (pow_le_pow_right₀ (hi_ge p) hk) h0
  exact ⟨this.trans_lt h.room, this.trans_lt h.room64⟩

/-- A `double` in the width type. -/
theorem near_lg {N : ℕ} (h : WidthFits F p ν dims U N) (hN : 1 ≤ N) (hν : LogTable lg ν) (hd : PosDims dims U) {x : ℕ} (hx : x ∈ U) :
    Near F p (simpleWidth ν dims U) 1 (F.convert (lg (dims.get x))) (ν (dims.get x)) := by
  have h0 := exactWidth_nonneg hν hd (Finset.Subset.refl U)
  rw [hν.fin _ (posDims_at hd hx)]
  refine near_round (n := 0) h.prec (h.at h0 hN).1 ?_ (by simp)
  rw [abs_of_nonneg (hν.nonneg _ (posDims_at hd hx))]
  exact log_le hν hd hx

theorem near_addDouble {N n : ℕ} (h : WidthFits F p ν dims U N) (hn : n + 2 ≤ N) (hν : LogTable lg ν) (hd : PosDims dims U) {x : ℕ} (hx : x ∈ U)
    {w : Fl F} {a : ℚ} (hab : |a + ν (dims.get x)| ≤ simpleWidth ν dims U)
    (hw : Near F p (simpleWidth ν dims U) n w a) :
    Near F p (simpleWidth ν dims U) (n + 2) (addDouble F w (lg (dims.get x))) (a + ν (dims.get x)) := by
  have h0 := exactWidth_nonneg hν hd (Finset.Subset.refl U)
  unfold addDouble
  by_cases hp : F.prec ≤ float64.prec
  · rw [if_pos hp]
    obtain ⟨q, rfl, hq⟩ := hw
    rw [hν.fin _ (posDims_at hd hx)]
    have h1 : Near float64 p (simpleWidth ν dims U) (n + 1) (float64.round (q + ν (dims.get x))) (a + ν (dims.get x)) := by
      refine near_round h.prec64 (h.at h0 (by omega)).2 hab ?_
      rw [add_sub_add_right_eq_sub]; exact hq
    exact near_convert h.prec (h.at h0 hn).1 hab h1
  · rw [if_neg hp]
    exact near_add h.prec (h.at h0 hn).1 hab hw (near_lg h (by omega) hν hd hx)

/-- The width of a tensor. -/
theorem floatWidth_near {N : ℕ} (h : WidthFits F p ν dims U N) (hν : LogTable lg ν) (hd : PosDims dims U) {xs : ISet} (hU : xs ⊆ U)
    (hN : 2 * xs.card + 3 ≤ N) : Near F p (simpleWidth ν dims U) (2 * xs.card + 3) (floatWidth F lg dims xs) (simpleWidth ν dims xs) := by
  have h0 := exactWidth_nonneg hν hd (Finset.Subset.refl U)
  have hx0 := exactWidth_nonneg hν hd hU
  have hle : |simpleWidth ν dims xs| ≤ simpleWidth ν dims U := by
    rw [abs_of_nonneg hx0]; exact exactWidth_mono hν hd hU (Finset.Subset.refl U)
  cases dims with
  | int d =>
    refine Near.mono h0 (k := 3) (by omega) ?_
    change Near F p _ 3 (F.convert (Flt.mul float64.round (lg d) (float64.ofNat xs.card))) _
    have hd1 : 1 ≤ d := hd
    have hnat := hν.nonneg d hd1
    have hw : simpleWidth ν (.int d) xs = xs.card * ν d := by simp [simpleWidth]
    rw [hν.fin d hd1]
    have hcard : (xs.card : ℚ) ≤ 2 ^ 53 := by exact_mod_cast (Finset.card_le_card hU).trans h.card
    have hu : (1 : ℚ) + 1 / 2 ^ p ≤ 2 := by
      have : (1 : ℚ) / 2 ^ p ≤ 1 := by rw [div_le_one (by positivity)]; exact one_le_pow₀ (by norm_num)
      linarith
    have hc : Near float64 p (xs.card : ℚ) 1 (float64.ofNat xs.card) (xs.card : ℚ) := by
      refine near_round (n := 0) h.prec64 ?_ (by simp) (by simp)
      calc (xs.card : ℚ) * (1 + 1 / 2 ^ p) ^ (0 + 1) ≤ 2 ^ 53 * 2 := by
            rw [zero_add, pow_one]; exact mul_le_mul hcard hu (by positivity) (by positivity)
        _ = 2 ^ 54 := by norm_num
        _ < 2 ^ (1023 + 1) := pow_lt_pow_right₀ (by norm_num) (by norm_num)
    obtain ⟨q, e, hq⟩ := hc
    rw [e]
    change Near F p _ 3 (F.convert (float64.round (ν d * q))) _
    refine near_convert h.prec (h.at h0 (by omega)).1 hle (near_round (n := 1) h.prec64 (h.at h0 (by omega)).2 hle ?_)
    rw [hw, mul_comm (xs.card : ℚ), ← mul_sub, abs_mul, abs_of_nonneg hnat]
    rw [abs_of_nonneg hx0, hw] at hle
    have h1 : (0 : ℚ) ≤ (1 + 1 / 2 ^ p) ^ 1 - 1 := by linarith [hi_ge p]
    calc ν d * |q - xs.card| ≤ ν d * (xs.card * ((1 + 1 / 2 ^ p) ^ 1 - 1)) := mul_le_mul_of_nonneg_left hq hnat
      _ = (xs.card * ν d) * ((1 + 1 / 2 ^ p) ^ 1 - 1) := by ring
      _ ≤ _ := mul_le_mul_of_nonneg_right hle h1
  | vec l =>
    refine Near.mono h0 (k := 2 * xs.card) (by omega) ?_
    have key : ∀ (ps : List ℕ), ps.Nodup → (∀ x ∈ ps, x ∈ U) → ∀ (w : Fl F) (a : ℚ) (n : ℕ), n + 2 * ps.length ≤ N → 0 ≤ a →
        a + (ps.map fun x => ν (l.getD x 0)).sum ≤ simpleWidth ν (.vec l) U → Near F p (simpleWidth ν (.vec l) U) n w a →
        Near F p (simpleWidth ν (.vec l) U) (n + 2 * ps.length) (ps.foldl (fun w p => addDouble F w (lg (l.getD p 0))) w)
          (a + (ps.map fun x => ν (l.getD x 0)).sum) := by
      intro ps
      induction ps with
      | nil => intro _ _ w a n _ _ _ hw; simpa using hw
      | cons x ps ih =>
        intro hnd hm w a n hn ha hs hw
        simp only [List.length_cons] at hn
        simp only [List.map_cons, List.sum_cons, List.foldl_cons, List.length_cons] at hs ⊢
        have hx := hm x (by simp)
        have hpos := hν.nonneg _ (posDims_at hd hx)
        have htail : 0 ≤ (ps.map fun x => ν (l.getD x 0)).sum := List.sum_nonneg (by
          intro y hy
          obtain ⟨z, hz, rfl⟩ := List.mem_map.1 hy
          exact hν.nonneg _ (posDims_at (x := z) hd (hm z (by simp [hz]))))
        change 0 ≤ ν (l.getD x 0) at hpos
        have h1 := near_addDouble (n := n) h (by omega) hν hd hx (a := a) (by
          change |a + ν (l.getD x 0)| ≤ _
          rw [abs_of_nonneg (by linarith)]; linarith) hw
        have h2 := ih (List.nodup_cons.1 hnd).2 (fun y hy => hm y (by simp [hy])) _ (a + ν (l.getD x 0)) (n + 2) (by omega) (by linarith) (by linarith) h1
        rw [show n + 2 * (ps.length + 1) = n + 2 + 2 * ps.length by ring, ← add_assoc]
        exact h2
    have e : ((ISet.positions xs).map fun x => ν (l.getD x 0)).sum = simpleWidth ν (.vec l) xs := by
      have : (ISet.positions xs).toFinset = xs := by ext x; rw [List.mem_toFinset]; exact ISet.mem_positions
      rw [simpleWidth]
      conv_rhs => rw [← this]
      rw [List.sum_toFinset _ (ISet.positions_nodup xs)]
    have := key (ISet.positions xs) (ISet.positions_nodup xs) (fun x hx => hU (ISet.mem_positions.1 hx)) 0 0 0
      (by rw [positions_length]; omega) (le_refl _) (by rw [e, zero_add]; exact (abs_le.1 hle).2) ⟨0, rfl, by simp⟩
    rw [e, positions_length, zero_add, zero_add] at this
    exact this

end

/-- The error of `N` roundings of a width of at most `A`. -/
def widthError (p N : ℕ) (A : ℚ) : ℚ := A * ((1 + 1 / 2 ^ p) ^ N - 1)

/-- A width model that computes the widths `ω` up to `n0` roundings, and the differences up to `s` roundings, of numbers of at most `A`. -/
structure WidthApprox (F : FloatFormat) (p n0 s : ℕ) (A : ℚ) (U ks : ISet) (wm : WidthModel (Fl F)) (ω : ISet → ℚ) (μ : ℚ) : Prop where
  prec : p ≤ F.prec
  max : wm.maxWidth = Fl.of (Flt.fin μ)
  nonneg : ∀ {xs : ISet}, xs ⊆ U → 0 ≤ ω xs
  mono : ∀ {xs ys : ISet}, xs ⊆ ys → ys ⊆ U → ω xs ≤ ω ys
  bound : ∀ {xs : ISet}, xs ⊆ U → ω xs ≤ A
  room : A * (1 + 1 / 2 ^ p) ^ (n0 + (s + 1) * U.card) < 2 ^ (F.emax + 1)
  fresh : ∀ {xs : ISet}, xs ⊆ U → Near F p A n0 (wm.width xs) (ω xs)
  delta : ∀ {xs : ISet} {x : ℕ}, xs ⊆ U → x ∈ xs → Near F p A s (wm.delta xs x) (ω (xs.erase x) - ω xs)
  log : ∀ {xs : ISet} {x : ℕ}, xs ⊆ U → x ∈ xs → x ∉ ks → Near F p A s (wm.log2d x) (ω xs - ω (xs.erase x))

section
variable {F : FloatFormat} {p n0 s : ℕ} {U ks : ISet} {wm : WidthModel (Fl F)} {ω : ISet → ℚ} {A μ : ℚ}

/-- The relation between a computed width and an index set that the optimizer maintains. -/
def WidthNear (F : FloatFormat) (p n0 s : ℕ) (A : ℚ) (ω : ISet → ℚ) (U : ISet) (w : Fl F) (xs : ISet) : Prop :=
  Near F p A (n0 + (s + 1) * (U.card - xs.card)) w (ω xs)

theorem widthNear_step (h : WidthApprox F p n0 s A U ks wm ω μ) {w y : Fl F} {xs : ISet} {x : ℕ} (hU : xs ⊆ U) (hx : x ∈ xs)
    (hw : WidthNear F p n0 s A ω U w xs)
    (hy : ∀ n, A * (1 + 1 / 2 ^ p) ^ (n + s + 1) < 2 ^ (F.emax + 1) → Near F p A n w (ω xs) →
      Near F p A (n + s + 1) y (ω (xs.erase x))) : WidthNear F p n0 s A ω U y (xs.erase x) := by
  have h1 := Finset.card_le_card hU
  have h2 := Finset.card_pos.2 ⟨x, hx⟩
  unfold WidthNear at hw ⊢
  rw [Finset.card_erase_of_mem hx]
  have e : n0 + (s + 1) * (U.card - (xs.card - 1)) = n0 + (s + 1) * (U.card - xs.card) + s + 1 := by
    rw [show U.card - (xs.card - 1) = U.card - xs.card + 1 by omega]; ring
  rw [e]
  refine hy _ (lt_of_le_of_lt ?_ h.room) hw
  rw [← e]
  refine mul_le_mul_of_nonneg_left (pow_le_pow_right₀ (hi_ge p) ?_) ((h.nonneg (Finset.Subset.refl U)).trans (h.bound (Finset.Subset.refl U)))
  exact Nat.add_le_add_left (Nat.mul_le_mul_left _ (Nat.sub_le _ _)) _

theorem approx_rel (h : WidthApprox F p n0 s A U ks wm ω μ) :
    WidthRel wm U ks (WidthNear F p n0 s A ω U) (fun xs => ω (xs ∩ U) ≤ μ + widthError p (n0 + (s + 1) * U.card) A)
      (fun xs => μ - widthError p (n0 + (s + 1) * U.card) A < ω (xs ∩ U)) := by
  have h0 := (h.nonneg (Finset.Subset.refl U)).trans (h.bound (Finset.Subset.refl U))
  have habs : ∀ {xs : ISet}, xs ⊆ U → |ω xs| ≤ A := fun hU => by
    rw [abs_of_nonneg (h.nonneg hU)]; exact h.bound hU
  have hval : ∀ {w : Fl F} {xs : ISet}, xs ⊆ U → WidthNear F p n0 s A ω U w xs →
      ∃ q : ℚ, w = Flt.fin q ∧ |q - ω (xs ∩ U)| ≤ widthError p (n0 + (s + 1) * U.card) A := by
    intro w xs hU hw
    rw [Finset.inter_eq_left.2 hU]
    exact Near.mono h0 (Nat.add_le_add_left (Nat.mul_le_mul_left _ (Nat.sub_le _ _)) _) hw
  constructor
  · intro xs hU
    exact (h.fresh hU).mono h0 (by omega)
  · intro w xs x hU hx hw
    refine widthNear_step h hU hx hw fun n hn hw => ?_
    have e : ω (xs.erase x) = ω xs + (ω (xs.erase x) - ω xs) := by ring
    rw [e]
    exact near_add h.prec hn (by rw [← e]; exact habs ((Finset.erase_subset _ _).trans hU)) hw (h.delta hU hx)
  · intro w xs x hU hx hk hw
    refine widthNear_step h hU hx hw fun n hn hw => ?_
    have e : ω (xs.erase x) = ω xs - (ω xs - ω (xs.erase x)) := by ring
    rw [e]
    exact near_sub h.prec hn (by rw [← e]; exact habs ((Finset.erase_subset _ _).trans hU)) hw (h.log hU hx hk)
  · intro w xs hU hw hle
    rw [h.max] at hle
    obtain ⟨q, rfl, hq⟩ := hval hU hw
    have : q ≤ μ := of_decide_eq_true hle
    linarith [(abs_le.1 hq).1]
  · intro w xs hU hw hlt
    rw [h.max] at hlt
    obtain ⟨q, rfl, hq⟩ := hval hU hw
    have : ¬ μ < q := fun h => hlt (decide_eq_true h)
    linarith [(abs_le.1 hq).1]
  · intro w xs hU hw hlt
    rw [h.max] at hlt
    obtain ⟨q, rfl, hq⟩ := hval hU hw
    have : μ < q := of_decide_eq_true hlt
    linarith [(abs_le.1 hq).2]
  · intro xs ys hs hy
    exact (h.mono (Finset.inter_subset_inter_right hs) Finset.inter_subset_right).trans hy

end

section
variable {F : FloatFormat} {p : ℕ} {lg : ℕ → Fl float64} {ν : ℕ → ℚ} {dims : Dims} {U : ISet} {μ : ℚ}

/-- `simple.hpp`: `2 n + 3` roundings for a width and one for a difference. -/
theorem floatWidth_approx (hF : WidthFits F p ν dims U (4 * U.card + 3)) (hν : LogTable lg ν) (hd : PosDims dims U) (ks : ISet)
    {wm : WidthModel (Fl F)} (hwm : floatWidthModel F lg dims (Fl.of (Flt.fin μ)) = some wm) :
    WidthApprox F p (2 * U.card + 3) 1 (simpleWidth ν dims U) U ks wm (simpleWidth ν dims) μ := by
  have h0 := exactWidth_nonneg hν hd (Finset.Subset.refl U)
  unfold floatWidthModel at hwm
  by_cases hb : (Fl.of (Flt.fin μ) : Fl F) < 0
  · rw [if_pos hb] at hwm; cases hwm
  rw [if_neg hb, Option.some.injEq] at hwm
  subst hwm
  refine ⟨hF.prec, rfl, fun hU => exactWidth_nonneg hν hd hU, fun h hU => exactWidth_mono hν hd h hU,
    fun hU => exactWidth_mono hν hd hU (Finset.Subset.refl U), ?_, ?_, ?_, ?_⟩
  · have := hF.room
    rwa [show 2 * U.card + 3 + (1 + 1) * U.card = 4 * U.card + 3 by ring]
  · intro xs hU
    have := Finset.card_le_card hU
    exact (floatWidth_near hF hν hd hU (by omega)).mono h0 (by omega)
  · intro xs x hU hx
    have e : floatDelta F lg dims xs x = F.convert (Flt.neg (lg (dims.get x))) := congrArg F.convert (if_pos hx)
    change Near F p _ 1 (floatDelta F lg dims xs x) _
    rw [e, hν.fin _ (posDims_at hd (hU hx)), exactWidth_erase hx, show simpleWidth ν dims xs - ν (dims.get x) - simpleWidth ν dims xs = - ν (dims.get x) by ring]
    refine near_round (n := 0) hF.prec (hF.at h0 (by omega)).1 ?_ (by simp)
    rw [abs_neg, abs_of_nonneg (hν.nonneg _ (posDims_at hd (hU hx)))]; exact log_le hν hd (hU hx)
  · intro xs x hU hx _
    rw [exactWidth_erase hx, sub_sub_cancel]
    exact near_lg hF (by omega) hν hd (hU hx)

/-! ### Sparse indices -/

theorem minW_le_left (x y : ℚ) : minW x y ≤ x := by unfold minW; split <;> linarith

theorem minW_le_right (x y : ℚ) : minW x y ≤ y := by unfold minW; split <;> linarith

theorem minW_mono {x y : ℚ} (h : x ≤ y) (z : ℚ) : minW x z ≤ minW y z := by unfold minW; split <;> split <;> linarith

theorem minW_nonneg {x y : ℚ} (hx : 0 ≤ x) (hy : 0 ≤ y) : 0 ≤ minW x y := by unfold minW; split <;> assumption

theorem near_minDouble {A a : ℚ} {n : ℕ} (hF : p ≤ F.prec) (hA : A * (1 + 1 / 2 ^ p) ^ (n + 1) < 2 ^ (F.emax + 1)) {x : Fl F} {y : ℚ} (ha : |a| ≤ A)
    (ha0 : 0 ≤ a) (hy0 : 0 ≤ y) (hx : Near F p A n x a) : Near F p A (n + 1) (minDouble F x (Flt.fin y)) (minW a y) := by
  have hA0 : 0 ≤ A := (abs_nonneg _).trans ha
  obtain ⟨q, rfl, hq⟩ := hx
  have hm : |minW a y| ≤ A := by
    rw [abs_of_nonneg (minW_nonneg ha0 hy0)]
    exact (minW_le_left _ _).trans ((le_abs_self _).trans ha)
  unfold minDouble
  by_cases h : q < y
  · have e : Flt.ltb (Flt.fin q) (Flt.fin y) = true := decide_eq_true h
    refine Near.mono hA0 (Nat.le_succ n) ⟨q, if_pos e, ?_⟩
    unfold minW
    split
    · exact hq
    · next hay =>
      refine le_trans ?_ hq
      rw [abs_of_nonpos (by linarith), abs_of_nonpos (by linarith)]; linarith
  · have e : ¬ Flt.ltb (Flt.fin q) (Flt.fin y) = true := by
      intro h'; exact h (of_decide_eq_true h')
    have hr := near_round hF hA (q := y) hm (n := n) (by
      refine le_trans ?_ hq
      unfold minW
      split
      · rw [abs_of_nonneg (by linarith), abs_of_nonneg (by linarith)]; linarith
      · simp)
    have e2 : (if Flt.ltb (Flt.fin q) (Flt.fin y) = true then (Flt.fin q : Fl F) else F.convert (Flt.fin y)) = F.round y := if_neg e
    rw [← e2] at hr
    exact hr

section
variable {sparse : ISet} {nProjs : ℕ}

theorem sparseWidth_nonneg (hν : LogTable lg ν) (hn : 1 ≤ nProjs) (hd : PosDims dims U) {xs : ISet} (hU : xs ⊆ U) :
    0 ≤ sparseWidth ν dims sparse nProjs xs :=
  add_nonneg (exactWidth_nonneg hν hd (Finset.sdiff_subset.trans hU))
    (minW_nonneg (exactWidth_nonneg hν hd (Finset.inter_subset_left.trans hU)) (hν.nonneg _ hn))

theorem sparseWidth_mono (hν : LogTable lg ν) (hd : PosDims dims U) {xs ys : ISet} (h : xs ⊆ ys) (hU : ys ⊆ U) :
    sparseWidth ν dims sparse nProjs xs ≤ sparseWidth ν dims sparse nProjs ys :=
  add_le_add (exactWidth_mono hν hd (Finset.sdiff_subset_sdiff h (Finset.Subset.refl _)) (Finset.sdiff_subset.trans hU))
    (minW_mono (exactWidth_mono hν hd (Finset.inter_subset_inter_right h) (Finset.inter_subset_left.trans hU)) _)

theorem sparseWidth_le (hν : LogTable lg ν) (hd : PosDims dims U) {xs : ISet} (hU : xs ⊆ U) :
    sparseWidth ν dims sparse nProjs xs ≤ simpleWidth ν dims U := by
  have e : simpleWidth ν dims (xs \ sparse) + simpleWidth ν dims (xs ∩ sparse) = simpleWidth ν dims xs := by
    rw [exactWidth_eq, exactWidth_eq, exactWidth_eq, ← Finset.sum_union (Finset.disjoint_sdiff_inter xs sparse), Finset.sdiff_union_inter]
  refine le_trans ?_ (exactWidth_mono hν hd hU (Finset.Subset.refl U))
  rw [← e]
  exact add_le_add_right (minW_le_left _ _) _

theorem sparseWidth_erase {xs : ISet} {x : ℕ} (hx : x ∈ xs) (hxs : x ∉ sparse) :
    sparseWidth ν dims sparse nProjs (xs.erase x) = sparseWidth ν dims sparse nProjs xs - ν (dims.get x) := by
  have h1 : xs.erase x \ sparse = (xs \ sparse).erase x := by ext y; simp only [Finset.mem_sdiff, Finset.mem_erase]; tauto
  have h2 : xs.erase x ∩ sparse = xs ∩ sparse := by
    ext y
    simp only [Finset.mem_inter, Finset.mem_erase]
    constructor
    · rintro ⟨⟨-, h⟩, h'⟩; exact ⟨h, h'⟩
    · rintro ⟨h, h'⟩; exact ⟨⟨by rintro rfl; exact hxs h', h⟩, h'⟩
  unfold sparseWidth
  rw [h1, h2, exactWidth_erase (Finset.mem_sdiff.2 ⟨hx, hxs⟩)]; ring

theorem minDouble_near {N : ℕ} (hF : WidthFits F p ν dims U N) (hν : LogTable lg ν) (hn : 1 ≤ nProjs) (hd : PosDims dims U) {xs : ISet} (hU : xs ⊆ U)
    (hN : 2 * xs.card + 4 ≤ N) :
    Near F p (simpleWidth ν dims U) (2 * xs.card + 4) (minDouble F (floatWidth F lg dims xs) (lg nProjs)) (minW (simpleWidth ν dims xs) (ν nProjs)) := by
  have h0 := exactWidth_nonneg hν hd (Finset.Subset.refl U)
  have hx0 := exactWidth_nonneg hν hd hU
  rw [hν.fin _ hn]
  refine near_minDouble hF.prec (hF.at h0 hN).1 ?_ hx0 (hν.nonneg _ hn) (floatWidth_near hF hν hd hU (by omega))
  rw [abs_of_nonneg hx0]; exact exactWidth_mono hν hd hU (Finset.Subset.refl U)

/-- `simple_sparse_inds.hpp`: `2 n + 8` roundings for a width and `4 n + 9` for a difference. -/
theorem floatSparseWidth_approx (hF : WidthFits F p ν dims U (2 * U.card + 8 + (4 * U.card + 10) * U.card)) (hν : LogTable lg ν) (hd : PosDims dims U)
    {wm : WidthModel (Fl F)} (hwm : floatSparseWidthModel F lg dims (Fl.of (Flt.fin μ)) sparse nProjs = some wm) :
    WidthApprox F p (2 * U.card + 8) (4 * U.card + 9) (simpleWidth ν dims U) U sparse wm (sparseWidth ν dims sparse nProjs) μ := by
  have h0 := exactWidth_nonneg hν hd (Finset.Subset.refl U)
  unfold floatSparseWidthModel at hwm
  by_cases hb : (Fl.of (Flt.fin μ) : Fl F) < 0
  · rw [if_pos hb] at hwm; cases hwm
  rw [if_neg hb] at hwm
  by_cases hz : nProjs = 0
  · rw [if_pos hz] at hwm; cases hwm
  rw [if_neg hz, Option.some.injEq] at hwm
  subst hwm
  have hn : 1 ≤ nProjs := by omega
  refine ⟨hF.prec, rfl, fun hU => sparseWidth_nonneg hν hn hd hU, fun h hU => sparseWidth_mono hν hd h hU,
    fun hU => sparseWidth_le hν hd hU, hF.room, ?_, ?_, ?_⟩
  · intro xs hU
    have hc := Finset.card_le_card hU
    have hs := Finset.card_sdiff_add_card_inter xs sparse
    have h1 := floatWidth_near hF hν hd (Finset.sdiff_subset.trans hU : xs \ sparse ⊆ U) (by omega)
    have h2 := minDouble_near hF hν hn hd (Finset.inter_subset_left.trans hU : xs ∩ sparse ⊆ U) (by omega)
    refine Near.mono h0 (k := 2 * (xs \ sparse).card + 3 + (2 * (xs ∩ sparse).card + 4) + 1) (by omega) ?_
    refine near_add hF.prec (hF.at h0 (by omega)).1 ?_ h1 h2
    change |sparseWidth ν dims sparse nProjs xs| ≤ _
    rw [abs_of_nonneg (sparseWidth_nonneg hν hn hd hU)]
    exact sparseWidth_le hν hd hU
  · intro xs x hU hx
    have hc := Finset.card_le_card hU
    have hpos : 1 ≤ U.card := Finset.card_pos.2 ⟨x, hU hx⟩
    have hsq : 4 * U.card + 10 ≤ (4 * U.card + 10) * U.card := Nat.le_mul_of_pos_right _ hpos
    change Near F p _ _ (floatSparseDelta F lg dims sparse nProjs xs x) _
    by_cases hxs : x ∈ sparse
    · have e : floatSparseDelta F lg dims sparse nProjs xs x =
          minDouble F (floatWidth F lg dims (xs.toggle x ∩ sparse)) (lg nProjs) - minDouble F (floatWidth F lg dims (xs ∩ sparse)) (lg nProjs) :=
        if_pos hxs
      have et : xs.toggle x = xs.erase x := if_pos hx
      rw [e, et]
      have h1 := minDouble_near hF hν hn hd ((Finset.inter_subset_left.trans (Finset.erase_subset _ _)).trans hU : xs.erase x ∩ sparse ⊆ U) (by
        have := Finset.card_le_card ((Finset.inter_subset_left.trans (Finset.erase_subset _ _)).trans hU : xs.erase x ∩ sparse ⊆ U)
        omega)
      have h2 := minDouble_near hF hν hn hd (Finset.inter_subset_left.trans hU : xs ∩ sparse ⊆ U) (by
        have := Finset.card_le_card (Finset.inter_subset_left.trans hU : xs ∩ sparse ⊆ U)
        omega)
      have c1 := Finset.card_le_card ((Finset.inter_subset_left.trans (Finset.erase_subset _ _)).trans hU : xs.erase x ∩ sparse ⊆ U)
      have c2 := Finset.card_le_card (Finset.inter_subset_left.trans hU : xs ∩ sparse ⊆ U)
      refine Near.mono h0 (k := 2 * (xs.erase x ∩ sparse).card + 4 + (2 * (xs ∩ sparse).card + 4) + 1) (by omega) ?_
      have hd' : sparseWidth ν dims sparse nProjs (xs.erase x) - sparseWidth ν dims sparse nProjs xs =
          minW (simpleWidth ν dims (xs.erase x ∩ sparse)) (ν nProjs) - minW (simpleWidth ν dims (xs ∩ sparse)) (ν nProjs) := by
        have : xs.erase x \ sparse = xs \ sparse := by
          ext y
          simp only [Finset.mem_sdiff, Finset.mem_erase]
          constructor
          · rintro ⟨⟨-, h⟩, h'⟩; exact ⟨h, h'⟩
          · rintro ⟨h, h'⟩; exact ⟨⟨by rintro rfl; exact h' hxs, h⟩, h'⟩
        unfold sparseWidth
        rw [this]; ring
      rw [hd']
      refine near_sub hF.prec (hF.at h0 (by omega)).1 ?_ h1 h2
      have m1 := minW_nonneg (exactWidth_nonneg hν hd ((Finset.inter_subset_left.trans (Finset.erase_subset _ _)).trans hU : xs.erase x ∩ sparse ⊆ U))
        (hν.nonneg _ hn)
      have m2 := (minW_le_left (simpleWidth ν dims (xs ∩ sparse)) (ν nProjs)).trans
        (exactWidth_mono hν hd (Finset.inter_subset_left.trans hU : xs ∩ sparse ⊆ U) (Finset.Subset.refl U))
      have m3 := minW_mono (exactWidth_mono hν hd (Finset.inter_subset_inter_right (Finset.erase_subset x xs) : xs.erase x ∩ sparse ⊆ xs ∩ sparse)
        (Finset.inter_subset_left.trans hU)) (ν nProjs)
      rw [abs_of_nonpos (by linarith)]; linarith
    · have e : floatSparseDelta F lg dims sparse nProjs xs x = floatDelta F lg dims xs x := if_neg hxs
      have e2 : floatDelta F lg dims xs x = F.convert (Flt.neg (lg (dims.get x))) := congrArg F.convert (if_pos hx)
      rw [e, e2, hν.fin _ (posDims_at hd (hU hx)), sparseWidth_erase hx hxs,
        show sparseWidth ν dims sparse nProjs xs - ν (dims.get x) - sparseWidth ν dims sparse nProjs xs = - ν (dims.get x) by ring]
      refine Near.mono h0 (k := 1) (by omega) (near_round (n := 0) hF.prec (hF.at h0 (by omega)).1 ?_ (by simp))
      rw [abs_neg, abs_of_nonneg (hν.nonneg _ (posDims_at hd (hU hx)))]; exact log_le hν hd (hU hx)
  · intro xs x hU hx hxs
    rw [sparseWidth_erase hx hxs, sub_sub_cancel]
    exact Near.mono h0 (k := 1) (by omega) (near_lg hF (by omega) hν hd (hU hx))

end

end

/-! ### Dimensions that are powers of two -/

theorem roundEven_int (z : ℤ) : roundEven (z : ℚ) = z := by
  unfold roundEven
  rw [Int.floor_intCast, sub_self, if_pos (by norm_num)]

/-- Integers with at most `prec` bits are not rounded. -/
theorem round_int {F : FloatFormat} (hF : F.prec ≤ F.emax + 1) {z : ℤ} (hz : |z| < 2 ^ F.prec) : F.round (z : ℚ) = (Fl.of (Flt.fin z) : Fl F) := by
  have hr : roundTo F.prec (z : ℚ) = z := by
    unfold roundTo
    split
    · next h => rw [h]
    next h =>
    have hz0 : (0 : ℚ) < |(z : ℚ)| := abs_pos.2 h
    have hlog : Int.log 2 |(z : ℚ)| < F.prec := by
      rw [Int.lt_zpow_iff_log_lt (by norm_num) hz0 |>.symm]
      have : (|z| : ℚ) < 2 ^ F.prec := by exact_mod_cast hz
      exact_mod_cast this
    have hu : ulpExp F.prec (z : ℚ) ≤ 0 := by unfold ulpExp; omega
    obtain ⟨k, hk⟩ := Int.eq_ofNat_of_zero_le (neg_nonneg.2 hu)
    have e : ulpExp F.prec (z : ℚ) = -(k : ℤ) := by omega
    rw [e, zpow_neg, zpow_natCast, div_inv_eq_mul]
    have e2 : (z : ℚ) * 2 ^ k = ((z * 2 ^ k : ℤ) : ℚ) := by push_cast; ring
    rw [e2, roundEven_int]
    push_cast
    field_simp
  have hb : |(z : ℚ)| < 2 ^ (F.emax + 1) := by
    have : (|z| : ℚ) < 2 ^ F.prec := by exact_mod_cast hz
    exact this.trans_le (pow_le_pow_right₀ (by norm_num) hF)
  have hb := abs_lt.1 hb
  have h1 : ¬ 2 ^ (F.emax + 1) ≤ roundTo F.prec (z : ℚ) := by rw [hr]; exact not_le.2 hb.2
  have h2 : ¬ roundTo F.prec (z : ℚ) ≤ - 2 ^ (F.emax + 1) := by rw [hr]; exact not_le.2 hb.1
  have h3 : F.round (z : ℚ) = Flt.fin (roundTo F.prec z) := (if_neg h1).trans (if_neg h2)
  rw [h3, hr]; rfl

/-- A width model that computes the integers `κ` exactly. -/
structure WidthExact (F : FloatFormat) (U ks : ISet) (wm : WidthModel (Fl F)) (κ : ISet → ℕ) (μ : ℚ) : Prop where
  range : F.prec ≤ F.emax + 1
  max : wm.maxWidth = Fl.of (Flt.fin μ)
  mono : ∀ {xs ys : ISet}, xs ⊆ ys → κ xs ≤ κ ys
  room : κ U < 2 ^ F.prec
  fresh : ∀ {xs : ISet}, xs ⊆ U → wm.width xs = Fl.of (Flt.fin ((κ xs : ℤ) : ℚ))
  delta : ∀ {xs : ISet} {x : ℕ}, xs ⊆ U → x ∈ xs → wm.delta xs x = Fl.of (Flt.fin (((κ (xs.erase x) : ℤ) - κ xs : ℤ) : ℚ))
  log : ∀ {xs : ISet} {x : ℕ}, xs ⊆ U → x ∈ xs → x ∉ ks → wm.log2d x = Fl.of (Flt.fin (((κ xs : ℤ) - κ (xs.erase x) : ℤ) : ℚ))

theorem exact_rel {F : FloatFormat} {U ks : ISet} {wm : WidthModel (Fl F)} {κ : ISet → ℕ} {μ : ℚ} (h : WidthExact F U ks wm κ μ) :
    WidthRel wm U ks (fun w xs => w = Fl.of (Flt.fin ((κ xs : ℤ) : ℚ))) (fun xs => (κ (xs ∩ U) : ℚ) ≤ μ) (fun xs => μ < (κ (xs ∩ U) : ℚ)) := by
  have hb : ∀ {xs : ISet}, xs ⊆ U → |(κ xs : ℤ)| < 2 ^ F.prec := fun hU => by
    rw [abs_of_nonneg (by positivity)]
    exact_mod_cast (h.mono hU).trans_lt h.room
  constructor
  · intro xs hU; exact h.fresh hU
  · rintro w xs x hU hx rfl
    rw [h.delta hU hx]
    change F.round (((κ xs : ℤ) : ℚ) + (((κ (xs.erase x) : ℤ) - κ xs : ℤ) : ℚ)) = _
    rw [← Int.cast_add, add_sub_cancel]
    exact round_int h.range (hb ((Finset.erase_subset _ _).trans hU))
  · rintro w xs x hU hx hk rfl
    rw [h.log hU hx hk]
    change F.round (((κ xs : ℤ) : ℚ) + -(((κ xs : ℤ) - κ (xs.erase x) : ℤ) : ℚ)) = _
    rw [← Int.cast_neg, ← Int.cast_add, show (κ xs : ℤ) + -((κ xs : ℤ) - κ (xs.erase x)) = κ (xs.erase x) by ring]
    exact round_int h.range (hb ((Finset.erase_subset _ _).trans hU))
  · rintro w xs hU rfl hle
    rw [h.max] at hle
    rw [Finset.inter_eq_left.2 hU]
    have : ((κ xs : ℤ) : ℚ) ≤ μ := of_decide_eq_true hle
    simpa using this
  · rintro w xs hU rfl hlt
    rw [h.max] at hlt
    rw [Finset.inter_eq_left.2 hU]
    have : ¬ μ < ((κ xs : ℤ) : ℚ) := fun h => hlt (decide_eq_true h)
    simpa using this
  · rintro w xs hU rfl hlt
    rw [h.max] at hlt
    rw [Finset.inter_eq_left.2 hU]
    have : μ < ((κ xs : ℤ) : ℚ) := of_decide_eq_true hlt
    simpa using this
  · intro xs ys hs hy
    have := h.mono (Finset.inter_subset_inter_right (u := U) hs)
    exact (by exact_mod_cast this : (κ (xs ∩ U) : ℚ) ≤ κ (ys ∩ U)).trans hy

/-- All dimensions are powers of two. -/
def TwoDims (dims : Dims) (U : ISet) : Prop :=
  match dims with
  | .int d => ∃ e, d = 2 ^ e
  | .vec l => ∀ i ∈ U, ∃ e, l.getD i 0 = 2 ^ e

/-- The number of bits of an index into a tensor. -/
def bitWidth (dims : Dims) (xs : ISet) : ℕ := ∑ x ∈ xs, Nat.log 2 (dims.get x)

def sparseBitWidth (dims : Dims) (sparse : ISet) (nProjs : ℕ) (xs : ISet) : ℕ :=
  bitWidth dims (xs \ sparse) + min (bitWidth dims (xs ∩ sparse)) (Nat.log 2 nProjs)

theorem twoDims_at {dims : Dims} {U : ISet} (h : TwoDims dims U) {x : ℕ} (hx : x ∈ U) : dims.get x = 2 ^ Nat.log 2 (dims.get x) := by
  have : ∃ e, dims.get x = 2 ^ e := by
    cases dims with
    | int d => exact h
    | vec l => exact h x hx
  obtain ⟨e, he⟩ := this
  rw [he, Nat.log_pow (by norm_num)]

theorem bitWidth_mono (dims : Dims) {xs ys : ISet} (h : xs ⊆ ys) : bitWidth dims xs ≤ bitWidth dims ys :=
  Finset.sum_le_sum_of_subset h

theorem bitWidth_erase (dims : Dims) {xs : ISet} {x : ℕ} (hx : x ∈ xs) : bitWidth dims xs = Nat.log 2 (dims.get x) + bitWidth dims (xs.erase x) :=
  (Finset.add_sum_erase _ (fun x => Nat.log 2 (dims.get x)) hx).symm

/-- The size of a tensor. -/
theorem simpleGet_two {dims : Dims} {U : ISet} (h : TwoDims dims U) : simpleGet dims U = 2 ^ bitWidth dims U := by
  unfold bitWidth
  rw [← Finset.prod_pow_eq_pow_sum, ← Finset.prod_congr rfl fun x hx => twoDims_at h hx]
  cases dims with
  | int d => simp [simpleGet, Dims.get]
  | vec l => rfl

/-- `log2` is exact for powers of two. -/
def LogTwo (lg : ℕ → Fl float64) : Prop := ∀ e : ℕ, lg (2 ^ e) = Fl.of (Flt.fin (e : ℚ))

/-- Integers up to the widths of `U` are numbers of the format, and of `double`. -/
structure BitsFit (F : FloatFormat) (dims : Dims) (U : ISet) : Prop where
  range : F.prec ≤ F.emax + 1
  room : bitWidth dims U < 2 ^ F.prec
  room64 : bitWidth dims U < 2 ^ 53
  card : U.card < 2 ^ 53

section
variable {F : FloatFormat} {lg : ℕ → Fl float64} {dims : Dims} {U : ISet} {μ : ℚ}

theorem round_nat (hF : F.prec ≤ F.emax + 1) {n : ℕ} (hn : n < 2 ^ F.prec) : F.round (n : ℚ) = (Fl.of (Flt.fin (n : ℚ)) : Fl F) := by
  have := round_int hF (z := n) (by rw [abs_of_nonneg (by positivity)]; exact_mod_cast hn)
  simpa using this

theorem convert_log (h : BitsFit F dims U) (hd : TwoDims dims U) (hl : LogTwo lg) {x : ℕ} (hx : x ∈ U) :
    lg (dims.get x) = Fl.of (Flt.fin (Nat.log 2 (dims.get x) : ℚ)) ∧ F.convert (lg (dims.get x)) = Fl.of (Flt.fin (Nat.log 2 (dims.get x) : ℚ)) := by
  have e := hl (Nat.log 2 (dims.get x))
  rw [← twoDims_at hd hx] at e
  rw [e]
  refine ⟨rfl, round_nat h.range (lt_of_le_of_lt ?_ h.room)⟩
  rw [bitWidth_erase dims hx]; omega

theorem addDouble_exact (h : BitsFit F dims U) (hd : TwoDims dims U) (hl : LogTwo lg) {x : ℕ} (hx : x ∈ U) {n : ℕ}
    (hn : n + Nat.log 2 (dims.get x) ≤ bitWidth dims U) :
    addDouble F (Fl.of (Flt.fin (n : ℚ))) (lg (dims.get x)) = Fl.of (Flt.fin ((n + Nat.log 2 (dims.get x) : ℕ) : ℚ)) := by
  obtain ⟨e1, e2⟩ := convert_log h hd hl hx
  unfold addDouble
  by_cases hp : F.prec ≤ float64.prec
  · rw [if_pos hp, e1]
    have : (Flt.add float64.round (Fl.of (Flt.fin (n : ℚ)) : Fl F) (Fl.of (Flt.fin (Nat.log 2 (dims.get x) : ℚ)) : Fl float64)) =
        (Fl.of (Flt.fin ((n + Nat.log 2 (dims.get x) : ℕ) : ℚ)) : Fl float64) := by
      have := round_nat (F := float64) (by decide) (lt_of_le_of_lt hn h.room64)
      rw [← this, Nat.cast_add]; rfl
    rw [this]
    exact round_nat h.range (lt_of_le_of_lt hn h.room)
  · rw [if_neg hp, e2, ← round_nat h.range (lt_of_le_of_lt hn h.room), Nat.cast_add]; rfl

theorem floatWidth_bits (h : BitsFit F dims U) (hd : TwoDims dims U) (hl : LogTwo lg) {xs : ISet} (hU : xs ⊆ U) :
    floatWidth F lg dims xs = Fl.of (Flt.fin (bitWidth dims xs : ℚ)) := by
  have hle := bitWidth_mono dims hU
  cases dims with
  | int d =>
    obtain ⟨e, rfl⟩ : ∃ e, d = 2 ^ e := hd
    have hw : bitWidth (.int (2 ^ e)) xs = xs.card * e := by simp [bitWidth, Dims.get, Nat.log_pow]
    have e1 : float64.ofNat xs.card = Fl.of (Flt.fin (xs.card : ℚ)) := round_nat (by decide) ((Finset.card_le_card hU).trans_lt h.card)
    change F.convert (Flt.mul float64.round (lg (2 ^ e)) (float64.ofNat xs.card)) = _
    rw [hl e, e1]
    have e2 : Flt.mul float64.round (Fl.of (Flt.fin (e : ℚ)) : Fl float64) (Fl.of (Flt.fin (xs.card : ℚ)) : Fl float64) =
        (Fl.of (Flt.fin (bitWidth (.int (2 ^ e)) xs : ℚ)) : Fl float64) := by
      rw [← round_nat (F := float64) (by decide) (lt_of_le_of_lt hle h.room64), hw, Nat.cast_mul, mul_comm]; rfl
    rw [e2]
    exact round_nat h.range (lt_of_le_of_lt hle h.room)
  | vec l =>
    have key : ∀ (ps : List ℕ), (∀ x ∈ ps, x ∈ U) → ∀ (n : ℕ), n + (ps.map fun x => Nat.log 2 (l.getD x 0)).sum ≤ bitWidth (.vec l) U →
        ps.foldl (fun w p => addDouble F w (lg (l.getD p 0))) (Fl.of (Flt.fin (n : ℚ))) =
          Fl.of (Flt.fin ((n + (ps.map fun x => Nat.log 2 (l.getD x 0)).sum : ℕ) : ℚ)) := by
      intro ps
      induction ps with
      | nil => intro _ n _; simp
      | cons x ps ih =>
        intro hm n hn
        simp only [List.map_cons, List.sum_cons] at hn ⊢
        rw [List.foldl_cons]
        have h1 := addDouble_exact h hd hl (hm x (by simp)) (n := n) (by change n + Nat.log 2 (l.getD x 0) ≤ _; omega)
        change addDouble F (Fl.of (Flt.fin (n : ℚ))) (lg (l.getD x 0)) = Fl.of (Flt.fin ((n + Nat.log 2 (l.getD x 0) : ℕ) : ℚ)) at h1
        rw [h1, ih (fun y hy => hm y (by simp [hy])) _ (by omega), add_assoc]
    have e : ((ISet.positions xs).map fun x => Nat.log 2 (l.getD x 0)).sum = bitWidth (.vec l) xs := by
      have : (ISet.positions xs).toFinset = xs := by ext x; rw [List.mem_toFinset]; exact ISet.mem_positions
      unfold bitWidth
      conv_rhs => rw [← this]
      rw [List.sum_toFinset _ (ISet.positions_nodup xs)]; rfl
    have := key (ISet.positions xs) (fun x hx => hU (ISet.mem_positions.1 hx)) 0 (by rw [e, zero_add]; exact hle)
    rw [e, zero_add, Nat.cast_zero] at this
    exact this

theorem floatDelta_bits (h : BitsFit F dims U) (hd : TwoDims dims U) (hl : LogTwo lg) {xs : ISet} {x : ℕ} (hU : xs ⊆ U) (hx : x ∈ xs) :
    floatDelta F lg dims xs x = Fl.of (Flt.fin ((-(Nat.log 2 (dims.get x) : ℤ) : ℤ) : ℚ)) := by
  have e : floatDelta F lg dims xs x = F.convert (Flt.neg (lg (dims.get x))) := congrArg F.convert (if_pos hx)
  rw [e, (convert_log h hd hl (hU hx)).1]
  have := round_int h.range (z := -(Nat.log 2 (dims.get x) : ℤ)) (by
    rw [abs_neg, abs_of_nonneg (by positivity)]
    have := bitWidth_erase dims (hU hx)
    exact_mod_cast lt_of_le_of_lt (by omega) h.room)
  rw [← this]
  push_cast
  rfl

/-- `simple.hpp` -/
theorem floatWidth_exact (h : BitsFit F dims U) (hd : TwoDims dims U) (hl : LogTwo lg) (ks : ISet) {wm : WidthModel (Fl F)}
    (hwm : floatWidthModel F lg dims (Fl.of (Flt.fin μ)) = some wm) : WidthExact F U ks wm (bitWidth dims) μ := by
  unfold floatWidthModel at hwm
  by_cases hb : (Fl.of (Flt.fin μ) : Fl F) < 0
  · rw [if_pos hb] at hwm; cases hwm
  rw [if_neg hb, Option.some.injEq] at hwm
  subst hwm
  refine ⟨h.range, rfl, fun hs => bitWidth_mono dims hs, h.room, ?_, ?_, ?_⟩
  · intro xs hU
    rw [Int.cast_natCast]; exact floatWidth_bits h hd hl hU
  · intro xs x hU hx
    rw [bitWidth_erase dims hx, show ((bitWidth dims (xs.erase x) : ℤ) - ((Nat.log 2 (dims.get x) + bitWidth dims (xs.erase x) : ℕ) : ℤ)) =
      -(Nat.log 2 (dims.get x) : ℤ) by push_cast; ring]
    exact floatDelta_bits h hd hl hU hx
  · intro xs x hU hx _
    rw [bitWidth_erase dims hx, show ((Nat.log 2 (dims.get x) + bitWidth dims (xs.erase x) : ℕ) : ℤ) - (bitWidth dims (xs.erase x) : ℤ) =
      (Nat.log 2 (dims.get x) : ℤ) by push_cast; ring, Int.cast_natCast]
    exact (convert_log h hd hl (hU hx)).2

variable {sparse : ISet} {nProjs : ℕ}

theorem minDouble_exact (h : BitsFit F dims U) (hd : TwoDims dims U) (hl : LogTwo lg) (hn : ∃ e, nProjs = 2 ^ e) {xs : ISet} (hU : xs ⊆ U) :
    minDouble F (floatWidth F lg dims xs) (lg nProjs) = Fl.of (Flt.fin ((min (bitWidth dims xs) (Nat.log 2 nProjs) : ℕ) : ℚ)) := by
  obtain ⟨e, rfl⟩ := hn
  rw [floatWidth_bits h hd hl hU, hl e, Nat.log_pow (by norm_num)]
  unfold minDouble
  by_cases hlt : bitWidth dims xs < e
  · have h1 : Flt.ltb (Flt.fin (bitWidth dims xs : ℚ)) (Flt.fin (e : ℚ)) = true := decide_eq_true (by exact_mod_cast hlt)
    rw [min_eq_left hlt.le]
    exact if_pos h1
  · have h1 : ¬ Flt.ltb (Flt.fin (bitWidth dims xs : ℚ)) (Flt.fin (e : ℚ)) = true := by
      intro h'; exact hlt (by exact_mod_cast of_decide_eq_true h')
    rw [min_eq_right (not_lt.1 hlt)]
    refine (if_neg h1).trans ?_
    exact round_nat h.range (((not_lt.1 hlt).trans (bitWidth_mono dims hU)).trans_lt h.room)

theorem sparseBitWidth_le (dims : Dims) (sparse : ISet) (nProjs : ℕ) (xs : ISet) : sparseBitWidth dims sparse nProjs xs ≤ bitWidth dims xs := by
  have : bitWidth dims (xs \ sparse) + bitWidth dims (xs ∩ sparse) = bitWidth dims xs := by
    unfold bitWidth
    rw [← Finset.sum_union (Finset.disjoint_sdiff_inter xs sparse), Finset.sdiff_union_inter]
  unfold sparseBitWidth
  omega

theorem sparseBitWidth_mono (dims : Dims) (sparse : ISet) (nProjs : ℕ) {xs ys : ISet} (h : xs ⊆ ys) :
    sparseBitWidth dims sparse nProjs xs ≤ sparseBitWidth dims sparse nProjs ys := by
  have h1 := bitWidth_mono dims (Finset.sdiff_subset_sdiff h (Finset.Subset.refl sparse))
  have h2 := bitWidth_mono dims (Finset.inter_subset_inter_right (u := sparse) h)
  unfold sparseBitWidth
  omega

theorem sparseBitWidth_erase (dims : Dims) (nProjs : ℕ) {xs : ISet} {x : ℕ} (hx : x ∈ xs) (hxs : x ∉ sparse) :
    sparseBitWidth dims sparse nProjs xs = Nat.log 2 (dims.get x) + sparseBitWidth dims sparse nProjs (xs.erase x) := by
  have h1 : xs.erase x \ sparse = (xs \ sparse).erase x := by ext y; simp only [Finset.mem_sdiff, Finset.mem_erase]; tauto
  have h2 : xs.erase x ∩ sparse = xs ∩ sparse := by
    ext y
    simp only [Finset.mem_inter, Finset.mem_erase]
    constructor
    · rintro ⟨⟨-, h⟩, h'⟩; exact ⟨h, h'⟩
    · rintro ⟨h, h'⟩; exact ⟨⟨by rintro rfl; exact hxs h', h⟩, h'⟩
  unfold sparseBitWidth
  rw [h1, h2, bitWidth_erase dims (Finset.mem_sdiff.2 ⟨hx, hxs⟩)]; ring

/-- `simple_sparse_inds.hpp` -/
theorem floatSparseWidth_exact (h : BitsFit F dims U) (hd : TwoDims dims U) (hl : LogTwo lg) (hn : ∃ e, nProjs = 2 ^ e) {wm : WidthModel (Fl F)}
    (hwm : floatSparseWidthModel F lg dims (Fl.of (Flt.fin μ)) sparse nProjs = some wm) :
    WidthExact F U sparse wm (sparseBitWidth dims sparse nProjs) μ := by
  unfold floatSparseWidthModel at hwm
  by_cases hb : (Fl.of (Flt.fin μ) : Fl F) < 0
  · rw [if_pos hb] at hwm; cases hwm
  rw [if_neg hb] at hwm
  by_cases hz : nProjs = 0
  · rw [if_pos hz] at hwm; cases hwm
  rw [if_neg hz, Option.some.injEq] at hwm
  subst hwm
  refine ⟨h.range, rfl, fun hs => sparseBitWidth_mono dims sparse nProjs hs, (sparseBitWidth_le _ _ _ _).trans_lt h.room, ?_, ?_, ?_⟩
  · intro xs hU
    have e1 := floatWidth_bits h hd hl (Finset.sdiff_subset.trans hU : xs \ sparse ⊆ U)
    have e2 := minDouble_exact h hd hl hn (Finset.inter_subset_left.trans hU : xs ∩ sparse ⊆ U)
    change floatWidth F lg dims (xs \ sparse) + minDouble F (floatWidth F lg dims (xs ∩ sparse)) (lg nProjs) = _
    rw [e1, e2, Int.cast_natCast,
      ← round_nat h.range (((sparseBitWidth_le dims sparse nProjs xs).trans (bitWidth_mono dims hU)).trans_lt h.room), sparseBitWidth, Nat.cast_add]
    rfl
  · intro xs x hU hx
    change floatSparseDelta F lg dims sparse nProjs xs x = _
    by_cases hxs : x ∈ sparse
    · have e : floatSparseDelta F lg dims sparse nProjs xs x =
          minDouble F (floatWidth F lg dims (xs.toggle x ∩ sparse)) (lg nProjs) - minDouble F (floatWidth F lg dims (xs ∩ sparse)) (lg nProjs) :=
        if_pos hxs
      have et : xs.toggle x = xs.erase x := if_pos hx
      have hU1 : xs.erase x ∩ sparse ⊆ U := (Finset.inter_subset_left.trans (Finset.erase_subset _ _)).trans hU
      have hU2 : xs ∩ sparse ⊆ U := Finset.inter_subset_left.trans hU
      rw [e, et, minDouble_exact h hd hl hn hU1, minDouble_exact h hd hl hn hU2]
      have hsd : xs.erase x \ sparse = xs \ sparse := by
        ext y
        simp only [Finset.mem_sdiff, Finset.mem_erase]
        constructor
        · rintro ⟨⟨-, h⟩, h'⟩; exact ⟨h, h'⟩
        · rintro ⟨h, h'⟩; exact ⟨⟨by rintro rfl; exact h' hxs, h⟩, h'⟩
      have hm := bitWidth_mono dims (Finset.inter_subset_inter_right (Finset.erase_subset x xs) : xs.erase x ∩ sparse ⊆ xs ∩ sparse)
      have hm2 := bitWidth_mono dims hU2
      have ed : ((sparseBitWidth dims sparse nProjs (xs.erase x) : ℤ) - (sparseBitWidth dims sparse nProjs xs : ℤ)) =
          ((min (bitWidth dims (xs.erase x ∩ sparse)) (Nat.log 2 nProjs) : ℕ) : ℤ) - ((min (bitWidth dims (xs ∩ sparse)) (Nat.log 2 nProjs) : ℕ) : ℤ) := by
        unfold sparseBitWidth
        rw [hsd]; push_cast; ring
      rw [ed, ← round_int h.range (by
        have := h.room
        rw [abs_of_nonpos (by omega)]
        have h2 : min (bitWidth dims (xs ∩ sparse)) (Nat.log 2 nProjs) < 2 ^ F.prec := by omega
        have h3 : ((min (bitWidth dims (xs ∩ sparse)) (Nat.log 2 nProjs) : ℕ) : ℤ) < 2 ^ F.prec := by exact_mod_cast h2
        omega)]
      rw [Int.cast_sub, sub_eq_add_neg]
      rfl
    · have e : floatSparseDelta F lg dims sparse nProjs xs x = floatDelta F lg dims xs x := if_neg hxs
      rw [e, sparseBitWidth_erase dims nProjs hx hxs, show ((sparseBitWidth dims sparse nProjs (xs.erase x) : ℤ) -
        ((Nat.log 2 (dims.get x) + sparseBitWidth dims sparse nProjs (xs.erase x) : ℕ) : ℤ)) = -(Nat.log 2 (dims.get x) : ℤ) by push_cast; ring]
      exact floatDelta_bits h hd hl hU hx
  · intro xs x hU hx hxs
    rw [sparseBitWidth_erase dims nProjs hx hxs, show ((Nat.log 2 (dims.get x) + sparseBitWidth dims sparse nProjs (xs.erase x) : ℕ) : ℤ) -
      (sparseBitWidth dims sparse nProjs (xs.erase x) : ℤ) = (Nat.log 2 (dims.get x) : ℤ) by push_cast; ring, Int.cast_natCast]
    exact (convert_log h hd hl (hU hx)).2

end

end TNCO
