import Verif.Lemmas.FloatConv
import Verif.Lemmas.FloatCase
import Verif.Props.FixedFloat

/-!
# C75: `float1024` as a number of Python

`mpfr1024` is the format of the class; the theorems hold for every format with a range that is not empty (`MpfFormat.Ok`) or that contains the doubles
(`MpfFormat.Wide`).
-/

namespace TNCO

theorem mpfr1024_ok : mpfr1024.Ok := ⟨by decide, by decide⟩

theorem mpfr1024_wide : mpfr1024.Wide := ⟨by decide, by decide, by decide⟩

theorem in_of_nat {s : Bool} {k : ℕ} {e : ℤ} {m : ℚ} (hk0 : k ≠ 0) (hk : k < 2 ^ 1024) (h1 : -2 ^ 30 ≤ e) (h2 : e ≤ 2 ^ 20) (hm : m = k * (2 : ℚ) ^ e) :
    (Mpf.fin s m).In mpfr1024 := by
  subst hm
  have hk1 : (1 : ℚ) ≤ k := by exact_mod_cast Nat.pos_of_ne_zero hk0
  have hk2 : (k : ℚ) < 2 ^ 1024 := by exact_mod_cast hk
  refine Or.inr ⟨⟨k, e, ?_, by push_cast; rfl⟩, ?_, ?_⟩
  · have h3 : (k : ℤ) < ((2 ^ 1024 : ℕ) : ℤ) := Int.ofNat_lt.2 hk
    rw [Nat.cast_pow] at h3
    rw [Nat.abs_cast]
    exact h3
  · have h3 : (2 : ℚ) ^ mpfr1024.lo ≤ (2 : ℚ) ^ e := zpow2_mono h1
    have h4 : 1 * (2 : ℚ) ^ e ≤ k * (2 : ℚ) ^ e := mul_le_mul_of_nonneg_right hk1 (zpow2_pos e).le
    rw [one_mul] at h4
    exact h3.trans h4
  · calc (k : ℚ) * (2 : ℚ) ^ e < 2 ^ 1024 * (2 : ℚ) ^ e := mul_lt_mul_of_pos_right hk2 (zpow2_pos e)
      _ = (2 : ℚ) ^ ((1024 : ℕ) + e) := by rw [zpow_add₀ (by norm_num), zpow_natCast]
      _ ≤ (2 : ℚ) ^ (mpfr1024.hi + 1) := zpow2_mono (by change ((1024 : ℕ) : ℤ) + e ≤ 2 ^ 30 - 2 + 1; push_cast; omega)

theorem one_in {s : Bool} : (Mpf.fin s 1).In mpfr1024 :=
  in_of_nat (k := 1) (e := 0) (by norm_num) (Nat.one_lt_two_pow (by norm_num)) (by norm_num) (by norm_num) (by norm_num)

theorem three_in {s : Bool} : (Mpf.fin s 3).In mpfr1024 :=
  in_of_nat (k := 3) (e := 0) (by norm_num) (lt_of_lt_of_le (by norm_num : 3 < 2 ^ 2) (Nat.pow_le_pow_right (by norm_num) (by norm_num))) (by norm_num) (by norm_num)
    (by norm_num)

theorem newFloat_some {F : MpfFormat} {n : ℤ} {d : Mpf} (h : asDouble (.int n) = some d) : newFloat F [.int n] = .ok d := by
  change (match asDouble (.int n) with | none => Except.error PyErr.typeError | some d => .ok d) = _
  rw [h]

theorem newFloat_none {F : MpfFormat} {n : ℤ} (h : asDouble (.int n) = none) : newFloat F [.int n] = .error .typeError := by
  change (match asDouble (.int n) with | none => Except.error PyErr.typeError | some d => .ok d) = _
  rw [h]

section
variable {F : MpfFormat} (hF : F.Ok)

/-! ## Arithmetic -/

include hF in
/-- C75, operators: the result of `+`, `-`, `*`, `/` on finite numbers is the exact value, correctly rounded (if it is not zero). There is only one such
result. -/
theorem C75_arith (o : ArithOp) (s t : Bool) (m n : ℚ) (hdiv : o = .div → n ≠ 0) (hv : o.exact (signed s m) (signed t n) ≠ 0) (r : Mpf) :
    o.run F (.fin s m) (.fin t n) = r ↔ Rounded F (o.exact (signed s m) (signed t n)) r := by
  have key : o.run F (.fin s m) (.fin t n) = F.round (o.exact (signed s m) (signed t n)) := by
    cases o with
    | add => exact if_neg hv
    | sub => exact if_neg hv
    | mul =>
      apply if_neg
      intro h
      apply hv
      simp only [ArithOp.exact, mul_eq_zero, signed_eq_zero]
      exact h
    | div =>
      have hn := hdiv rfl
      have hm : m ≠ 0 := by
        intro h
        apply hv
        simp [ArithOp.exact, h, signed]
      change (if n = 0 then _ else if m = 0 then _ else F.round (signed s m / signed t n)) = _
      rw [if_neg hn, if_neg hm]
      rfl
  rw [key]
  exact ⟨fun h => h ▸ round_rounded hF hv, fun h => round_eq hF hv h⟩

/-- C75, operators: where the exact value is zero, so is the result. A sum is `-0` only for two negative zeros; products and quotients have the product of
the signs. -/
theorem C75_zero (o : ArithOp) (s t : Bool) (m n : ℚ) (hdiv : o = .div → n ≠ 0) (hv : o.exact (signed s m) (signed t n) = 0) :
    o.run F (.fin s m) (.fin t n) = .fin (match o with | .add => s && t | .sub => s && !t | _ => s != t) 0 := by
  cases o with
  | add => exact if_pos hv
  | sub => exact if_pos hv
  | mul =>
    apply if_pos
    simpa only [ArithOp.exact, mul_eq_zero, signed_eq_zero] using hv
  | div =>
    have hn := hdiv rfl
    have hm : m = 0 := by
      have := hv
      simp only [ArithOp.exact, div_eq_zero_iff, signed_eq_zero] at this
      tauto
    change (if n = 0 then _ else if m = 0 then _ else _) = _
    rw [if_neg hn, if_pos hm]

/-- C75, operators: exactly when the result is not a number: an operand is none, or infinities of opposite effect are added, or infinity meets zero in a
product, or zero or infinity is divided by its like; or never. -/
theorem C75_nan (o : ArithOp) (x y : Mpf) (hx : x.Ok) (hy : y.Ok) :
    (o.run F x y).isnan = true ↔ x.isnan = true ∨ y.isnan = true ∨
      (match o with
        | .add => ∃ s, x = .inf s ∧ y = .inf (!s)
        | .sub => ∃ s, x = .inf s ∧ y = .inf s
        | .mul => (∃ s t, x = .inf s ∧ y = .fin t 0) ∨ ∃ s t, x = .fin s 0 ∧ y = .inf t
        | .div => (∃ s t, x = .inf s ∧ y = .inf t) ∨ ∃ s t, x = .fin s 0 ∧ y = .fin t 0) := by
  have hr : ∀ v, (F.round v).isnan = false := by
    intro v
    unfold MpfFormat.round
    split
    · rfl
    · split
      · split <;> rfl
      · rfl
  have n1 : ∀ s, (Mpf.nan s).isnan = true := fun _ => rfl
  have n2 : ∀ s, (Mpf.inf s).isnan = false := fun _ => rfl
  have n3 : ∀ s m, (Mpf.fin s m).isnan = false := fun _ _ => rfl
  cases o <;> cases x <;> cases y <;>
    simp [ArithOp.run, Mpf.add, Mpf.sub, Mpf.mul, Mpf.div, n1, n2, n3, hr, apply_ite Mpf.isnan]
  · next s t => cases s <;> cases t <;> decide
  · next s t => cases s <;> cases t <;> decide
  · next s m t n => tauto

/-- C75, operators: infinities. -/
theorem C75_infinite (s t : Bool) (m : ℚ) :
    (∀ o : ArithOp, o = .add ∨ o = .sub → o.run F (.inf s) (.fin t m) = .inf s) ∧
    Mpf.add F (.fin t m) (.inf s) = .inf s ∧ Mpf.sub F (.fin t m) (.inf s) = .inf (!s) ∧
    Mpf.add F (.inf s) (.inf s) = .inf s ∧ Mpf.sub F (.inf s) (.inf (!s)) = .inf s ∧
    Mpf.mul F (.inf s) (.inf t) = .inf (s != t) ∧
    (m ≠ 0 → Mpf.mul F (.inf s) (.fin t m) = .inf (s != t) ∧ Mpf.mul F (.fin s m) (.inf t) = .inf (s != t) ∧
      Mpf.div F (.fin s m) (.fin t 0) = .inf (s != t)) ∧
    Mpf.div F (.inf s) (.fin t m) = .inf (s != t) ∧ Mpf.div F (.fin s m) (.inf t) = .fin (s != t) 0 := by
  refine ⟨?_, rfl, rfl, if_pos rfl, if_neg (by cases s <;> decide), rfl, fun hm => ⟨if_neg hm, if_neg hm, ?_⟩, rfl, rfl⟩
  · rintro o (rfl | rfl) <;> rfl
  · simp [Mpf.div, hm]

include hF in
/-- C75: results are numbers of the format. -/
theorem C75_closed (o : ArithOp) (x y : Mpf) : (o.run F x y).In F := by
  have h0 : ∀ s, (Mpf.fin s 0).In F := fun s => Or.inl rfl
  cases x with
  | nan s => cases o <;> trivial
  | inf s =>
    cases y with
    | nan t => cases o <;> trivial
    | inf t =>
      cases o
      · change (if s = t then Mpf.inf s else .nan false).In F
        split <;> trivial
      · change (if s = t then Mpf.nan false else .inf s).In F
        split <;> trivial
      · trivial
      · trivial
    | fin t n =>
      cases o
      · trivial
      · trivial
      · change (if n = 0 then Mpf.nan false else .inf (s != t)).In F
        split <;> trivial
      · trivial
  | fin s m =>
    cases y with
    | nan t => cases o <;> trivial
    | inf t =>
      cases o
      · trivial
      · trivial
      · change (if m = 0 then Mpf.nan false else .inf (s != t)).In F
        split <;> trivial
      · exact h0 _
    | fin t n =>
      by_cases hdiv : o = .div ∧ n = 0
      · obtain ⟨rfl, rfl⟩ := hdiv
        have h1 : ArithOp.run F .div (.fin s m) (.fin t 0) = if m = 0 then .nan false else .inf (s != t) := by simp [ArithOp.run, Mpf.div]
        rw [h1]
        split <;> trivial
      · have hdiv' : o = .div → n ≠ 0 := fun h h' => hdiv ⟨h, h'⟩
        by_cases hv : o.exact (signed s m) (signed t n) = 0
        · rw [C75_zero o s t m n hdiv' hv]; exact h0 _
        · have h1 := (C75_arith hF o s t m n hdiv' hv (F.round (o.exact (signed s m) (signed t n)))).2 (round_rounded hF hv)
          rw [h1]
          exact round_in hF hv

/-- C75: addition and multiplication commute; a difference is the sum with the negated number; negation is an involution that does not round. -/
theorem C75_algebra (x y : Mpf) :
    Mpf.add F x y = Mpf.add F y x ∧ Mpf.mul F x y = Mpf.mul F y x ∧ Mpf.sub F x y = Mpf.add F x y.neg ∧ x.neg.neg = x ∧
      (x.isnan = false → x.neg.abs = x.abs) := by
  refine ⟨?_, ?_, ?_, ?_, ?_⟩
  · cases x <;> cases y <;> simp only [Mpf.add]
    · next s t => by_cases h : s = t <;> simp [h, eq_comm]
    · next s m t n => rw [add_comm, Bool.and_comm]
  · cases x <;> cases y <;> simp only [Mpf.mul]
    · next s t => rw [bne_comm]
    · next s t n => rw [bne_comm]
    · next s m t => rw [bne_comm]
    · next s m t n => simp only [mul_comm, or_comm, bne_comm]
  · cases x <;> cases y <;> simp only [Mpf.add, Mpf.sub, Mpf.neg]
    · next s t => cases s <;> cases t <;> rfl
    · next s m t n => simp only [signed_not, sub_eq_add_neg]
  · cases x <;> simp [Mpf.neg]
  · cases x <;> simp [Mpf.neg, Mpf.abs]

include hF in
/-- C75: rounding keeps the order, so a greater exact value never gives a smaller result. -/
theorem C75_monotone (v w : ℚ) (hv : v ≠ 0) (hw : w ≠ 0) (r r' : Mpf) (hr : Rounded F v r) (hr' : Rounded F w r') (h : v ≤ w) : r.le r' = true := by
  have hval : ∀ {v : ℚ} {r : Mpf}, Rounded F v r → v ≠ 0 →
      r.Ok ∧ r.isnan = false ∧ (v < 0 → r.val ≤ (((0 : ℚ) : WithTop ℚ) : ExtRat)) ∧ (0 < v → (((0 : ℚ) : WithTop ℚ) : ExtRat) ≤ r.val) ∧
        (r.val = if F.hi < Int.log 2 |roundTo F.prec v| then (Mpf.inf (decide (v < 0))).val
          else if Int.log 2 |roundTo F.prec v| < F.lo then
            if |v| ≤ (2 : ℚ) ^ (F.lo - 1) then (Mpf.fin (decide (v < 0)) 0).val else (Mpf.fin (decide (v < 0)) ((2 : ℚ) ^ F.lo)).val
          else (((roundTo F.prec v : ℚ) : WithTop ℚ) : ExtRat)) := by
    intro v r hr hv
    have e := round_eq hF hv hr
    subst e
    have hs := (roundTo_sign hF hv).1
    have hL := zpow2_pos F.lo
    refine ⟨?_, ?_, ?_, ?_, ?_⟩ <;> unfold MpfFormat.round
    · split
      · trivial
      · split
        · split
          · exact le_rfl
          · exact hL.le
        · exact abs_nonneg _
    · split
      · rfl
      · split
        · split <;> rfl
        · rfl
    · intro h0
      have hr0 : roundTo F.prec v ≤ 0 := by
        have := roundTo_mono hF.prec h0.le
        rwa [show roundTo F.prec 0 = 0 from if_pos rfl] at this
      simp only [h0, decide_true]
      split
      · exact bot_le
      · split
        · split
          · simp [Mpf.val]
          · simp only [Mpf.val, if_true]
            exact WithBot.coe_le_coe.2 (WithTop.coe_le_coe.2 (by linarith))
        · simp only [Mpf.val, if_true, abs_of_nonpos hr0, neg_neg]
          exact WithBot.coe_le_coe.2 (WithTop.coe_le_coe.2 hr0)
    · intro h0
      have hn : ¬ v < 0 := not_lt.2 h0.le
      simp only [hn, decide_false]
      split
      · exact WithBot.coe_le_coe.2 le_top
      · split
        · split
          · simp [Mpf.val]
          · simp only [Mpf.val, Bool.false_eq_true, if_false]
            exact WithBot.coe_le_coe.2 (WithTop.coe_le_coe.2 hL.le)
        · simp only [Mpf.val, Bool.false_eq_true, if_false]
          exact WithBot.coe_le_coe.2 (WithTop.coe_le_coe.2 (abs_nonneg _))
    · split
      · rfl
      · split
        · split <;> rfl
        · conv_rhs => rw [← hs]
          rfl
  obtain ⟨ok1, nn1, neg1, pos1, e1⟩ := hval hr hv
  obtain ⟨ok2, nn2, neg2, pos2, e2⟩ := hval hr' hw
  rw [(C47_compare_partial r r' ok1 ok2 nn1 nn2).2.1]
  have hmono := roundTo_mono hF.prec h
  have hL := zpow2_pos F.lo
  rcases lt_or_gt_of_ne hv with hv0 | hv0
  · rcases lt_or_gt_of_ne hw with hw0 | hw0
    · -- both negative
      rw [e1, e2]
      simp only [hv0, hw0, decide_true]
      have habs : |w| ≤ |v| := by rw [abs_of_neg hv0, abs_of_neg hw0]; linarith
      have hr1 : roundTo F.prec v < 0 := by
        have := (roundTo_sign hF hv).1
        have h2 := (roundTo_sign hF hv).2
        simp only [hv0, decide_true, signed, if_true] at this
        linarith
      have hr2 : roundTo F.prec w < 0 := by
        have := (roundTo_sign hF hw).1
        have h2 := (roundTo_sign hF hw).2
        simp only [hw0, decide_true, signed, if_true] at this
        linarith
      have hlog : Int.log 2 |roundTo F.prec w| ≤ Int.log 2 |roundTo F.prec v| :=
        Int.log_mono_right (abs_pos.2 hr2.ne) (by rw [abs_of_neg hr1, abs_of_neg hr2]; linarith)
      by_cases c0 : F.hi < Int.log 2 |roundTo F.prec v|
      · rw [if_pos c0]
        exact bot_le
      rw [if_neg c0, if_neg (show ¬ F.hi < Int.log 2 |roundTo F.prec w| by omega)]
      by_cases c1 : Int.log 2 |roundTo F.prec v| < F.lo
      · rw [if_pos c1, if_pos (show Int.log 2 |roundTo F.prec w| < F.lo by omega)]
        by_cases c2 : |v| ≤ (2 : ℚ) ^ (F.lo - 1)
        · rw [if_pos c2, if_pos (habs.trans c2)]
        · rw [if_neg c2]
          split
          · simp only [Mpf.val, if_true]
            exact WithBot.coe_le_coe.2 (WithTop.coe_le_coe.2 (by linarith))
          · exact le_rfl
      · rw [if_neg c1]
        have hbig : (2 : ℚ) ^ F.lo ≤ |roundTo F.prec v| := (zpow2_mono (not_lt.1 c1)).trans (log2_le (abs_pos.2 hr1.ne))
        rw [abs_of_neg hr1] at hbig
        split
        · split
          · simp only [Mpf.val, if_true]
            exact WithBot.coe_le_coe.2 (WithTop.coe_le_coe.2 (by linarith))
          · simp only [Mpf.val, if_true]
            exact WithBot.coe_le_coe.2 (WithTop.coe_le_coe.2 (by linarith))
        · exact WithBot.coe_le_coe.2 (WithTop.coe_le_coe.2 hmono)
    · exact (neg1 hv0).trans (pos2 hw0)
  · have hw0 : 0 < w := lt_of_lt_of_le hv0 h
    have hvn : ¬ v < 0 := not_lt.2 hv0.le
    have hwn : ¬ w < 0 := not_lt.2 hw0.le
    rw [e1, e2]
    simp only [hvn, hwn, decide_false]
    have habs : |v| ≤ |w| := by rw [abs_of_pos hv0, abs_of_pos hw0]; exact h
    have hr1 : 0 < roundTo F.prec v := by
      have := (roundTo_sign hF hv).1
      have h2 := (roundTo_sign hF hv).2
      simp only [hvn, decide_false, signed, Bool.false_eq_true, if_false] at this
      linarith
    have hr2 : 0 < roundTo F.prec w := hr1.trans_le hmono
    have hlog : Int.log 2 |roundTo F.prec v| ≤ Int.log 2 |roundTo F.prec w| :=
      Int.log_mono_right (abs_pos.2 hr1.ne') (by rw [abs_of_pos hr1, abs_of_pos hr2]; exact hmono)
    have htop : ∀ z : ExtRat, z ≤ ((⊤ : WithTop ℚ) : ExtRat) := fun z => le_top
    by_cases c0 : F.hi < Int.log 2 |roundTo F.prec w|
    · rw [if_pos c0]
      exact htop _
    rw [if_neg c0, if_neg (show ¬ F.hi < Int.log 2 |roundTo F.prec v| by omega)]
    by_cases c1 : Int.log 2 |roundTo F.prec w| < F.lo
    · rw [if_pos c1, if_pos (show Int.log 2 |roundTo F.prec v| < F.lo by omega)]
      by_cases c2 : |w| ≤ (2 : ℚ) ^ (F.lo - 1)
      · rw [if_pos c2, if_pos (habs.trans c2)]
      · rw [if_neg c2]
        split
        · simp only [Mpf.val, Bool.false_eq_true, if_false]
          exact WithBot.coe_le_coe.2 (WithTop.coe_le_coe.2 hL.le)
        · exact le_rfl
    · rw [if_neg c1]
      have hbig : (2 : ℚ) ^ F.lo ≤ |roundTo F.prec w| := (zpow2_mono (not_lt.1 c1)).trans (log2_le (abs_pos.2 hr2.ne'))
      rw [abs_of_pos hr2] at hbig
      split
      · split
        · simp only [Mpf.val, Bool.false_eq_true, if_false]
          exact WithBot.coe_le_coe.2 (WithTop.coe_le_coe.2 hr2.le)
        · simp only [Mpf.val, Bool.false_eq_true, if_false]
          exact WithBot.coe_le_coe.2 (WithTop.coe_le_coe.2 hbig)
      · exact WithBot.coe_le_coe.2 (WithTop.coe_le_coe.2 hmono)

include hF in
/-- C75, powers: a whole power of a number that is not zero is the exact power, correctly rounded. -/
theorem C75_pow (rest : Mpf → Mpf → Mpf) (s : Bool) (m : ℚ) (hm : m ≠ 0) (n : ℤ) (hn : |n| ≤ 2 ^ 53) :
    ∃ r, pyPow F rest (.fin s m) (.int n) = .ok r ∧ Rounded F (signed s m ^ n) r := by
  refine ⟨F.round (signed s m ^ n), ?_, round_rounded hF (zpow_ne_zero _ fun h => hm (signed_eq_zero.1 h))⟩
  unfold pyPow
  rw [asDouble_small n hn]
  have h1 : signed (decide (n < 0)) ((|n| : ℤ) : ℚ) = n := by
    unfold signed
    by_cases h : n < 0
    · simp [h, abs_of_neg h]
    · simp [h, abs_of_nonneg (not_lt.1 h)]
  change Except.ok (if m ≠ 0 ∧ ((|n| : ℤ) : ℚ).den = 1 then F.round (signed s m ^ (signed (decide (n < 0)) ((|n| : ℤ) : ℚ)).num) else _) = _
  rw [if_pos ⟨hm, Rat.den_intCast _⟩, h1, Rat.num_intCast]

/-! ## Operands of other classes -/

/-- C75, operands: a `float1024` or a `float` is used as it is. -/
theorem C75_operand (o : ArithOp) (c : CmpOp) (x y : Mpf) :
    pyArith F o x (.self y) = .ok (o.run F x y) ∧ pyArith F o x (.float y) = .ok (o.run F x y) ∧ pyArithR F o (.float y) x = .ok (o.run F y x) ∧
      pyCmp c x (.self y) = .ok (c.run x y) ∧ pyCmp c x (.float y) = .ok (c.run x y) := ⟨rfl, rfl, rfl, rfl, rfl⟩

/-- C75, operands: an integer counts as the nearest `float` with 53 bits, which is the integer itself up to `2^53`; one that is too large, and anything that
is no number, is a `TypeError`. -/
theorem C75_operand_partial (o : ArithOp) (c : CmpOp) (x : Mpf) :
    (∀ n : ℤ, |n| ≤ 2 ^ 53 →
      pyArith F o x (.int n) = .ok (o.run F x (.fin (decide (n < 0)) |n|)) ∧ pyArithR F o (.int n) x = .ok (o.run F (.fin (decide (n < 0)) |n|) x) ∧
        pyCmp c x (.int n) = .ok (c.run x (.fin (decide (n < 0)) |n|))) ∧
    (∀ n : ℤ, n ≠ 0 → (|n| : ℚ) < (2 - 1 / 2 ^ 53) * 2 ^ 1023 → ∃ m, Nearest 53 |n| m ∧
      pyArith F o x (.int n) = .ok (o.run F x (.fin (decide (n < 0)) m)) ∧ pyArithR F o (.int n) x = .ok (o.run F (.fin (decide (n < 0)) m) x) ∧
        pyCmp c x (.int n) = .ok (c.run x (.fin (decide (n < 0)) m))) ∧
    (∀ n : ℤ, (2 - 1 / 2 ^ 53) * 2 ^ 1023 ≤ (|n| : ℚ) →
      pyArith F o x (.int n) = .error .typeError ∧ pyArithR F o (.int n) x = .error .typeError ∧ pyCmp c x (.int n) = .error .typeError) ∧
    (∀ a, a = .other ∨ (∃ s, a = .str s) →
      pyArith F o x a = .error .typeError ∧ pyArithR F o a x = .error .typeError ∧ pyCmp c x a = .error .typeError) := by
  have some_ : ∀ n d, asDouble (.int n) = some d →
      pyArith F o x (.int n) = .ok (o.run F x d) ∧ pyArithR F o (.int n) x = .ok (o.run F d x) ∧ pyCmp c x (.int n) = .ok (c.run x d) := by
    intro n d h
    have h2 : operand (.int n) = .ok d := by
      unfold operand
      simp only [h]
    refine ⟨?_, ?_, ?_⟩
    · unfold pyArith; rw [h2]; rfl
    · unfold pyArithR; rw [h]
    · unfold pyCmp; rw [h2]; rfl
  have none_ : ∀ n, asDouble (.int n) = none →
      pyArith F o x (.int n) = .error .typeError ∧ pyArithR F o (.int n) x = .error .typeError ∧ pyCmp c x (.int n) = .error .typeError := by
    intro n h
    have h2 : operand (.int n) = .error .typeError := by
      unfold operand
      simp only [h]
    refine ⟨?_, ?_, ?_⟩
    · unfold pyArith; rw [h2]; rfl
    · unfold pyArithR; rw [h]
    · unfold pyCmp; rw [h2]; rfl
  refine ⟨fun n hn => some_ n _ (by exact_mod_cast asDouble_small n hn), fun n h0 hn => ?_, fun n hn => none_ n (asDouble_large n hn), ?_⟩
  · exact ⟨_, roundTo_nearest (by norm_num) _, some_ n _ (asDouble_int n h0 hn)⟩
  · rintro a (rfl | ⟨s, rfl⟩)
    · exact ⟨rfl, rfl, rfl⟩
    · exact ⟨rfl, rfl, rfl⟩

/-- C75, comparisons: between numbers that are not NaN (for NaN see C47) the six operators are those of the extended rationals. -/
theorem C75_compare (x y : Mpf) (hx : x.Ok) (hy : y.Ok) (nx : x.isnan = false) (ny : y.isnan = false) (a : PyOperand) (ha : operand a = .ok y) :
    pyCmp .lt x a = .ok (decide (x.val < y.val)) ∧ pyCmp .le x a = .ok (decide (x.val ≤ y.val)) ∧ pyCmp .gt x a = .ok (decide (y.val < x.val)) ∧
      pyCmp .ge x a = .ok (decide (y.val ≤ x.val)) ∧ pyCmp .eq x a = .ok (decide (x.val = y.val)) ∧ pyCmp .ne x a = .ok (decide (x.val ≠ y.val)) := by
  obtain ⟨h1, h2, h3, h4, h5, h6⟩ := C47_compare_partial x y hx hy nx ny
  have key : ∀ (c : CmpOp) (q : Prop) [Decidable q], (c.run x y = true ↔ q) → pyCmp c x a = .ok (decide q) := by
    intro c q _ h
    unfold pyCmp
    rw [ha]
    change Except.ok (c.run x y) = _
    rw [Bool.eq_iff_iff.2 (h.trans (decide_eq_true_iff).symm)]
  exact ⟨key _ _ h1, key _ _ h2, key _ _ h3, key _ _ h4, key _ _ h5, key _ _ h6⟩

example : (Mpf.fin true 1).Ok ∧ (Mpf.inf true).Ok ∧ operand (.float (.inf true)) = .ok (.inf true) ∧ pyCmp .gt (.fin true 1) (.float (.inf true)) = .ok true := by
  refine ⟨by norm_num [Mpf.Ok], trivial, rfl, ?_⟩
  have := (C75_compare (.fin true 1) (.inf true) (by norm_num [Mpf.Ok]) trivial rfl rfl (.float (.inf true)) rfl).2.2.1
  rw [this]
  congr 1

/-- C75, construction: a copy, a `float` and an integer up to `2^53` keep their value. -/
theorem C75_construct (x : Mpf) (n : ℤ) (hn : |n| ≤ 2 ^ 53) :
    newFloat F [.self x] = .ok x ∧ newFloat F [.float x] = .ok x ∧ newFloat F [.int n] = .ok (.fin (decide (n < 0)) |n|) ∧
      newFloat F [.other] = .error .typeError ∧ ∀ a b l, newFloat F (a :: b :: l) = .error .typeError := by
  refine ⟨rfl, rfl, ?_, rfl, fun a b l => ?_⟩
  · exact_mod_cast newFloat_some (asDouble_small n hn)
  · cases a <;> rfl

include hF in
/-- C75, construction: every object of the class is a number of the format. -/
theorem C75_construct_in (hW : F.Wide) (args : List PyOperand) (hself : ∀ x, PyOperand.self x ∈ args → x.In F) (hfl : ∀ d, PyOperand.float d ∈ args → IsDouble d)
    (x : Mpf) (h : newFloat F args = .ok x) : x.In F := by
  match args, h with
  | [], h => cases h; trivial
  | [.self y], h => cases h; exact hself _ (List.mem_singleton_self _)
  | [.str s], h => cases h; exact readText_in hF _ s
  | [.float d], h => cases h; exact double_in hW (hfl _ (List.mem_singleton_self _))
  | [.int n], h =>
    cases e : asDouble (.int n) with
    | none =>
      rw [newFloat_none e] at h
      cases h
    | some d =>
      rw [newFloat_some e] at h
      cases h
      exact double_in hW (asDouble_isDouble n e)
  | [.other], h => cases h
  | a :: b :: l, h =>
    have e : newFloat F (a :: b :: l) = .error .typeError := by cases a <;> rfl
    rw [e] at h
    cases h

/-! ## `float(x)` -/

/-- C75: a `float` survives the way into the class and back. -/
theorem C75_float_roundtrip (d : Mpf) (h : IsDouble d) : newFloat F [.float d] = .ok d ∧ d.toFloat = d := ⟨rfl, toFloat_self h⟩

end

/-- C75: `float(x)` of a number in the normal range of `float` is off by at most `2^-53 + 2^-63` of it. -/
theorem C75_float_near_partial (s : Bool) (m : ℚ) (h1 : (2 : ℚ) ^ (-1022 : ℤ) ≤ m) (h2 : m ≤ 2 ^ 1023) :
    ∃ m', (Mpf.fin s m).toFloat = .fin s m' ∧ |m' - m| ≤ m / 2 ^ 53 + m / 2 ^ 63 := toFloat_near s h1 h2

/-! ## Text -/

section
variable {F : MpfFormat} (hF : F.Ok)

include hF in
/-- C75, reading: a decimal number with a point, and with an exponent or without, becomes the nearest number of the format. `Nat.ofDigits` takes the last digit
first. -/
theorem C75_read (neg : Bool) (ds fs : List ℕ) (hds : ∀ d ∈ ds, d < 10) (hfs : ∀ d ∈ fs, d < 10) (hne : ds ≠ []) (e : ℤ) (q : ℚ)
    (hq : q = (Nat.ofDigits 10 (ds ++ fs).reverse : ℕ) / 10 ^ fs.length) :
    (q ≠ 0 → ∃ r r', newFloat F [.str (signText neg ++ ds.map digitChar ++ '.' :: fs.map digitChar)] = .ok r ∧
      newFloat F [.str (signText neg ++ ds.map digitChar ++ '.' :: (fs.map digitChar ++ 'e' :: expText e))] = .ok r' ∧
      Rounded F (signed neg q) r ∧ Rounded F (signed neg (q * (10 : ℚ) ^ e)) r') ∧
    (q = 0 → newFloat F [.str (signText neg ++ ds.map digitChar ++ '.' :: fs.map digitChar)] = .ok (.fin neg 0) ∧
      newFloat F [.str (signText neg ++ ds.map digitChar ++ '.' :: (fs.map digitChar ++ 'e' :: expText e))] = .ok (.fin neg 0)) := by
  rw [← digsVal_ofDigits] at hq
  have a1 := readText_decimal F neg ds fs hds hfs hne [] rfl
  have a2 := readText_decimal F neg ds fs hds hfs hne ('e' :: expText e) rfl
  rw [List.append_nil] at a1
  have f1 : expFactor 10 [] = 1 := rfl
  have f2 : expFactor 10 ('e' :: expText e) = (10 : ℚ) ^ e := by
    have : expFactor 10 ('e' :: expText e) = (10 : ℚ) ^ expAfter (expText e) := by
      unfold expFactor
      dsimp only
      rw [if_neg (by decide), if_pos ⟨rfl, Or.inl rfl⟩]
    rw [this, expAfter_expText]
  rw [f1, mul_one, ← hq] at a1
  rw [f2, ← hq] at a2
  have hp : (10 : ℚ) ^ e ≠ 0 := zpow_ne_zero _ (by norm_num)
  refine ⟨fun h => ⟨_, _, congrArg Except.ok a1, congrArg Except.ok a2, ?_, ?_⟩, fun h => ⟨congrArg Except.ok ?_, congrArg Except.ok ?_⟩⟩
  · rw [if_neg h]
    exact round_rounded hF fun h' => h (signed_eq_zero.1 h')
  · rw [if_neg (mul_ne_zero h hp)]
    exact round_rounded hF fun h' => (mul_ne_zero h hp) (signed_eq_zero.1 h')
  · rw [a1, if_pos h]
  · rw [a2, if_pos (by rw [h, zero_mul])]

end

/-- The case of the letters of a text does not count: hexadecimal digits, `0X`, exponents, `NaN` and `Inf`. -/
theorem C75_read_case (F : MpfFormat) (auto : Bool) (s t : List Char) (h : s.map Char.toLower = t.map Char.toLower) :
    readText F auto s = readText F auto t := by
  have e : Char.toLower = lowerC := funext fun c => (lowerC_toLower c).symm
  rw [← readText_lower F auto s, ← readText_lower F auto t, ← e, h]

/-- `-0X1A.Cp+3` and `-0x1a.cP+3` are one number. -/
example : readText mpfr1024 true "-0X1A.Cp+3".toList = readText mpfr1024 true "-0x1a.cP+3".toList ∧ readMagnitude 16 "1A.CP+3".toList = some 214 := by
  exact ⟨C75_read_case _ _ _ _ (by decide), by decide +kernel⟩

/-- C75, printing: `str(x)` of a finite number is a decimal number with 308 digits after the point that is at most half a digit off. -/
theorem C75_str (s : Bool) (m : ℚ) (hm : 0 ≤ m) : ∃ ds fs : List ℕ, (∀ d ∈ ds, d < 10) ∧ (∀ d ∈ fs, d < 10) ∧ ds ≠ [] ∧ fs.length = 308 ∧
    (Mpf.fin s m).text = signText s ++ ds.map digitChar ++ '.' :: fs.map digitChar ∧
    |((Nat.ofDigits 10 (ds ++ fs).reverse : ℕ) : ℚ) / 10 ^ 308 - m| ≤ 1 / (2 * 10 ^ 308) := by
  refine ⟨decDigits ((roundEven (m * 10 ^ digits10)).toNat / 10 ^ digits10), fixedDigits 10 digits10 ((roundEven (m * 10 ^ digits10)).toNat % 10 ^ digits10),
    decDigits_lt _, fixedDigits_lt (by norm_num) _ _, decDigits_ne _, fixedDigits_length _ _ _, ?_, ?_⟩
  · simp [Mpf.text]
  · exact str_value hm

/-- C75, printing and reading back: numbers from 1 on, zero, and numbers with at most 308 decimals are restored exactly. -/
theorem C75_str_partial (x : Mpf) (hx : x.In mpfr1024) (hfin : ∀ s m, x = .fin s m → m = 0 ∨ 1 ≤ m ∨ ∃ k : ℕ, m * 10 ^ 308 = k) (hnan : ∀ s, x = .nan s → s = false) :
    newFloat mpfr1024 [.str x.text] = .ok x := congrArg Except.ok (readText_text hx hfin hnan)

/-- C75, pickling: every number is restored exactly, but for the sign of a NaN. -/
theorem C75_pickle {F : MpfFormat} (hF : F.Ok) (x : Mpf) (hx : x.In F) (hnan : ∀ s, x = .nan s → s = false) : unpickleFloat F (x.dump F) = x :=
  readText_dump hF hx hnan

/-! ## Assignment -/

/-- C75, `x += a` and the like: the name refers to a new object with the value that `x + a` has; the old object has it too, and no other object changes. -/
theorem C75_inplace_partial {F : MpfFormat} (o : ArithOp) (h : FloatHeap) (i : ℕ) (hi : i < h.length) (a : PyOperand) (y : Mpf) (hy : pyArith F o h[i] a = .ok y) :
    ∃ h' j, pyInplace F o h i a = .ok (h', j) ∧ h.length ≤ j ∧ h'[j]? = some y ∧ h'[i]? = some y ∧ ∀ k, k < h.length → k ≠ i → h'[k]? = h[k]? := by
  cases e : operand a with
  | error b =>
    unfold pyArith at hy
    rw [e] at hy
    cases hy
  | ok z =>
    unfold pyArith at hy
    rw [e] at hy
    have hg : h.getD i (.nan false) = h[i] := by simp [hi]
    have hy' : o.run F h[i] z = y := Except.ok.inj hy
    refine ⟨h.set i y ++ [y], h.length, ?_, le_rfl, ?_, ?_, fun k hk hki => ?_⟩
    · unfold pyInplace
      rw [e, hg]
      change Except.ok (h.set i (o.run F h[i] z) ++ [o.run F h[i] z], h.length) = _
      rw [hy']
    · simp
    · rw [List.getElem?_append_left (by simpa using hi)]
      simp [hi]
    · rw [List.getElem?_append_left (by simpa using hk), List.getElem?_set_ne (Ne.symm hki)]

/-- C75 fails for aliases: after `y = x`, `x += 1` changes `y`, which no number of Python does. Here both names refer to object 0 with value 2. -/
theorem C75_violated_alias : ∃ h' j, pyInplace mpfr1024 .add [.fin false 2] 0 (.int 1) = .ok (h', j) ∧ h'[0]? = some (.fin false 3) ∧
    h'[0]? ≠ [Mpf.fin false 2][0]? := by
  have hy : pyArith mpfr1024 .add (.fin false 2) (.int 1) = .ok (.fin false 3) := by
    have h1 := ((C75_operand_partial (F := mpfr1024) .add .eq (.fin false 2)).1 1 (by norm_num)).1
    have h2 : Mpf.fin (decide ((1 : ℤ) < 0)) ((|1| : ℤ) : ℚ) = .fin false 1 := by norm_num
    push_cast at h2
    push_cast at h1
    rw [h1, h2]
    apply congrArg Except.ok
    have h3 : ArithOp.run mpfr1024 .add (.fin false 2) (.fin false 1) = mpfr1024.round 3 := by
      change (if signed false 2 + signed false 1 = 0 then _ else mpfr1024.round (signed false 2 + signed false 1)) = _
      rw [if_neg (by norm_num [signed])]
      norm_num [signed]
    rw [h3]
    exact round_self mpfr1024_ok (s := false) (m := 3) (by norm_num) three_in
  obtain ⟨h', j, e, _, _, h1, _⟩ := C75_inplace_partial .add [.fin false 2] 0 (by simp) (.int 1) _ hy
  refine ⟨h', j, e, h1, ?_⟩
  rw [h1]
  decide

/-! ## What fails -/

/-- C75 fails for integers: `float1024(2**53 + 1)` is `2**53`, though 1024 bits hold every integer below `2**1024`; `float1024(2**1024)` is a `TypeError`. -/
theorem C75_violated_int : newFloat mpfr1024 [.int (2 ^ 53 + 1)] = .ok (.fin false (2 ^ 53)) ∧ newFloat mpfr1024 [.int (2 ^ 1024)] = .error .typeError ∧
    (Mpf.fin false (2 ^ 53 + 1)).In mpfr1024 ∧ (Mpf.fin false (2 ^ 1024)).In mpfr1024 := by
  refine ⟨?_, ?_, ?_, ?_⟩
  · have h : asDouble (.int (2 ^ 53 + 1)) = some (.fin false (2 ^ 53)) := by decide +kernel
    exact newFloat_some h
  · have h : asDouble (.int (2 ^ 1024)) = none := by decide +kernel
    exact newFloat_none h
  · refine in_of_nat (k := 2 ^ 53 + 1) (e := 0) (by norm_num) ?_ (by norm_num) (by norm_num) (by push_cast; norm_num)
    exact lt_of_lt_of_le (by norm_num : 2 ^ 53 + 1 < 2 ^ 54) (Nat.pow_le_pow_right (by norm_num) (by norm_num))
  · refine in_of_nat (k := 1) (e := 1024) (by norm_num) (Nat.one_lt_two_pow (by norm_num)) (by norm_num) (by norm_num) ?_
    rw [Nat.cast_one, one_mul, show (1024 : ℤ) = ((1024 : ℕ) : ℤ) by norm_num, zpow_natCast]

/-- C75 fails for `float(x)`: `1 + 2^-53 + 2^-70` is rounded to 64 bits first and then to even, to 1, though `1 + 2^-52` is nearer. -/
theorem C75_violated_float : (Mpf.fin false (1 + 1 / 2 ^ 53 + 1 / 2 ^ 70)).toFloat = .fin false 1 ∧
    |(1 + 1 / 2 ^ 52 : ℚ) - (1 + 1 / 2 ^ 53 + 1 / 2 ^ 70)| < |1 - (1 + 1 / 2 ^ 53 + 1 / 2 ^ 70)| ∧ IsDouble (.fin false (1 + 1 / 2 ^ 52)) := by
  refine ⟨by decide +kernel, by norm_num [abs_lt, lt_abs], 2 ^ 52 + 1, -52, by norm_num, by norm_num, by norm_num, by norm_num⟩

/-- C75 fails for texts that are no numbers: there is no exception, but 0, the number at the beginning, or NaN. -/
theorem C75_violated_text :
    newFloat mpfr1024 [.str "abc".toList] = .ok (.fin false 0) ∧ newFloat mpfr1024 [.str "1,5".toList] = .ok (.fin false 1) ∧
    newFloat mpfr1024 [.str []] = .ok (.nan false) ∧ newFloat mpfr1024 [] = .ok (.nan false) := by
  refine ⟨congrArg Except.ok (by decide +kernel), congrArg Except.ok ?_, rfl, rfl⟩
  have h : readText mpfr1024 false "1,5".toList = mpfr1024.round (signed false 1) := by decide +kernel
  rw [h]
  exact round_self mpfr1024_ok (by norm_num) one_in

/-- C75 fails for printing and reading back: `2^-1030` is printed as zero. -/
theorem C75_violated_str : (Mpf.fin false ((2 : ℚ) ^ (-1030 : ℤ))).In mpfr1024 ∧
    newFloat mpfr1024 [.str (Mpf.fin false ((2 : ℚ) ^ (-1030 : ℤ))).text] = .ok (.fin false 0) := by
  constructor
  · exact in_of_nat (k := 1) (e := -1030) (by norm_num) (Nat.one_lt_two_pow (by norm_num)) (by norm_num) (by norm_num) (by simp)
  · have h : (Mpf.fin false ((2 : ℚ) ^ (-1030 : ℤ))).text = (Mpf.fin false 0).text := by decide +kernel
    rw [h]
    exact C75_str_partial (.fin false 0) (Or.inl rfl) (fun s m e => Or.inl (by cases e; rfl)) (by simp)

/-- C75 fails for comparisons with what is no number: `x == None` is an exception instead of `False`. -/
theorem C75_violated_other (x : Mpf) : pyCmp .eq x .other = .error .typeError := rfl

/-! ## Examples -/

/-- `1/3`, rounded: the hypotheses of `C75_arith`. -/
example : ∃ r, ArithOp.run mpfr1024 .div (.fin false 1) (.fin false 3) = r ∧ Rounded mpfr1024 (1 / 3) r := by
  have hv : ArithOp.exact .div (signed false 1) (signed false 3) = 1 / 3 := by norm_num [ArithOp.exact, signed]
  refine ⟨_, rfl, ?_⟩
  rw [← hv]
  exact (C75_arith mpfr1024_ok .div false false 1 3 (fun _ => by norm_num) (by rw [hv]; norm_num) _).1 rfl

/-- In a small format: three bits, `5/16` up to `7/2`. `3/2 + 7/2` overflows, `7/2 - 1/2` is exact, `1 / 3` is `5/16`. -/
example : ArithOp.run ⟨3, -2, 1⟩ .add (.fin false (3 / 2)) (.fin false (7 / 2)) = .inf false ∧
    ArithOp.run ⟨3, -2, 1⟩ .sub (.fin false (7 / 2)) (.fin false (1 / 2)) = .fin false 3 ∧
    ArithOp.run ⟨3, -2, 1⟩ .div (.fin false 1) (.fin true 3) = .fin true (5 / 16) ∧
    ArithOp.run ⟨3, -2, 1⟩ .mul (.fin false (1 / 4)) (.fin true (1 / 4)) = .fin true 0 ∧
    ArithOp.run ⟨3, -2, 1⟩ .mul (.fin false (1 / 4)) (.fin true (3 / 4)) = .fin true (1 / 4) := by decide +kernel

/-- `-0 - 0` is `-0`, `0 - 0` is `0`, and `1 - 1` is `0`. -/
example : ArithOp.run mpfr1024 .sub (.fin true 0) (.fin false 0) = .fin true 0 ∧ ArithOp.run mpfr1024 .sub (.fin false 1) (.fin false 1) = .fin false 0 :=
  ⟨C75_zero .sub true false 0 0 (by simp) (by norm_num [ArithOp.exact, signed]), C75_zero .sub false false 1 1 (by simp) (by norm_num [ArithOp.exact, signed])⟩

/-- `inf - inf`. -/
example : (ArithOp.run mpfr1024 .sub (.inf true) (.inf true)).isnan = true :=
  (C75_nan .sub (.inf true) (.inf true) trivial trivial).2 (Or.inr (Or.inr ⟨true, rfl, rfl⟩))

/-- `1/3 ≤ 1/2`. -/
example : (mpfr1024.round (1 / 3)).le (mpfr1024.round (1 / 2)) = true :=
  C75_monotone mpfr1024_ok (1 / 3) (1 / 2) (by norm_num) (by norm_num) _ _ (round_rounded mpfr1024_ok (by norm_num)) (round_rounded mpfr1024_ok (by norm_num)) (by norm_num)

/-- `(-2) ** -3` is `-1/8`. -/
example : ∃ r, pyPow mpfr1024 (fun _ _ => .nan false) (.fin true 2) (.int (-3)) = .ok r ∧ Rounded mpfr1024 (-1 / 8) r := by
  obtain ⟨r, h1, h2⟩ := C75_pow mpfr1024_ok (fun _ _ => .nan false) true 2 (by norm_num) (-3) (by norm_num)
  have e : signed true 2 ^ (-3 : ℤ) = -1 / 8 := by norm_num [signed]
  exact ⟨r, h1, e ▸ h2⟩

/-- `-0.50`, with and without exponent. -/
example : ∃ r r', newFloat mpfr1024 [.str "-0.50".toList] = .ok r ∧ newFloat mpfr1024 [.str "-0.50e-2".toList] = .ok r' ∧
    Rounded mpfr1024 (-(1 / 2)) r ∧ Rounded mpfr1024 (-(1 / 200)) r' := by
  have hq : (1 / 2 : ℚ) = (Nat.ofDigits 10 ([0] ++ [5, 0]).reverse : ℕ) / 10 ^ [5, 0].length := by norm_num [Nat.ofDigits]
  obtain ⟨r, r', h1, h2, h3, h4⟩ := (C75_read mpfr1024_ok true [0] [5, 0] (by decide) (by decide) (by decide) (-2) (1 / 2) hq).1 (by norm_num)
  refine ⟨r, r', h1, h2, h3, ?_⟩
  have e : signed true (1 / 2 * (10 : ℚ) ^ (-2 : ℤ)) = -(1 / 200) := by norm_num [signed]
  rwa [e] at h4

/-- `3/8` is pickled as `0x6p-4`; so are `-5/2` and `255/16`. -/
example : (Mpf.fin false (3 / 8)).dump ⟨8, -20, 20⟩ = "0x6p-4".toList ∧ (Mpf.fin true (5 / 2)).dump ⟨8, -20, 20⟩ = "-0x2.8p+0".toList ∧
    (Mpf.fin false (255 / 16)).dump ⟨8, -20, 20⟩ = "0xf.fp+0".toList := by decide +kernel

example : unpickleFloat mpfr1024 ((Mpf.fin true 3).dump mpfr1024) = .fin true 3 := C75_pickle mpfr1024_ok _ three_in (by simp)

/-- `3` is printed and read back. -/
example : newFloat mpfr1024 [.str (Mpf.fin false 3).text] = .ok (.fin false 3) :=
  C75_str_partial _ three_in (fun s m e => by cases e; exact Or.inr (Or.inl (by norm_num))) (by simp)

/-- `5/4` is a `float`, and a number of the class. -/
example : IsDouble (.fin true (5 / 4)) ∧ (Mpf.fin true (5 / 4)).toFloat = .fin true (5 / 4) ∧ (Mpf.fin true (5 / 4)).In mpfr1024 := by
  have h : IsDouble (.fin true (5 / 4)) := ⟨5, -2, by norm_num, by norm_num, by norm_num, by norm_num⟩
  exact ⟨h, (C75_float_roundtrip (F := mpfr1024) _ h).2, C75_construct_in mpfr1024_ok mpfr1024_wide [.float (.fin true (5 / 4))] (by simp) (by simpa using h) _ rfl⟩

/-- `float(x)` for `x` near `1/3`. -/
example : ∃ m', (Mpf.fin false (1 / 3)).toFloat = .fin false m' ∧ |m' - 1 / 3| ≤ 1 / 3 / 2 ^ 53 + 1 / 3 / 2 ^ 63 := by
  refine C75_float_near_partial false (1 / 3) ?_ ?_
  · calc (2 : ℚ) ^ (-1022 : ℤ) ≤ (2 : ℚ) ^ (-2 : ℤ) := zpow2_mono (by norm_num)
      _ ≤ 1 / 3 := by norm_num
  · calc (1 / 3 : ℚ) ≤ 1 := by norm_num
      _ ≤ 2 ^ 1023 := one_le_pow₀ (by norm_num)

/-- `x += 1` with a second object. -/
example : ∃ h' j, pyInplace mpfr1024 .mul [.inf true, .fin false 7] 0 (.float (.fin true 2)) = .ok (h', j) ∧ 2 ≤ j ∧ h'[j]? = some (.inf false) ∧
    h'[0]? = some (.inf false) ∧ h'[1]? = some (.fin false 7) := by
  obtain ⟨h', j, e, h1, h2, h3, h4⟩ := C75_inplace_partial (F := mpfr1024) .mul [.inf true, .fin false 7] 0 (by simp) (.float (.fin true 2)) (.inf false)
    (by
      have h : Mpf.mul mpfr1024 (.inf true) (.fin true 2) = .inf false := by simp [Mpf.mul]
      exact congrArg Except.ok h)
  exact ⟨h', j, e, h1, h2, h3, h4 1 (by simp) (by simp)⟩

end TNCO
