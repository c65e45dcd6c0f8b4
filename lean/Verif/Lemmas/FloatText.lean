import Verif.Lemmas.FloatRound
import Verif.Lemmas.Report
import Mathlib.Tactic.IntervalCases
import Mathlib.Data.List.TakeWhile

/-! Numbers as text, and conversions to the formats of the machine. -/

namespace TNCO

/-! ## Digits -/

theorem fixedDigits_length (b k n : ℕ) : (fixedDigits b k n).length = k := by
  induction k generalizing n with
  | zero => rfl
  | succ k ih => simp [fixedDigits, ih]

theorem fixedDigits_lt {b : ℕ} (hb : 0 < b) (k n : ℕ) : ∀ d ∈ fixedDigits b k n, d < b := by
  induction k generalizing n with
  | zero => intro d hd; simp [fixedDigits] at hd
  | succ k ih =>
    intro d hd
    rcases List.mem_append.1 hd with h | h
    · exact ih _ d h
    · rw [List.mem_singleton.1 h]; exact Nat.mod_lt _ hb

theorem digsVal_append (b : ℕ) (xs ys : List ℕ) : digsVal b (xs ++ ys) = digsVal b xs * b ^ ys.length + digsVal b ys := by
  unfold digsVal
  rw [List.foldl_append]
  have key : ∀ (a : ℕ) (ys : List ℕ), ys.foldl (fun n d => b * n + d) a = a * b ^ ys.length + ys.foldl (fun n d => b * n + d) 0 := by
    intro a ys
    induction ys generalizing a with
    | nil => simp
    | cons y ys ih =>
      rw [List.foldl_cons, ih, List.foldl_cons, ih (b * 0 + y), List.length_cons, pow_succ]
      ring
  exact key _ _

theorem digsVal_fixed {b : ℕ} (hb : 0 < b) (k n : ℕ) : digsVal b (fixedDigits b k n) = n % b ^ k := by
  induction k generalizing n with
  | zero => simp [fixedDigits, digsVal, Nat.mod_one]
  | succ k ih =>
    rw [fixedDigits, digsVal_append, ih]
    simp only [List.length_singleton, pow_one]
    rw [pow_succ', Nat.mod_mul]
    simp [digsVal]
    ring

theorem digsVal_dec (n : ℕ) : digsVal 10 (decDigits n) = n := by
  unfold decDigits
  rw [digsVal_fixed (by norm_num)]
  exact Nat.mod_eq_of_lt (Nat.lt_pow_succ_log_self (by norm_num) n)

theorem decDigits_lt (n : ℕ) : ∀ d ∈ decDigits n, d < 10 := fixedDigits_lt (by norm_num) _ _

theorem decDigits_ne (n : ℕ) : decDigits n ≠ [] := by
  intro h
  have := congrArg List.length h
  rw [decDigits, fixedDigits_length] at this
  simp at this

theorem digsVal_zeros (b j : ℕ) (xs : List ℕ) : digsVal b (xs ++ List.replicate j 0) = digsVal b xs * b ^ j := by
  rw [digsVal_append, List.length_replicate]
  suffices h : digsVal b (List.replicate j 0) = 0 by rw [h, Nat.add_zero]
  unfold digsVal
  induction j with
  | zero => rfl
  | succ j ih => simpa [List.replicate_succ] using ih

theorem dropZeros_spec (ds : List ℕ) : ∃ j, ds = dropZeros ds ++ List.replicate j 0 := by
  unfold dropZeros
  have h := List.takeWhile_append_dropWhile (p := fun d : ℕ => decide (d = 0)) (l := ds.reverse)
  have h2 : ∀ d ∈ ds.reverse.takeWhile (fun d : ℕ => decide (d = 0)), d = 0 := by
    intro d hd
    have := List.mem_takeWhile_imp hd
    simpa using this
  refine ⟨(ds.reverse.takeWhile (fun d : ℕ => decide (d = 0))).length, ?_⟩
  rw [← List.eq_replicate_of_mem h2]
  conv_lhs => rw [← List.reverse_reverse ds, ← h, List.reverse_append]
  congr 1
  rw [List.eq_replicate_of_mem h2, List.reverse_replicate]

theorem digitVal_dec {d : ℕ} (h : d < 10) : digitVal 10 (digitChar d) = some d := by
  interval_cases d <;> rfl

theorem digitVal_hex {d : ℕ} (h : d < 16) : digitVal 16 (digitChar d) = some d := by
  interval_cases d <;> rfl

theorem takeDigs_digits {base : ℕ} (ds : List ℕ) (hds : ∀ d ∈ ds, digitVal base (digitChar d) = some d) (rest : List Char)
    (hr : takeDigs base rest = ([], rest)) : takeDigs base (ds.map digitChar ++ rest) = (ds, rest) := by
  induction ds with
  | nil => exact hr
  | cons d ds ih =>
    have h1 := hds d (List.mem_cons_self ..)
    have h2 := ih fun x hx => hds x (List.mem_cons_of_mem _ hx)
    rw [List.map_cons, List.cons_append, takeDigs, h1]
    simp only [h2]

theorem takeSign_digit {d : ℕ} (h : d < 16) (cs : List Char) : takeSign (digitChar d :: cs) = (false, digitChar d :: cs) := by
  interval_cases d <;> rfl

theorem expAfter_expText (e : ℤ) : expAfter (expText e) = e := by
  have hd : takeDigs 10 ((decDigits e.natAbs).map digitChar) = (decDigits e.natAbs, []) := by
    have := takeDigs_digits (base := 10) (decDigits e.natAbs) (fun d hd => digitVal_dec (decDigits_lt _ d hd)) [] rfl
    rwa [List.append_nil] at this
  unfold expAfter expText
  by_cases h : e < 0
  · rw [if_pos h]
    simp only [takeSign, if_true, hd, digsVal_dec]
    omega
  · rw [if_neg h]
    simp only [takeSign, Bool.false_eq_true, if_false, hd, digsVal_dec]
    omega

/-- A number with digits, a point, digits, and an ending that begins with none. -/
theorem readMagnitude_point {base : ℕ} (ds fs : List ℕ) (hds : ∀ d ∈ ds, digitVal base (digitChar d) = some d)
    (hfs : ∀ d ∈ fs, digitVal base (digitChar d) = some d) (rest : List Char) (hr : takeDigs base rest = ([], rest)) (hdot : digitVal base '.' = none)
    (hne : ds ≠ [] ∨ fs ≠ []) :
    readMagnitude base (ds.map digitChar ++ ('.' :: (fs.map digitChar ++ rest))) =
      some ((digsVal base (ds ++ fs) : ℚ) / (base : ℚ) ^ fs.length * expFactor base rest) := by
  have h1 : takeDigs base (ds.map digitChar ++ ('.' :: (fs.map digitChar ++ rest))) = (ds, '.' :: (fs.map digitChar ++ rest)) := by
    apply takeDigs_digits ds hds
    rw [takeDigs, hdot]
  unfold readMagnitude
  rw [h1]
  have h2 : takeFrac base ('.' :: (fs.map digitChar ++ rest)) = (fs, rest) := takeDigs_digits fs hfs rest hr
  simp only [h2]
  rw [if_neg]
  rintro ⟨a, b⟩
  rcases hne with h | h
  · exact h a
  · exact h b

/-- The same without a point. -/
theorem readMagnitude_plain {base : ℕ} (ds : List ℕ) (hds : ∀ d ∈ ds, digitVal base (digitChar d) = some d) (rest : List Char)
    (hr : takeDigs base rest = ([], rest)) (hdot : takeFrac base rest = ([], rest)) (hne : ds ≠ []) :
    readMagnitude base (ds.map digitChar ++ rest) = some ((digsVal base ds : ℚ) * expFactor base rest) := by
  unfold readMagnitude
  rw [takeDigs_digits ds hds rest hr]
  simp only [hdot]
  rw [if_neg (fun h => hne h.1)]
  simp

/-! ## Reading a text that begins with a digit -/

theorem readText_digit (F : MpfFormat) (auto neg : Bool) {d : ℕ} (hd : d < 10) (cs : List Char) :
    readText F auto (signText neg ++ digitChar d :: cs) = readFloat F auto neg (digitChar d :: cs) := by
  have hs : (signText neg ++ digitChar d :: cs).dropWhile isSpaceC = signText neg ++ digitChar d :: cs := by
    cases neg
    · change (digitChar d :: cs).dropWhile isSpaceC = digitChar d :: cs
      rw [List.dropWhile_cons_of_neg]
      interval_cases d <;> decide
    · rfl
  have ht : takeSign (signText neg ++ digitChar d :: cs) = (neg, digitChar d :: cs) := by
    cases neg
    · exact takeSign_digit (by omega) cs
    · rfl
  have hw : ∀ (c : Char) (w : List Char), c = 'n' ∨ c = 'i' ∨ c = '@' → startsWith (c :: w) (digitChar d :: cs) = false := by
    intro c w hc
    unfold startsWith
    rw [List.length_cons, List.take_succ_cons, List.map_cons, decide_eq_false_iff_not]
    intro h
    have h1 : lowerC (digitChar d) = c := (List.cons.inj h).1
    rcases hc with rfl | rfl | rfl <;> interval_cases d <;> exact absurd h1 (by decide)
  have hne : signText neg ++ digitChar d :: cs ≠ [] := by cases neg <;> simp [signText]
  unfold readText
  split
  · next h => exact absurd h hne
  · rw [hs, ht]
    simp only [hw 'n' ['a', 'n'] (Or.inl rfl), hw '@' ['n', 'a', 'n', '@'] (Or.inr (Or.inr rfl)), hw 'i' ['n', 'f'] (Or.inr (Or.inl rfl)),
      hw '@' ['i', 'n', 'f', '@'] (Or.inr (Or.inr rfl)), Bool.or_self, Bool.false_eq_true, if_false]

theorem takeBase_decimal (cs : List Char) : takeBase false cs = (10, cs) := by
  unfold takeBase
  split <;> simp

/-- A decimal number. -/
theorem readText_decimal (F : MpfFormat) (neg : Bool) (ds fs : List ℕ) (hds : ∀ d ∈ ds, d < 10) (hfs : ∀ d ∈ fs, d < 10) (hne : ds ≠ [])
    (rest : List Char) (hr : takeDigs 10 rest = ([], rest)) :
    readText F false (signText neg ++ ds.map digitChar ++ ('.' :: (fs.map digitChar ++ rest))) =
      if (digsVal 10 (ds ++ fs) : ℚ) / 10 ^ fs.length * expFactor 10 rest = 0 then .fin neg 0
      else F.round (signed neg ((digsVal 10 (ds ++ fs) : ℚ) / 10 ^ fs.length * expFactor 10 rest)) := by
  obtain ⟨d, ds', rfl⟩ := List.exists_cons_of_ne_nil hne
  have hm := readMagnitude_point (base := 10) (d :: ds') fs (fun x hx => digitVal_dec (hds x hx)) (fun x hx => digitVal_dec (hfs x hx)) rest hr rfl
    (Or.inl hne)
  rw [List.append_assoc]
  have := readText_digit F false neg (hds d (List.mem_cons_self ..)) (ds'.map digitChar ++ ('.' :: (fs.map digitChar ++ rest)))
  rw [← List.cons_append, ← List.map_cons] at this
  rw [this]
  unfold readFloat
  rw [takeBase_decimal]
  simp only [hm]
  push_cast
  rfl

/-! ## Numbers of the format -/

theorem round_of_nearest {F : MpfFormat} (hF : F.Ok) {s : Bool} {m y : ℚ} (hm : 0 < m) (h : (Mpf.fin s m).In F) (hy : 0 < y)
    (hn : Nearest F.prec y m) : F.round (signed s y) = .fin s m := by
  rcases h with h | ⟨hb, h1, h2⟩
  · exact absurd h hm.ne'
  have hr : roundTo F.prec (signed s y) = signed s m := by
    cases s
    · exact roundTo_eq hF.prec hn
    · exact roundTo_eq hF.prec hn.neg
  have hneg : decide (signed s y < 0) = s := by
    cases s
    · simp [signed, hy.le]
    · simp [signed, hy]
  have habs : |signed s m| = m := by rw [abs_signed, abs_of_pos hm]
  have hlog : Int.log 2 m ≤ F.hi := by
    have := zpow2_lt_iff.1 ((log2_le hm).trans_lt h2)
    omega
  have hlog2 : F.lo ≤ Int.log 2 m := by
    have := zpow2_lt_iff.1 (h1.trans_lt (lt_log2 m))
    omega
  unfold MpfFormat.round
  rw [hr, habs, if_neg (by omega), if_neg (by omega), hneg]

/-! ## Conversions -/

theorem ieeeUlp_le {F : FloatFormat} {k : ℕ} {e : ℤ} (hk0 : k ≠ 0) (hk : k < 2 ^ F.prec) (he : 2 - (F.emax : ℤ) - F.prec ≤ e) :
    ieeeUlp F (k * (2 : ℚ) ^ e) ≤ e := by
  unfold ieeeUlp
  apply max_le _ he
  have hpos : (0 : ℚ) < k * (2 : ℚ) ^ e := mul_pos (by exact_mod_cast Nat.pos_of_ne_zero hk0) (zpow2_pos e)
  have hlt : (k : ℚ) * (2 : ℚ) ^ e < (2 : ℚ) ^ ((F.prec : ℤ) + e) := by
    rw [zpow_add₀ (by norm_num), zpow_natCast]
    apply mul_lt_mul_of_pos_right _ (zpow2_pos e)
    exact_mod_cast hk
  have := zpow2_lt_iff.1 ((log2_le hpos).trans_lt hlt)
  unfold ulpExp
  rw [abs_of_pos hpos]
  omega

/-- A number of the machine format is not changed. -/
theorem toIeee_self {F : FloatFormat} (s : Bool) {k : ℕ} {e : ℤ} (hk : k < 2 ^ F.prec) (he : 2 - (F.emax : ℤ) - F.prec ≤ e)
    (he2 : e ≤ (F.emax : ℤ) + 1 - F.prec) : (Mpf.fin s (k * (2 : ℚ) ^ e)).toIeee F = .fin s (k * (2 : ℚ) ^ e) := by
  by_cases hk0 : k = 0
  · subst hk0; simp [Mpf.toIeee]
  have hu := ieeeUlp_le hk0 hk he
  have hne : (k : ℚ) * (2 : ℚ) ^ e ≠ 0 := mul_ne_zero (by exact_mod_cast hk0) (zpow2_pos e).ne'
  have hz : (k : ℚ) * (2 : ℚ) ^ e / (2 : ℚ) ^ ieeeUlp F (k * (2 : ℚ) ^ e) = ((k * 2 ^ (e - ieeeUlp F (k * (2 : ℚ) ^ e)).toNat : ℤ) : ℚ) := by
    push_cast
    rw [← zpow_natCast (2 : ℚ) (Int.toNat _), Int.toNat_of_nonneg (by omega), zpow_sub₀ (by norm_num)]
    ring
  have hr : (roundEven ((k : ℚ) * (2 : ℚ) ^ e / (2 : ℚ) ^ ieeeUlp F (k * (2 : ℚ) ^ e)) : ℚ) * (2 : ℚ) ^ ieeeUlp F (k * (2 : ℚ) ^ e) = k * (2 : ℚ) ^ e := by
    rw [hz, roundEven_int, ← hz, div_mul_cancel₀ _ (zpow2_pos _).ne']
  have hlt : (k : ℚ) * (2 : ℚ) ^ e < 2 ^ (F.emax + 1) := by
    calc (k : ℚ) * (2 : ℚ) ^ e < (2 : ℚ) ^ ((F.prec : ℤ) + e) := by
          rw [zpow_add₀ (by norm_num), zpow_natCast]
          apply mul_lt_mul_of_pos_right _ (zpow2_pos e)
          exact_mod_cast hk
      _ ≤ (2 : ℚ) ^ ((F.emax : ℤ) + 1) := zpow2_mono (by omega)
      _ = _ := by rw [← zpow_natCast]; push_cast; rfl
  unfold Mpf.toIeee
  dsimp only
  rw [if_neg hne, hr, if_neg (not_le.2 hlt)]

/-- A number in the normal range is rounded to `prec` bits. -/
theorem toIeee_normal {F : FloatFormat} (hp : 1 ≤ F.prec) (s : Bool) {m : ℚ} (h1 : (2 : ℚ) ^ (1 - (F.emax : ℤ)) ≤ m) :
    (Mpf.fin s m).toIeee F = if 2 ^ (F.emax + 1) ≤ roundTo F.prec m then .inf s else .fin s (roundTo F.prec m) := by
  have hpos : 0 < m := (zpow2_pos _).trans_le h1
  have hlog : 1 - (F.emax : ℤ) ≤ Int.log 2 m := by
    have := zpow2_lt_iff.1 (h1.trans_lt (lt_log2 m))
    omega
  have hu : ieeeUlp F m = ulpExp F.prec m := by
    unfold ieeeUlp ulpExp
    rw [abs_of_pos hpos]
    apply max_eq_left
    omega
  have hr : roundTo F.prec m = (roundEven (m / (2 : ℚ) ^ ulpExp F.prec m) : ℚ) * (2 : ℚ) ^ ulpExp F.prec m := if_neg hpos.ne'
  unfold Mpf.toIeee
  dsimp only
  rw [if_neg hpos.ne', hu, ← hr]

end TNCO
