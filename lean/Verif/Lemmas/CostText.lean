import Verif.Model.CostText
import Verif.Lemmas.Report
import Verif.Lemmas.TwisterText
import Mathlib.Data.Nat.Digits.Lemmas
import Mathlib.Tactic.Ring
import Mathlib.Tactic.FieldSimp
import Mathlib.Tactic.Linarith

/-!
# Lemmas: the text of a cost
-/

namespace TNCO

/-- A text of digits. -/
def Digs (s : List ℕ) : Prop := ∀ c ∈ s, isNum c = true

theorem digs_decText (n : ℕ) : Digs (decText n) := fun c h => decText_chars n c h

theorem digs_zeros (k : ℕ) : Digs (List.replicate k 48) := fun c h => by
  rw [List.eq_of_mem_replicate h]; rfl

theorem Digs.append {a b : List ℕ} (ha : Digs a) (hb : Digs b) : Digs (a ++ b) := fun c h =>
  (List.mem_append.1 h).elim (ha c) (hb c)

theorem Digs.left {a b : List ℕ} (h : Digs (a ++ b)) : Digs a := fun c hc => h c (List.mem_append_left _ hc)

theorem Digs.right {a b : List ℕ} (h : Digs (a ++ b)) : Digs b := fun c hc => h c (List.mem_append_right _ hc)

theorem foldl_digits (b : List ℕ) : ∀ n : ℕ, b.foldl (fun n c => 10 * n + (c - 48)) n = n * 10 ^ b.length + b.foldl (fun n c => 10 * n + (c - 48)) 0 := by
  induction b with
  | nil => intro n; simp
  | cons c b ih =>
    intro n
    simp only [List.foldl_cons, List.length_cons]
    rw [ih, ih (10 * 0 + (c - 48))]
    ring

theorem numValue_append (a b : List ℕ) : numValue (a ++ b) = numValue a * 10 ^ b.length + numValue b := by
  unfold numValue
  rw [List.foldl_append, foldl_digits]

theorem numValue_zeros (k : ℕ) : numValue (List.replicate k 48) = 0 := by
  induction k with
  | zero => rfl
  | succ k ih =>
    rw [List.replicate_succ', numValue_append, ih]
    simp [numValue]

theorem decText_length {n : ℕ} (h : n ≠ 0) : (decText n).length = Nat.log 10 n + 1 := by
  unfold decText
  rw [if_neg h]
  simp [Nat.length_digits 10 n (by norm_num) h]

theorem decText_length_pos (n : ℕ) : 1 ≤ (decText n).length := List.length_pos_iff.2 (decText_ne_nil n)

theorem takeWhile_digs {s r : List ℕ} (hs : Digs s) (hr : ∀ c ∈ r.head?, isNum c = false) : (s ++ r).takeWhile isNum = s ∧ (s ++ r).dropWhile isNum = r := by
  induction s with
  | nil =>
    cases r with
    | nil => simp
    | cons c r => simp [hr c (by simp)]
  | cons d s ih =>
    have := ih fun c hc => hs c (List.mem_cons_of_mem _ hc)
    simp [hs d (by simp), this]

/-- An exponent, or nothing. -/
def ExpText (r : List ℕ) : Prop := r = [] ∨ ∃ c s, r = c :: s ∧ (c = 101 ∨ c = 69)

theorem ExpText.head {r : List ℕ} (h : ExpText r) : ∀ c ∈ r.head?, isNum c = false := by
  rcases h with rfl | ⟨c, s, rfl, rfl | rfl⟩ <;> simp [isNum]

theorem ofText_form {ip fp r : List ℕ} {e : ℤ} (hi : Digs ip) (hf : Digs fp) (hn : ip ≠ []) (hr : ExpText r) (he : expPart r = some e) :
    Dec.ofText (ip ++ (pointed fp ++ r)) = some ⟨numValue (ip ++ fp), e - fp.length⟩ := by
  by_cases h : fp = []
  · subst h
    obtain ⟨h1, h2⟩ := takeWhile_digs hi hr.head
    have h3 : fracPart r = ([], r) := by
      rcases hr with rfl | ⟨c, s, rfl, rfl | rfl⟩ <;> rfl
    simp only [pointed, if_true, List.nil_append, Dec.ofText, h1, h2, h3, List.append_nil, if_neg hn, he, Option.map_some]
  · obtain ⟨h1, h2⟩ := takeWhile_digs (s := ip) (r := 46 :: (fp ++ r)) hi (by simp [isNum])
    obtain ⟨h3, h4⟩ := takeWhile_digs hf hr.head
    have h5 : fracPart (46 :: (fp ++ r)) = (fp, r) := by
      simp only [fracPart, if_true, h3, h4]
    have h6 : ip ++ fp ≠ [] := by simp [hn]
    simp only [pointed, if_neg h, List.cons_append, Dec.ofText, h1, h2, h5, if_neg h6, he, Option.map_some]

theorem wholeNum_digs {s : List ℕ} (h : Digs s) (hn : s ≠ []) : wholeNum s = some (numValue s) := by
  unfold wholeNum
  rw [if_pos ⟨hn, List.all_eq_true.2 h⟩]

theorem expPart_plus (c : ℕ) (hc : c = 101 ∨ c = 69) {s : List ℕ} (h : Digs s) (hn : s ≠ []) : expPart (c :: 43 :: s) = some (numValue s : ℤ) := by
  simp [expPart, hc, signedNum, wholeNum_digs h hn]

theorem expPart_minus (c : ℕ) (hc : c = 101 ∨ c = 69) {s : List ℕ} (h : Digs s) (hn : s ≠ []) : expPart (c :: 45 :: s) = some (-(numValue s : ℤ)) := by
  simp [expPart, hc, signedNum, wholeNum_digs h hn]

theorem expPart_plusText (c : ℕ) (hc : c = 101 ∨ c = 69) (z : ℤ) : expPart (c :: plusText z) = some z := by
  unfold plusText
  split
  · rw [expPart_plus c hc (digs_decText _) (decText_ne_nil _), numValue_decText]
    congr 1; omega
  · rw [expPart_minus c hc (digs_decText _) (decText_ne_nil _), numValue_decText]
    congr 1; omega

theorem ofText_text (E : ℕ) (hE' : E = 101 ∨ E = 69) (d : Dec) : Dec.ofText (d.text E) = some d := by
  obtain ⟨n, e⟩ := d
  have hl := decText_length_pos n
  have hd := digs_decText n
  have hv := numValue_decText n
  have hne := decText_ne_nil n
  have hsplit : ∀ k, 1 ≤ k → Digs ((decText n).take k) ∧ Digs ((decText n).drop k) ∧ (decText n).take k ≠ [] := by
    intro k hk
    refine ⟨fun c hc => hd c (List.mem_of_mem_take hc), fun c hc => hd c (List.mem_of_mem_drop hc), ?_⟩
    intro h
    have := congrArg List.length h
    simp only [List.length_take, List.length_nil] at this
    omega
  have hcut : ∀ k (r : List ℕ) (x : ℤ), 1 ≤ k → k < (decText n).length → ExpText r → expPart r = some x →
      Dec.ofText (((decText n).take k ++ 46 :: (decText n).drop k) ++ r) = some ⟨n, x - ((decText n).length - k : ℕ)⟩ := by
    intro k r x h1 h2 hr hx
    obtain ⟨a, b, c⟩ := hsplit k h1
    have h3 : (decText n).drop k ≠ [] := by
      intro h
      have := congrArg List.length h
      simp only [List.length_drop, List.length_nil] at this
      omega
    have := ofText_form a b c hr hx
    rw [pointed, if_neg h3, List.take_append_drop, hv, List.length_drop] at this
    rw [List.append_assoc]
    exact this
  by_cases hA : e ≤ 0 ∧ -6 < e + (decText n).length
  · have hdot : Dec.dot ⟨n, e⟩ = e + (decText n).length := by simp only [Dec.dot]; rw [if_pos hA]
    have hstr : Dec.text E ⟨n, e⟩ = placePoint (decText n) (e + (decText n).length) := by
      simp only [Dec.text, hdot]; simp
    rw [hstr]
    unfold placePoint
    split
    · rename_i h0
      have := ofText_form (ip := [48]) (fp := List.replicate (-(e + ((decText n).length : ℤ))).toNat 48 ++ decText n) (r := []) (e := 0)
        (by intro c hc; rw [List.mem_singleton.1 hc]; rfl) ((digs_zeros _).append hd) (by simp) (Or.inl rfl) rfl
      rw [pointed, if_neg (by simp [hne])] at this
      simp only [List.append_nil, List.cons_append, List.nil_append] at this
      rw [this]
      have h48 : numValue (48 :: (List.replicate (-(e + ((decText n).length : ℤ))).toNat 48 ++ decText n)) = n := by
        have : (48 :: (List.replicate (-(e + ((decText n).length : ℤ))).toNat 48 ++ decText n))
          = List.replicate ((-(e + ((decText n).length : ℤ))).toNat + 1) 48 ++ decText n := by
          rw [List.replicate_succ]; rfl
        rw [this, numValue_append, numValue_zeros, hv]; simp
      rw [h48]
      simp only [List.length_append, List.length_replicate, Option.some.injEq, Dec.mk.injEq, true_and]
      omega
    · split
      · rename_i h0 h1
        have he : e = 0 := by omega
        subst he
        have := ofText_form (ip := decText n) (fp := []) (r := []) (e := 0) hd (by intro c hc; simp at hc) hne (Or.inl rfl) rfl
        simpa [pointed, hv] using this
      · rename_i h0 h1
        have := hcut (e + ((decText n).length : ℤ)).toNat [] 0 (by omega) (by omega) (Or.inl rfl) rfl
        rw [List.append_nil] at this
        rw [this]
        simp only [Option.some.injEq, Dec.mk.injEq, true_and]
        omega
  · have hdot : Dec.dot ⟨n, e⟩ = 1 := by simp only [Dec.dot]; rw [if_neg hA]
    have hne1 : ¬ (e + ((decText n).length : ℤ) = 1) := by omega
    have hstr : Dec.text E ⟨n, e⟩ = placePoint (decText n) 1 ++ (E :: plusText (e + (decText n).length - 1)) := by
      simp only [Dec.text, hdot]; rw [if_neg hne1]
    rw [hstr]
    have hE : ExpText (E :: plusText (e + (decText n).length - 1)) := Or.inr ⟨_, _, rfl, hE'⟩
    unfold placePoint
    rw [if_neg (by norm_num)]
    split
    · rename_i h1
      have hl1 : (decText n).length = 1 := by omega
      have := ofText_form (ip := decText n) (fp := []) hd (by intro c hc; simp at hc) hne hE (expPart_plusText E hE' _)
      simp only [pointed, if_true, List.nil_append, List.append_nil, hv] at this
      rw [hl1] at this ⊢
      simpa using this
    · rename_i h1
      have := hcut 1 _ _ le_rfl (by omega) hE (expPart_plusText E hE' _)
      rw [show (1 : ℤ).toNat = 1 from rfl, this]
      simp only [Option.some.injEq, Dec.mk.injEq, true_and]
      omega

theorem ofText_str (d : Dec) : Dec.ofText d.str = some d := ofText_text 69 (Or.inr rfl) d

/-! ## Values -/

theorem trimZeros_spec (s : List ℕ) : ∃ k, s = trimZeros s ++ List.replicate k 48 := by
  have h := List.takeWhile_append_dropWhile (p := (· == 48)) (l := s.reverse)
  refine ⟨(s.reverse.takeWhile (· == 48)).length, ?_⟩
  have h2 : s.reverse.takeWhile (· == 48) = List.replicate (s.reverse.takeWhile (· == 48)).length 48 := by
    apply List.eq_replicate_iff.2 ⟨rfl, ?_⟩
    intro b hb
    have := List.mem_takeWhile_imp hb
    simpa using this
  have h3 := congrArg List.reverse h
  rw [List.reverse_append, List.reverse_reverse, h2, List.reverse_replicate] at h3
  simp only [List.length_replicate] at h3
  exact h3.symm

theorem twoDigits_spec (n : ℕ) : Digs (twoDigits n) ∧ twoDigits n ≠ [] ∧ numValue (twoDigits n) = n := by
  unfold twoDigits
  split
  · refine ⟨?_, by simp, ?_⟩
    · intro c hc
      rcases List.mem_cons.1 hc with rfl | h
      · rfl
      · exact digs_decText n c h
    · rw [show 48 :: decText n = List.replicate 1 48 ++ decText n from rfl, numValue_append, numValue_zeros, numValue_decText]; simp
  · exact ⟨digs_decText n, decText_ne_nil n, numValue_decText n⟩

theorem ofText_sciText (m e : ℕ) : ∃ d, Dec.ofText (sciText m e) = some d ∧
    d.value = m * (10 : ℚ) ^ ((e : ℤ) - ((decText m).length - 1 : ℕ)) := by
  have hd := digs_decText m
  have hl := decText_length_pos m
  obtain ⟨k, hk⟩ := trimZeros_spec ((decText m).drop 1)
  obtain ⟨t1, t2, t3⟩ := twoDigits_spec e
  have hdrop : Digs ((decText m).drop 1) := fun c hc => hd c (List.mem_of_mem_drop hc)
  have htr : Digs (trimZeros ((decText m).drop 1)) := by rw [hk] at hdrop; exact hdrop.left
  have hip : (decText m).take 1 ≠ [] := by
    intro h
    have := congrArg List.length h
    simp only [List.length_take, List.length_nil] at this
    omega
  have h := ofText_form (fp := trimZeros ((decText m).drop 1)) (r := 101 :: 43 :: twoDigits e)
    (fun c hc => hd c (List.mem_of_mem_take hc)) htr hip (Or.inr ⟨_, _, rfl, Or.inl rfl⟩)
    (expPart_plus 101 (Or.inl rfl) t1 t2)
  rw [t3] at h
  refine ⟨_, h, ?_⟩
  have hm : m = numValue ((decText m).take 1 ++ trimZeros ((decText m).drop 1)) * 10 ^ k := by
    conv_lhs => rw [← numValue_decText m, ← List.take_append_drop 1 (decText m), hk, ← List.append_assoc, numValue_append, numValue_zeros]
    simp
  have hlen := congrArg List.length hk
  simp only [List.length_drop, List.length_append, List.length_replicate] at hlen
  simp only [Dec.value]
  generalize trimZeros ((decText m).drop 1) = t at *
  have hm' : (m : ℚ) = (numValue ((decText m).take 1 ++ t) : ℚ) * (10 : ℚ) ^ (k : ℤ) := by
    rw [zpow_natCast]; exact_mod_cast hm
  rw [hm', mul_assoc, ← zpow_add₀ (by norm_num : (10 : ℚ) ≠ 0)]
  congr 2
  omega

theorem roundEven_floor (x : ℚ) : ⌊x⌋ ≤ roundEven x ∧ roundEven x ≤ ⌊x⌋ + 1 := by
  unfold roundEven
  repeat' split
  all_goals omega

theorem tenRound_cast (n k : ℕ) : (tenRound n k : ℚ) = roundEven ((n : ℚ) / 10 ^ k) := by
  have h : 0 ≤ roundEven ((n : ℚ) / 10 ^ k) := le_trans (Int.floor_nonneg.2 (by positivity)) (roundEven_floor _).1
  have h2 : ((tenRound n k : ℕ) : ℤ) = roundEven ((n : ℚ) / 10 ^ k) := Int.toNat_of_nonneg h
  rw [← h2]; simp

theorem tenRound_bounds {n k : ℕ} (hn : n ≠ 0) (hk : k ≤ Nat.log 10 n) :
    10 ^ (Nat.log 10 n - k) ≤ tenRound n k ∧ tenRound n k ≤ 10 ^ (Nat.log 10 n - k + 1) := by
  have h1 := Nat.pow_log_le_self 10 hn
  have h2 := Nat.lt_pow_succ_log_self (b := 10) (by norm_num) n
  have hfl : ⌊(n : ℚ) / 10 ^ k⌋ = ((n / 10 ^ k : ℕ) : ℤ) := by
    have := Rat.floor_intCast_div_natCast (n : ℤ) (10 ^ k)
    simpa using this
  have h3 : 10 ^ (Nat.log 10 n - k) ≤ n / 10 ^ k := by
    rw [Nat.le_div_iff_mul_le (by positivity), ← pow_add, Nat.sub_add_cancel hk]; exact h1
  have h4 : n / 10 ^ k < 10 ^ (Nat.log 10 n - k + 1) := by
    rw [Nat.div_lt_iff_lt_mul (by positivity), ← pow_add]
    rw [show Nat.log 10 n - k + 1 + k = Nat.log 10 n + 1 by omega]; exact h2
  obtain ⟨a, b⟩ := roundEven_floor ((n : ℚ) / 10 ^ k)
  rw [hfl] at a b
  unfold tenRound
  omega

theorem log_dec {c : ℕ} (hc : c ≠ 0) (e : ℤ) : Int.log 10 |(c : ℚ) * (10 : ℚ) ^ e| = Nat.log 10 c + e := by
  have hpos : (0 : ℚ) < (c : ℚ) * (10 : ℚ) ^ e := mul_pos (by exact_mod_cast Nat.pos_of_ne_zero hc) (ten_zpow_pos e)
  rw [abs_of_pos hpos]
  have h1 : ((10 : ℕ) : ℚ) ^ ((Nat.log 10 c : ℤ) + e) ≤ (c : ℚ) * (10 : ℚ) ^ e := by
    push_cast
    rw [zpow_add₀ (by norm_num), zpow_natCast]
    exact mul_le_mul_of_nonneg_right (by exact_mod_cast Nat.pow_log_le_self 10 hc) (ten_zpow_pos e).le
  have h2 : (c : ℚ) * (10 : ℚ) ^ e < ((10 : ℕ) : ℚ) ^ ((Nat.log 10 c : ℤ) + e + 1) := by
    push_cast
    rw [show (Nat.log 10 c : ℤ) + e + 1 = ((Nat.log 10 c + 1 : ℕ) : ℤ) + e by push_cast; ring, zpow_add₀ (by norm_num), zpow_natCast]
    exact mul_lt_mul_of_pos_right (by exact_mod_cast Nat.lt_pow_succ_log_self (b := 10) (by norm_num) c) (ten_zpow_pos e)
  have h3 := (Int.zpow_le_iff_le_log (b := 10) (by norm_num) hpos).1 h1
  have h4 := (Int.lt_zpow_iff_log_lt (b := 10) (by norm_num) hpos).1 h2
  omega

theorem roundSig_tenRound {c p : ℕ} (hc : c ≠ 0) (hp : p ≤ Nat.log 10 c + 1) (e : ℤ) :
    roundSig p ((c : ℚ) * (10 : ℚ) ^ e) = tenRound c (Nat.log 10 c + 1 - p) * (10 : ℚ) ^ (e + (Nat.log 10 c + 1 - p : ℕ)) := by
  have h0 : (c : ℚ) * (10 : ℚ) ^ e ≠ 0 := mul_ne_zero (by exact_mod_cast hc) (ten_zpow_pos e).ne'
  unfold roundSig
  rw [if_neg h0, log_dec hc, tenRound_cast]
  have hk : (Nat.log 10 c : ℤ) + e + 1 - p = e + (Nat.log 10 c + 1 - p : ℕ) := by omega
  rw [hk]
  congr 3
  rw [zpow_add₀ (by norm_num), zpow_natCast]
  have := (ten_zpow_pos e).ne'
  field_simp

theorem ofText_decText (n : ℕ) : Dec.ofText (decText n) = some ⟨n, 0⟩ := by
  have := ofText_form (ip := decText n) (fp := []) (r := []) (e := 0) (digs_decText n) (by intro c hc; simp at hc) (decText_ne_nil n) (Or.inl rfl) rfl
  simpa [pointed, numValue_decText] using this

theorem streamText_value (c : ℕ) : ∃ d, Dec.ofText (streamText c) = some d ∧ d.value = roundSig 6 c := by
  unfold streamText
  split
  · rename_i h
    refine ⟨⟨c, 0⟩, ofText_decText c, ?_⟩
    have := roundSig_dec (p := 6) (by norm_num) (isDec_int (n := (c : ℤ)) (p := 6) (by rw [abs_of_nonneg (by positivity)]; exact_mod_cast h))
    simp only [Dec.value, zpow_zero, mul_one]
    exact_mod_cast this.symm
  · rename_i h
    have hc : c ≠ 0 := by omega
    have hL : 6 ≤ Nat.log 10 c := (Nat.le_log_iff_pow_le (by norm_num) hc).2 (by omega)
    have hr := roundSig_tenRound (p := 6) hc (by omega) 0
    rw [zpow_zero, mul_one, show Nat.log 10 c + 1 - 6 = Nat.log 10 c - 5 by omega, zero_add] at hr
    have hb := tenRound_bounds (k := Nat.log 10 c - 5) hc (by omega)
    rw [show Nat.log 10 c - (Nat.log 10 c - 5) = 5 by omega] at hb
    rw [hr]
    split
    · rename_i h6
      obtain ⟨d, h1, h2⟩ := ofText_sciText (10 ^ 5) (Nat.log 10 c + 1)
      refine ⟨d, h1, ?_⟩
      rw [h2, h6, decText_length (by norm_num), show Nat.log 10 (10 ^ 5) = 5 from Nat.log_pow (by norm_num) 5]
      have : ((Nat.log 10 c + 1 : ℕ) : ℤ) - ((5 + 1 - 1 : ℕ) : ℤ) = ((Nat.log 10 c - 5 : ℕ) : ℤ) + 1 := by omega
      rw [this, zpow_add₀ (by norm_num)]
      push_cast
      norm_num
      ring
    · rename_i h6
      obtain ⟨d, h1, h2⟩ := ofText_sciText (tenRound c (Nat.log 10 c - 5)) (Nat.log 10 c)
      refine ⟨d, h1, ?_⟩
      have hm : tenRound c (Nat.log 10 c - 5) ≠ 0 := by intro h; rw [h] at hb; norm_num at hb
      have hlog : Nat.log 10 (tenRound c (Nat.log 10 c - 5)) = 5 :=
        (Nat.log_eq_iff (Or.inl (by norm_num))).2 ⟨hb.1, lt_of_le_of_ne hb.2 h6⟩
      rw [h2, decText_length hm, hlog]
      congr 2
      omega

theorem fixedText_read (c : ℕ) : Dec.ofText (fixedText c) = some ⟨c * 10 ^ 308, -308⟩ := by
  have := ofText_form (ip := decText c) (fp := List.replicate 308 48) (r := []) (e := 0) (digs_decText c) (digs_zeros 308) (decText_ne_nil c) (Or.inl rfl) rfl
  rw [pointed, if_neg (by simp), List.append_nil, numValue_append, numValue_decText, numValue_zeros, List.length_replicate, add_zero] at this
  unfold fixedText
  rw [this]
  rfl

theorem shownText_value (fixed : Bool) (c : ℕ) : ∃ d, Dec.ofText (shownText fixed c) = some d ∧ d.value = shownCost fixed c := by
  cases fixed with
  | false =>
    obtain ⟨d, h1, h2⟩ := streamText_value c
    exact ⟨d, h1, by rw [h2]; simp [shownCost]⟩
  | true =>
    refine ⟨_, fixedText_read c, ?_⟩
    rw [shownCost_fixed]
    simp only [Dec.value]
    push_cast
    rw [mul_assoc, zpow_neg, show ((308 : ℤ)) = ((308 : ℕ) : ℤ) from rfl, zpow_natCast, mul_inv_cancel₀ (by positivity), mul_one]

/-! ## Sums -/

theorem fit_value {p : ℕ} (hp : 1 ≤ p) (d : Dec) : (d.fit p).value = roundSig p d.value := by
  unfold Dec.fit
  split
  · rename_i h
    have hlt : d.coeff < 10 ^ p := by
      by_cases h0 : d.coeff = 0
      · rw [h0]; positivity
      · rw [decText_length h0] at h
        exact lt_of_lt_of_le (Nat.lt_pow_succ_log_self (b := 10) (by norm_num) _) (Nat.pow_le_pow_right (by norm_num) h)
    have : IsDec p d.value := ⟨d.coeff, d.exp, by rw [abs_of_nonneg (by positivity)]; exact_mod_cast hlt, by simp [Dec.value]⟩
    exact (roundSig_dec hp this).symm
  · rename_i h
    have h0 : d.coeff ≠ 0 := by intro h0; rw [h0] at h; exact h hp
    rw [decText_length h0] at h ⊢
    have hr := roundSig_tenRound (p := p) h0 (by omega) d.exp
    change _ = roundSig p ((d.coeff : ℚ) * (10 : ℚ) ^ d.exp)
    rw [hr]
    split
    · rename_i h6
      rw [h6]
      simp only [Dec.value]
      rw [zpow_add₀ (by norm_num) _ 1]
      push_cast
      have : (10 : ℚ) ^ p = 10 ^ (p - 1) * 10 := by rw [← pow_succ, Nat.sub_add_cancel hp]
      rw [this]
      ring
    · rfl

theorem add_value (a b : Dec) : (a.add b).value = roundSig 28 (a.value + b.value) := by
  unfold Dec.add
  rw [fit_value (by norm_num)]
  congr 1
  have key : ∀ (n : ℕ) (x m : ℤ), m ≤ x → ((n * 10 ^ (x - m).toNat : ℕ) : ℚ) * (10 : ℚ) ^ m = n * (10 : ℚ) ^ x := by
    intro n x m h
    push_cast
    rw [mul_assoc, ← zpow_natCast, Int.toNat_of_nonneg (by omega), ← zpow_add₀ (by norm_num)]
    congr 2
    omega
  simp only [Dec.value]
  rw [Nat.cast_add, add_mul, key _ _ _ (min_le_left _ _), key _ _ _ (min_le_right _ _)]

theorem addCost_value (a b : PartCost) : (addCost a b).value = roundSig 28 (a.value + b.value) := by
  have hz : Dec.value ⟨0, 0⟩ = 0 := by simp [Dec.value]
  cases a with
  | none =>
    cases b with
    | none => simp [addCost, PartCost.value, roundSig_zero]
    | some b =>
      change (Dec.add ⟨0, 0⟩ b).value = roundSig 28 (0 + b.value)
      rw [add_value, hz]
  | some a =>
    cases b with
    | none =>
      change (Dec.add a ⟨0, 0⟩).value = roundSig 28 (a.value + 0)
      rw [add_value, hz]
    | some b => exact add_value a b

theorem foldl_addCost_value (l : List PartCost) : ∀ a : PartCost,
    (l.foldl addCost a).value = (l.map PartCost.value).foldl (fun a x => roundSig 28 (a + x)) a.value := by
  induction l with
  | nil => intro a; rfl
  | cons b l ih =>
    intro a
    rw [List.foldl_cons, ih, addCost_value]
    rfl

theorem sumCost_value (l : List PartCost) : (sumCost l).value = decimalSum (l.map PartCost.value) :=
  foldl_addCost_value l none

theorem sumCost_none (l : List PartCost) : sumCost l = none ↔ ∀ p ∈ l, p = none := by
  have key : ∀ (l : List PartCost) (a : PartCost), l.foldl addCost a = none ↔ a = none ∧ ∀ p ∈ l, p = none := by
    intro l
    induction l with
    | nil => intro a; simp
    | cons b l ih =>
      intro a
      rw [List.foldl_cons, ih]
      cases a <;> cases b <;> simp [addCost]
  rw [sumCost, key]
  simp

/-! ## The form of the text -/

theorem streamText_exp (c : ℕ) {d : Dec} (h : Dec.ofText (streamText c) = some d) : 0 ≤ d.exp := by
  have sci : ∀ m e, (decText m).length ≤ e + 1 → Dec.ofText (sciText m e) = some d → 0 ≤ d.exp := by
    intro m e hle h
    have hd := digs_decText m
    have hl := decText_length_pos m
    obtain ⟨k, hk⟩ := trimZeros_spec ((decText m).drop 1)
    obtain ⟨t1, t2, t3⟩ := twoDigits_spec e
    have hdrop : Digs ((decText m).drop 1) := fun c hc => hd c (List.mem_of_mem_drop hc)
    have htr : Digs (trimZeros ((decText m).drop 1)) := by rw [hk] at hdrop; exact hdrop.left
    have hip : (decText m).take 1 ≠ [] := by
      intro h
      have := congrArg List.length h
      simp only [List.length_take, List.length_nil] at this
      omega
    have h' := ofText_form (fp := trimZeros ((decText m).drop 1)) (r := 101 :: 43 :: twoDigits e)
      (fun c hc => hd c (List.mem_of_mem_take hc)) htr hip (Or.inr ⟨_, _, rfl, Or.inl rfl⟩)
      (expPart_plus 101 (Or.inl rfl) t1 t2)
    rw [t3] at h'
    have hlen := congrArg List.length hk
    simp only [List.length_drop, List.length_append, List.length_replicate] at hlen
    have := Option.some.inj (h.symm.trans h')
    rw [this]
    simp only
    omega
  unfold streamText at h
  split at h
  · rw [ofText_decText] at h
    rw [← Option.some.inj h]
  · rename_i hlt
    have hc : c ≠ 0 := by omega
    have hL : 6 ≤ Nat.log 10 c := (Nat.le_log_iff_pow_le (by norm_num) hc).2 (by omega)
    have hb := tenRound_bounds (k := Nat.log 10 c - 5) hc (by omega)
    rw [show Nat.log 10 c - (Nat.log 10 c - 5) = 5 by omega] at hb
    split at h
    · refine sci _ _ ?_ h
      rw [decText_length (by norm_num), show Nat.log 10 (10 ^ 5) = 5 from Nat.log_pow (by norm_num) 5]
      omega
    · rename_i h6
      refine sci _ _ ?_ h
      have hm : tenRound c (Nat.log 10 c - 5) ≠ 0 := by intro h; rw [h] at hb; norm_num at hb
      have hlog : Nat.log 10 (tenRound c (Nat.log 10 c - 5)) = 5 :=
        (Nat.log_eq_iff (Or.inl (by norm_num))).2 ⟨hb.1, lt_of_le_of_ne hb.2 h6⟩
      rw [decText_length hm, hlog]
      omega

theorem decText_short {n p : ℕ} (hp : 1 ≤ p) (h : n < 10 ^ p) : (decText n).length ≤ p := by
  by_cases h0 : n = 0
  · subst h0; exact hp
  · rw [decText_length h0]
    exact (Nat.log_lt_iff_lt_pow (by norm_num) h0).2 h

/-- The whole number that a `Decimal` without digits after the point stands for. -/
def Dec.whole (d : Dec) : ℕ := d.coeff * 10 ^ d.exp.toNat

theorem whole_value {d : Dec} (h : 0 ≤ d.exp) : (d.whole : ℚ) = d.value := by
  unfold Dec.whole Dec.value
  push_cast
  rw [← zpow_natCast, Int.toNat_of_nonneg h]

theorem add_whole {n : ℕ} {d : Dec} (h : 0 ≤ d.exp) (hs : n + d.whole < 10 ^ 28) : Dec.add ⟨n, 0⟩ d = ⟨n + d.whole, 0⟩ := by
  have hmin : min 0 d.exp = 0 := min_eq_left h
  have : Dec.add ⟨n, 0⟩ d = Dec.fit 28 ⟨n + d.whole, 0⟩ := by
    simp only [Dec.add, hmin, Dec.whole, sub_zero, Int.toNat_zero, pow_zero, mul_one]
  rw [this, Dec.fit, if_pos (decText_short (by norm_num) hs)]

theorem foldl_whole (l : List PartCost) : ∀ n : ℕ, (∀ p ∈ l, ∀ d ∈ p, 0 ≤ d.exp) → n + (l.map fun p => p.elim 0 Dec.whole).sum < 10 ^ 28 →
    l.foldl addCost (some ⟨n, 0⟩) = some ⟨n + (l.map fun p => p.elim 0 Dec.whole).sum, 0⟩ := by
  induction l with
  | nil => intro n _ _; simp
  | cons p l ih =>
    intro n he hs
    simp only [List.map_cons, List.sum_cons] at hs ⊢
    rw [List.foldl_cons]
    have hp : addCost (some ⟨n, 0⟩) p = some ⟨n + p.elim 0 Dec.whole, 0⟩ := by
      cases p with
      | none =>
        change some (Dec.add ⟨n, 0⟩ ⟨0, 0⟩) = _
        have hz : Dec.whole ⟨0, 0⟩ = 0 := by simp [Dec.whole]
        rw [add_whole le_rfl (by rw [hz]; simp at hs ⊢; omega), hz]
        rfl
      | some d =>
        change some (Dec.add ⟨n, 0⟩ d) = _
        rw [add_whole (he _ (by simp) d rfl) (by simp only [Option.elim_some] at hs; omega)]
        rfl
    rw [hp, ih _ (fun q hq => he q (List.mem_cons_of_mem _ hq)) (by omega)]
    congr 2
    omega

theorem sumCost_whole {l : List PartCost} (he : ∀ p ∈ l, ∀ d ∈ p, 0 ≤ d.exp) (hs : (l.map fun p => p.elim 0 Dec.whole).sum < 10 ^ 28)
    (hn : ∃ p ∈ l, p ≠ none) : sumCost l = some ⟨(l.map fun p => p.elim 0 Dec.whole).sum, 0⟩ := by
  unfold sumCost
  induction l with
  | nil => obtain ⟨p, hp, _⟩ := hn; simp at hp
  | cons p l ih =>
    cases p with
    | none =>
      simp only [List.map_cons, List.sum_cons, Option.elim_none, zero_add, List.foldl_cons] at hs ⊢
      refine ih (fun q hq => he q (List.mem_cons_of_mem _ hq)) hs ?_
      obtain ⟨q, hq, hne⟩ := hn
      rcases List.mem_cons.1 hq with rfl | hq
      · exact absurd rfl hne
      · exact ⟨q, hq, hne⟩
    | some d =>
      have hd := he (some d) (by simp) d rfl
      simp only [List.map_cons, List.sum_cons, Option.elim_some, List.foldl_cons] at hs ⊢
      have h1 : addCost none (some d) = some ⟨d.whole, 0⟩ := by
        change some (Dec.add ⟨0, 0⟩ d) = _
        rw [add_whole hd (by omega), zero_add]
      rw [h1, foldl_whole l _ (fun q hq => he q (List.mem_cons_of_mem _ hq)) (by omega)]

theorem str_whole (n : ℕ) : Dec.str ⟨n, 0⟩ = decText n := by
  have hl := decText_length_pos n
  have hdot : Dec.dot ⟨n, 0⟩ = (decText n).length := by
    simp only [Dec.dot]
    rw [if_pos ⟨le_rfl, by omega⟩, zero_add]
  simp only [Dec.str, Dec.text, hdot, zero_add, if_true, List.append_nil]
  unfold placePoint
  rw [if_neg (by omega), if_pos le_rfl]
  simp

theorem decText_shift {c : ℕ} (hc : c ≠ 0) (j : ℕ) : decText (c * 10 ^ j) = decText c ++ List.replicate j 48 := by
  have h : c * 10 ^ j ≠ 0 := by positivity
  unfold decText
  rw [if_neg h, if_neg hc, mul_comm, Nat.digits_base_pow_mul (by norm_num) (Nat.pos_of_ne_zero hc)]
  simp

theorem tenRound_exact (n k : ℕ) : tenRound (n * 10 ^ k) k = n := by
  have : (((n * 10 ^ k : ℕ) : ℚ) / 10 ^ k) = ((n : ℤ) : ℚ) := by
    push_cast
    field_simp
  unfold tenRound
  rw [this, roundEven_int]
  simp

theorem sumCost_fixed {c : ℕ} (hc : c ≠ 0) (h : c < 10 ^ 28) :
    sumCost [partCost true (some c)] = some ⟨c * 10 ^ (28 - (decText c).length), -((28 - (decText c).length : ℕ) : ℤ)⟩ := by
  have hl := decText_short (by norm_num) h
  have hl1 := decText_length_pos c
  have hp : partCost true (some c) = some ⟨c * 10 ^ 308, -308⟩ := fixedText_read c
  have hlen : (decText (c * 10 ^ 308)).length = (decText c).length + 308 := by
    rw [decText_shift hc, List.length_append, List.length_replicate]
  have hadd : Dec.add ⟨0, 0⟩ ⟨c * 10 ^ 308, -308⟩ = Dec.fit 28 ⟨c * 10 ^ 308, -308⟩ := by
    have hmin : min (0 : ℤ) (-308) = -308 := by decide
    simp only [Dec.add, hmin]
    simp
  rw [hp]
  change some (Dec.add ⟨0, 0⟩ ⟨c * 10 ^ 308, -308⟩) = _
  rw [hadd]
  simp only [Dec.fit, hlen]
  rw [if_neg (by omega)]
  have hround : tenRound (c * 10 ^ 308) ((decText c).length + 308 - 28) = c * 10 ^ (28 - (decText c).length) := by
    have : c * 10 ^ 308 = (c * 10 ^ (28 - (decText c).length)) * 10 ^ ((decText c).length + 308 - 28) := by
      have h308 : 28 - (decText c).length + ((decText c).length + 308 - 28) = 308 := by omega
      rw [mul_assoc, ← pow_add, h308]
    rw [this, tenRound_exact]
  rw [hround]
  have hlt : c * 10 ^ (28 - (decText c).length) ≠ 10 ^ 28 := by
    intro he
    have h1 := decText_shift hc (28 - (decText c).length)
    have h2 : (decText (10 ^ 28)).length = 29 := by
      rw [decText_length (by norm_num), show Nat.log 10 (10 ^ 28) = 28 from Nat.log_pow (by norm_num) 28]
    rw [he] at h1
    rw [h1, List.length_append, List.length_replicate] at h2
    omega
  have hexp : (-308 : ℤ) + (((decText c).length + 308 - 28 : ℕ) : ℤ) = -((28 - (decText c).length : ℕ) : ℤ) := by omega
  rw [if_neg hlt, hexp]

theorem str_fixed {c : ℕ} (hc : c ≠ 0) (j : ℕ) : Dec.str ⟨c * 10 ^ j, -(j : ℤ)⟩ = decText c ++ pointed (List.replicate j 48) := by
  have hl := decText_length_pos c
  have hs := decText_shift hc j
  have hlen : (decText (c * 10 ^ j)).length = (decText c).length + j := by rw [hs, List.length_append, List.length_replicate]
  have hleft : -(j : ℤ) + ((decText (c * 10 ^ j)).length : ℤ) = (decText c).length := by rw [hlen]; push_cast; ring
  have hdot : Dec.dot ⟨c * 10 ^ j, -(j : ℤ)⟩ = (decText c).length := by
    simp only [Dec.dot, hleft]
    rw [if_pos ⟨by omega, by omega⟩]
  simp only [Dec.str, Dec.text, hdot, hleft, if_true, List.append_nil]
  unfold placePoint
  rw [if_neg (by omega), hs]
  by_cases hj : j = 0
  · subst hj
    simp [pointed]
  · rw [if_neg (by simp; omega), pointed, if_neg (by simpa using hj)]
    simp

/-! ## Texts as functions of values -/

/-- A `Decimal` with as small an exponent as 28 digits allow, but not below `E`. -/
def Canon (E : ℤ) (d : Dec) : Prop := E ≤ d.exp ∧ d.coeff < 10 ^ 28 ∧ (d.exp = E ∨ 10 ^ 27 ≤ d.coeff)

theorem canon_lt {E : ℤ} {a b : Dec} (ha : Canon E a) (hb : Canon E b) (h : a.exp < b.exp) : a.value < b.value := by
  obtain ⟨a1, a2, -⟩ := ha
  obtain ⟨b1, -, b3⟩ := hb
  have h27 : 10 ^ 27 ≤ b.coeff := b3.resolve_left (by omega)
  have h1 : a.value < (10 : ℚ) ^ (28 + a.exp) := by
    unfold Dec.value
    rw [zpow_add₀ (by norm_num)]
    exact mul_lt_mul_of_pos_right (by exact_mod_cast a2) (ten_zpow_pos _)
  have h2 : (10 : ℚ) ^ (27 + b.exp) ≤ b.value := by
    unfold Dec.value
    rw [zpow_add₀ (by norm_num)]
    exact mul_le_mul_of_nonneg_right (by exact_mod_cast h27) (ten_zpow_pos _).le
  have h3 : (10 : ℚ) ^ (28 + a.exp) ≤ (10 : ℚ) ^ (27 + b.exp) := zpow_le_zpow_right₀ (by norm_num) (by omega)
  linarith

theorem canon_unique {E : ℤ} {a b : Dec} (ha : Canon E a) (hb : Canon E b) (h : a.value = b.value) : a = b := by
  rcases lt_trichotomy a.exp b.exp with hlt | he | hlt
  · exact absurd h (canon_lt ha hb hlt).ne
  · obtain ⟨c, x⟩ := a
    obtain ⟨c', x'⟩ := b
    simp only at he
    subst he
    simp only [Dec.value] at h
    have := mul_right_cancel₀ (ten_zpow_pos x).ne' h
    rw [show c = c' by exact_mod_cast this]
  · exact absurd h.symm (canon_lt hb ha hlt).ne

theorem canon_fit {E : ℤ} {d : Dec} (h1 : E ≤ d.exp) (h2 : d.exp = E ∨ 10 ^ 27 ≤ d.coeff) : Canon E (d.fit 28) := by
  unfold Dec.fit
  split
  · rename_i h
    refine ⟨h1, ?_, h2⟩
    by_cases h0 : d.coeff = 0
    · rw [h0]; norm_num
    · rw [decText_length h0] at h
      exact lt_of_lt_of_le (Nat.lt_pow_succ_log_self (b := 10) (by norm_num) _) (Nat.pow_le_pow_right (by norm_num) h)
  · rename_i h
    have h0 : d.coeff ≠ 0 := by intro h0; rw [h0] at h; exact h (by decide)
    rw [decText_length h0] at h ⊢
    have hb := tenRound_bounds (k := Nat.log 10 d.coeff + 1 - 28) h0 (by omega)
    rw [show Nat.log 10 d.coeff - (Nat.log 10 d.coeff + 1 - 28) = 27 by omega] at hb
    split
    · refine ⟨by simp only; omega, by norm_num, Or.inr le_rfl⟩
    · rename_i h6
      exact ⟨by simp only; omega, lt_of_le_of_ne hb.2 h6, Or.inr hb.1⟩

theorem canon_add {E : ℤ} {a b : Dec} (ha : Canon E a) (hb : E ≤ b.exp) : Canon E (a.add b) := by
  obtain ⟨a1, a2, a3⟩ := ha
  refine canon_fit (le_min a1 hb) ?_
  rcases a3 with h | h
  · left
    simp only
    rw [h]
    exact min_eq_left hb
  · right
    exact le_trans h (le_trans (Nat.le_mul_of_pos_right _ (by positivity)) (Nat.le_add_right _ _))

/-- The smallest exponent of the costs of a cost type. -/
def leastExp (fixed : Bool) : ℤ := if fixed then -308 else 0

theorem canon_first (fixed : Bool) {d : Dec} (h : if fixed then d.exp = -308 else 0 ≤ d.exp) : Canon (leastExp fixed) (Dec.add ⟨0, 0⟩ d) := by
  cases fixed with
  | false => exact canon_add ⟨le_rfl, by norm_num, Or.inl rfl⟩ h
  | true =>
    have h : d.exp = -308 := h
    refine canon_fit (by simp [h, leastExp]) (Or.inl ?_)
    simp [h, leastExp]

theorem part_exp (fixed : Bool) {c : ℕ} {d : Dec} (h : partCost fixed (some c) = some d) : if fixed then d.exp = -308 else 0 ≤ d.exp := by
  cases fixed with
  | false => exact streamText_exp c h
  | true =>
    have := (fixedText_read c).symm.trans h
    rw [← Option.some.inj this]
    rfl

theorem canon_sum (fixed : Bool) (l : List (Option ℕ)) {d : Dec} (h : sumCost (l.map (partCost fixed)) = some d) : Canon (leastExp fixed) d := by
  have hz : leastExp fixed ≤ 0 := by cases fixed <;> decide
  have he : ∀ c d', partCost fixed (some c) = some d' → leastExp fixed ≤ d'.exp := by
    intro c d' h
    have := part_exp fixed h
    cases fixed with
    | false => exact this
    | true => exact ge_of_eq this
  have key : ∀ (l : List (Option ℕ)) (a : PartCost), (∀ x ∈ a, Canon (leastExp fixed) x) → ∀ d, (l.map (partCost fixed)).foldl addCost a = some d →
      Canon (leastExp fixed) d := by
    intro l
    induction l with
    | nil => intro a ha d h; exact ha d h
    | cons p l ih =>
      intro a ha d h
      rw [List.map_cons, List.foldl_cons] at h
      refine ih _ ?_ d h
      intro x hx
      cases a with
      | none =>
        cases p with
        | none => exact absurd hx (by simp [partCost, addCost])
        | some c =>
          cases hp : partCost fixed (some c) with
          | none => rw [hp] at hx; exact absurd hx (by simp [addCost])
          | some d' =>
            rw [hp] at hx
            change some (Dec.add ⟨0, 0⟩ d') = some x at hx
            rw [← Option.some.inj hx]
            exact canon_first fixed (part_exp fixed hp)
      | some y =>
        have hy := ha y rfl
        cases hp : partCost fixed p with
        | none =>
          rw [hp] at hx
          change some (Dec.add y ⟨0, 0⟩) = some x at hx
          rw [← Option.some.inj hx]
          exact canon_add hy hz
        | some d' =>
          rw [hp] at hx
          change some (Dec.add y d') = some x at hx
          rw [← Option.some.inj hx]
          cases p with
          | none => cases hp
          | some c => exact canon_add hy (he c d' hp)
  exact key l none (fun x hx => by simp at hx) d h

theorem stream_norm {c : ℕ} (h : 10 ^ 6 ≤ c) : ∃ m e, 5 ≤ e ∧ 10 ^ 5 ≤ m ∧ m < 10 ^ 6 ∧ streamText c = sciText m e ∧ roundSig 6 (c : ℚ) = m * (10 : ℚ) ^ ((e : ℤ) - 5) ∧ 6 ≤ e := by
  have hc : c ≠ 0 := by omega
  have hL : 6 ≤ Nat.log 10 c := (Nat.le_log_iff_pow_le (by norm_num) hc).2 h
  have hr := roundSig_tenRound (p := 6) hc (by omega) 0
  rw [zpow_zero, mul_one, show Nat.log 10 c + 1 - 6 = Nat.log 10 c - 5 by omega, zero_add] at hr
  have hb := tenRound_bounds (k := Nat.log 10 c - 5) hc (by omega)
  rw [show Nat.log 10 c - (Nat.log 10 c - 5) = 5 by omega] at hb
  unfold streamText
  rw [if_neg (by omega), hr]
  split
  · rename_i h6
    refine ⟨10 ^ 5, Nat.log 10 c + 1, by omega, le_rfl, by norm_num, rfl, ?_, by omega⟩
    rw [h6, show ((Nat.log 10 c + 1 : ℕ) : ℤ) - 5 = ((Nat.log 10 c - 5 : ℕ) : ℤ) + 1 by omega, zpow_add₀ (by norm_num)]
    push_cast
    norm_num
    ring
  · rename_i h6
    refine ⟨_, Nat.log 10 c, by omega, hb.1, lt_of_le_of_ne hb.2 h6, rfl, ?_, hL⟩
    rw [show ((Nat.log 10 c : ℕ) : ℤ) - 5 = ((Nat.log 10 c - 5 : ℕ) : ℤ) by omega]

theorem sci_lt {m m' e e' : ℕ} (h1 : m < 10 ^ 6) (h2 : 10 ^ 5 ≤ m') (h : e < e') : (m : ℚ) * (10 : ℚ) ^ ((e : ℤ) - 5) < m' * (10 : ℚ) ^ ((e' : ℤ) - 5) := by
  have a : (m : ℚ) * (10 : ℚ) ^ ((e : ℤ) - 5) < (10 : ℚ) ^ (6 + ((e : ℤ) - 5)) := by
    rw [zpow_add₀ (by norm_num)]
    exact mul_lt_mul_of_pos_right (by exact_mod_cast h1) (ten_zpow_pos _)
  have b : (10 : ℚ) ^ (5 + ((e' : ℤ) - 5)) ≤ m' * (10 : ℚ) ^ ((e' : ℤ) - 5) := by
    rw [zpow_add₀ (by norm_num)]
    exact mul_le_mul_of_nonneg_right (by exact_mod_cast h2) (ten_zpow_pos _).le
  have : (10 : ℚ) ^ (6 + ((e : ℤ) - 5)) ≤ (10 : ℚ) ^ (5 + ((e' : ℤ) - 5)) := zpow_le_zpow_right₀ (by norm_num) (by omega)
  linarith

theorem stream_same {c c' : ℕ} (h : roundSig 6 (c : ℚ) = roundSig 6 (c' : ℚ)) : streamText c = streamText c' := by
  have small : ∀ n : ℕ, n < 10 ^ 6 → roundSig 6 (n : ℚ) = n := by
    intro n hn
    have := roundSig_dec (p := 6) (by norm_num) (isDec_int (n := (n : ℤ)) (p := 6) (by rw [abs_of_nonneg (by positivity)]; exact_mod_cast hn))
    exact_mod_cast this
  have big : ∀ n : ℕ, 10 ^ 6 ≤ n → (10 : ℚ) ^ 6 ≤ roundSig 6 (n : ℚ) := by
    intro n hn
    have h1 : roundSig 6 ((10 : ℚ) ^ 6) ≤ roundSig 6 (n : ℚ) := roundSig_mono (by norm_num) (by exact_mod_cast hn)
    have h2 : roundSig 6 ((10 : ℚ) ^ 6) = (10 : ℚ) ^ 6 := roundSig_dec (by norm_num) ⟨1, 6, by norm_num, by norm_num⟩
    rwa [h2] at h1
  by_cases hc : c < 10 ^ 6
  · by_cases hc' : c' < 10 ^ 6
    · rw [small c hc, small c' hc'] at h
      rw [show c = c' by exact_mod_cast h]
    · have := big c' (by omega)
      rw [← h, small c hc] at this
      exact absurd (by exact_mod_cast this : 10 ^ 6 ≤ c) (by omega)
  · by_cases hc' : c' < 10 ^ 6
    · have := big c (by omega)
      rw [h, small c' hc'] at this
      exact absurd (by exact_mod_cast this : 10 ^ 6 ≤ c') (by omega)
    · obtain ⟨m, e, -, a1, a2, a3, a4, -⟩ := stream_norm (c := c) (by omega)
      obtain ⟨m', e', -, b1, b2, b3, b4, -⟩ := stream_norm (c := c') (by omega)
      rw [a3, b3]
      rw [a4, b4] at h
      rcases lt_trichotomy e e' with hlt | rfl | hlt
      · exact absurd h (sci_lt a2 b1 hlt).ne
      · have := mul_right_cancel₀ (ten_zpow_pos _).ne' h
        rw [show m = m' by exact_mod_cast this]
      · exact absurd h.symm (sci_lt b2 a1 hlt).ne

theorem part_same (fixed : Bool) {c c' : ℕ} (h : shownCost fixed c = shownCost fixed c') : partCost fixed (some c) = partCost fixed (some c') := by
  cases fixed with
  | false =>
    have : streamText c = streamText c' := stream_same (by simpa [shownCost] using h)
    change Dec.ofText (streamText c) = Dec.ofText (streamText c')
    rw [this]
  | true =>
    rw [shownCost_fixed, shownCost_fixed] at h
    rw [show c = c' by exact_mod_cast h]

theorem text_ascii {E : ℕ} (hE : E < 128) (d : Dec) : ∀ c ∈ d.text E, c < 128 := by
  have hd : ∀ n, ∀ c ∈ decText n, c < 128 := by
    intro n c hc
    have := digs_decText n c hc
    simp only [isNum, Bool.and_eq_true, decide_eq_true_eq] at this
    omega
  have hz : ∀ k, ∀ c ∈ List.replicate k 48, c < 128 := fun k c hc => by rw [List.eq_of_mem_replicate hc]; norm_num
  intro c hc
  rcases List.mem_append.1 hc with h | h
  · unfold placePoint at h
    split at h
    · rcases List.mem_cons.1 h with rfl | h
      · norm_num
      rcases List.mem_cons.1 h with rfl | h
      · norm_num
      exact (List.mem_append.1 h).elim (hz _ c) (hd _ c)
    · split at h
      · exact (List.mem_append.1 h).elim (hd _ c) (hz _ c)
      · rcases List.mem_append.1 h with h | h
        · exact hd _ c (List.mem_of_mem_take h)
        rcases List.mem_cons.1 h with rfl | h
        · norm_num
        exact hd _ c (List.mem_of_mem_drop h)
  · split at h
    · simp at h
    · rcases List.mem_cons.1 h with rfl | h
      · exact hE
      unfold plusText at h
      split at h
      · rcases List.mem_cons.1 h with rfl | h
        · norm_num
        exact hd _ c h
      · rcases List.mem_cons.1 h with rfl | h
        · norm_num
        exact hd _ c h

theorem str_ascii (d : Dec) : ∀ c ∈ d.str, c < 128 := text_ascii (by norm_num) d

end TNCO
