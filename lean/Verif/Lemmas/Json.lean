import Verif.Spec.Json
import Mathlib.Data.Nat.Digits.Lemmas
import Mathlib.Tactic.IntervalCases
import Mathlib.Data.List.TakeWhile

/-! # Lemmas: what is written is read -/

namespace TNCO

/-! ## Strings -/

theorem hexValue_hexDigit {k : ℕ} (h : k < 16) : hexValue (hexDigit k) = some k := by
  interval_cases k <;> decide

theorem readHex_hexEscape {n : ℕ} (h : n < 65536) (t : List ℕ) : readHex ((hexEscape n).drop 2 ++ t) = some (n, t) := by
  simp only [hexEscape, List.drop_succ_cons, List.drop_zero, List.cons_append, List.nil_append, readHex]
  rw [hexValue_hexDigit (Nat.mod_lt _ (by decide)), hexValue_hexDigit (Nat.mod_lt _ (by decide)), hexValue_hexDigit (Nat.mod_lt _ (by decide)),
    hexValue_hexDigit (Nat.mod_lt _ (by decide))]
  simp only [Option.some.injEq, Prod.mk.injEq, and_true]
  omega

theorem hexEscape_cons (n : ℕ) : hexEscape n = 92 :: 117 :: (hexEscape n).drop 2 := rfl

theorem readUnicode_low {n : ℕ} (h : n < 65536) (hs : ¬ (55296 ≤ n ∧ n < 56320)) (t : List ℕ) : readUnicode ((hexEscape n).drop 2 ++ t) = some (n, t) := by
  unfold readUnicode
  rw [readHex_hexEscape h]
  simp only [hs, if_false]

theorem readUnicode_pair {h l : ℕ} (hh : 55296 ≤ h ∧ h < 56320) (hl : 56320 ≤ l ∧ l < 57344) (t : List ℕ) :
    readUnicode ((hexEscape h).drop 2 ++ (hexEscape l ++ t)) = some (65536 + (h - 55296) * 1024 + (l - 56320), t) := by
  unfold readUnicode
  rw [readHex_hexEscape (by omega)]
  simp only [hh, and_self, if_true]
  rw [hexEscape_cons]
  simp only [List.cons_append]
  rw [readHex_hexEscape (by omega)]
  simp only [hl, and_self, if_true]

theorem readString_char {c : ℕ} (hc : CharOk c) (n : ℕ) (t : List ℕ) :
    readString (n + 1) (escapeChar c ++ t) = (readString n t).map fun p => (c :: p.1, p.2) := by
  unfold escapeChar
  split
  · subst c; rfl
  split
  · subst c; rfl
  split
  · subst c; rfl
  split
  · subst c; rfl
  split
  · subst c; rfl
  split
  · subst c; rfl
  split
  · subst c; rfl
  split
  · rename_i h1 h2 _ _ _ _ _ h
    have h3 : ¬ c < 32 := by omega
    simp only [List.cons_append, List.nil_append, readString, h1, h2, h3, if_false]
  split
  · rename_i h
    rw [hexEscape_cons]
    simp only [List.cons_append, readString]
    rw [readUnicode_low h (by unfold CharOk at hc; omega)]
    simp
  · rename_i h
    rw [List.append_assoc, hexEscape_cons (55296 + _)]
    simp only [List.cons_append, readString]
    rw [readUnicode_pair (by omega) (by omega)]
    have : 65536 + (55296 + (c - 65536) / 1024 % 1024 - 55296) * 1024 + (56320 + (c - 65536) % 1024 - 56320) = c := by
      unfold CharOk at hc
      omega
    rw [this]
    simp

theorem readString_text {s : List ℕ} (hs : TextOk s) (n : ℕ) (hn : s.length < n) (t : List ℕ) :
    readString n (s.flatMap escapeChar ++ 34 :: t) = some (s, t) := by
  induction s generalizing n with
  | nil =>
    obtain ⟨n, rfl⟩ : ∃ m, n = m + 1 := ⟨n - 1, by simp at hn; omega⟩
    simp [readString]
  | cons c s ih =>
    obtain ⟨n, rfl⟩ : ∃ m, n = m + 1 := ⟨n - 1, by simp at hn; omega⟩
    rw [List.flatMap_cons, List.append_assoc, readString_char (hs c (by simp)), ih (fun c h => hs c (List.mem_cons_of_mem _ h)) n (by simp at hn; omega)]
    rfl

theorem escapeChar_length (c : ℕ) : 0 < (escapeChar c).length := by
  unfold escapeChar
  repeat' split
  all_goals simp [hexEscape]

theorem flatMap_escape_length (s : List ℕ) : s.length ≤ (s.flatMap escapeChar).length := by
  induction s with
  | nil => simp
  | cons c s ih =>
    have := escapeChar_length c
    rw [List.flatMap_cons, List.length_append, List.length_cons]
    omega

/-! ## Numbers -/

/-- What may follow a number. -/
def NumEnds (rest : List ℕ) : Prop := ∀ c, rest.head? = some c → isNumChar c = false

theorem isDec_num {c : ℕ} (h : isDec c = true) : isNumChar c = true := by simp [isNumChar, h]

theorem exponent_chars {s : List ℕ} (h : exponentOk s = true) : ∀ c ∈ s, isNumChar c = true := by
  cases s with
  | nil => simp
  | cons e s =>
    simp only [exponentOk, Bool.and_eq_true, Bool.or_eq_true, beq_iff_eq] at h
    obtain ⟨he, h⟩ := h
    intro c hc
    rcases List.mem_cons.1 hc with rfl | hc
    · rcases he with rfl | rfl <;> decide
    · split at h
      · rename_i d
        simp only [Bool.and_eq_true, List.all_eq_true] at h
        rcases List.mem_cons.1 hc with rfl | hc
        · decide
        · exact isDec_num (h.2 c hc)
      · rename_i d
        simp only [Bool.and_eq_true, List.all_eq_true] at h
        rcases List.mem_cons.1 hc with rfl | hc
        · decide
        · exact isDec_num (h.2 c hc)
      · simp only [Bool.and_eq_true, List.all_eq_true] at h
        exact isDec_num (h.2 c hc)

theorem mem_takeWhile_isDec {s : List ℕ} {c : ℕ} (h : c ∈ s.takeWhile isDec) : isDec c = true := List.mem_takeWhile_imp h

theorem fraction_chars {s : List ℕ} (h : fractionOk s = true) : ∀ c ∈ s, isNumChar c = true := by
  unfold fractionOk at h
  split at h
  · rename_i s
    simp only [Bool.and_eq_true] at h
    intro c hc
    rcases List.mem_cons.1 hc with rfl | hc
    · decide
    · rw [← List.takeWhile_append_dropWhile (p := isDec) (l := s), List.mem_append] at hc
      rcases hc with hc | hc
      · exact isDec_num (mem_takeWhile_isDec hc)
      · exact exponent_chars h.2 c hc
  · exact exponent_chars h

theorem unsigned_chars {s : List ℕ} (h : unsignedOk s = true) : (∃ c t, s = c :: t ∧ isDec c = true) ∧ ∀ c ∈ s, isNumChar c = true := by
  have key : s.takeWhile isDec ≠ [] ∧ fractionOk (s.dropWhile isDec) = true := by
    unfold unsignedOk at h
    split at h
    · simp at h
    · rename_i c hc
      exact ⟨by simp [hc], h⟩
    · rename_i hc
      simp only [Bool.and_eq_true] at h
      exact ⟨by simp [hc], h.2⟩
  obtain ⟨k1, k2⟩ := key
  constructor
  · cases s with
    | nil => simp at k1
    | cons c t =>
      refine ⟨c, t, rfl, ?_⟩
      by_contra hc
      simp [List.takeWhile_cons, hc] at k1
  · intro c hc
    rw [← List.takeWhile_append_dropWhile (p := isDec) (l := s), List.mem_append] at hc
    rcases hc with hc | hc
    · exact isDec_num (mem_takeWhile_isDec hc)
    · exact fraction_chars k2 c hc

theorem number_chars {s : List ℕ} (h : numberOk s = true) :
    (∃ c t, s = c :: t ∧ (isDec c = true ∨ (c = 45 ∧ ∃ d u, t = d :: u ∧ isDec d = true))) ∧ ∀ c ∈ s, isNumChar c = true := by
  unfold numberOk at h
  split at h
  · rename_i s
    obtain ⟨⟨c, t, rfl, hc⟩, hall⟩ := unsigned_chars h
    refine ⟨⟨45, c :: t, rfl, .inr ⟨rfl, c, t, rfl, hc⟩⟩, ?_⟩
    intro x hx
    rcases List.mem_cons.1 hx with rfl | hx
    · decide
    · exact hall x hx
  · obtain ⟨⟨c, t, rfl, hc⟩, hall⟩ := unsigned_chars h
    exact ⟨⟨c, t, rfl, .inl hc⟩, hall⟩

theorem takeWhile_ends {s rest : List ℕ} (hs : ∀ c ∈ s, isNumChar c = true) (hr : NumEnds rest) :
    (s ++ rest).takeWhile isNumChar = s ∧ (s ++ rest).dropWhile isNumChar = rest := by
  have h1 : rest.takeWhile isNumChar = [] := by
    cases rest with
    | nil => rfl
    | cons c r => simp [List.takeWhile_cons, hr c rfl]
  have h2 : rest.dropWhile isNumChar = rest := by
    cases rest with
    | nil => rfl
    | cons c r => simp [List.dropWhile_cons, hr c rfl]
  constructor
  · rw [List.takeWhile_append_of_pos hs, h1, List.append_nil]
  · rw [List.dropWhile_append_of_pos hs, h2]

theorem readNumber_text {r : List ℕ} (h : FloatOk r) {rest : List ℕ} (hr : NumEnds rest) : readNumber (r ++ rest) = some (.num r, rest) := by
  unfold readNumber
  rcases h with h | rfl | rfl | rfl
  · obtain ⟨⟨c, t, hrt, hc⟩, hall⟩ := number_chars h
    have hc' : c ≠ 78 ∧ c ≠ 73 := by
      rcases hc with hc | ⟨rfl, -⟩
      · simp only [isDec, Bool.and_eq_true, decide_eq_true_eq] at hc
        omega
      · decide
    have n1 : (r ++ rest).take 3 ≠ nanText := by
      subst hrt
      intro h
      simp [nanText] at h
      omega
    have n2 : (r ++ rest).take 8 ≠ infText := by
      subst hrt
      intro h
      simp [infText] at h
      omega
    have n3 : (r ++ rest).take 9 ≠ 45 :: infText := by
      subst hrt
      intro h
      rcases hc with hc | ⟨rfl, d, u, rfl, hd⟩
      · simp only [isDec, Bool.and_eq_true, decide_eq_true_eq] at hc
        simp [infText] at h
        omega
      · simp only [isDec, Bool.and_eq_true, decide_eq_true_eq] at hd
        simp [infText] at h
        omega
    obtain ⟨e1, e2⟩ := takeWhile_ends hall hr
    rw [if_neg n1, if_neg n2, if_neg n3, e1, e2, if_pos h]
  · simp [nanText]
  · simp [nanText, infText]
  · simp [nanText, infText]

theorem decText_chars (n : ℕ) : ∀ c ∈ decText n, isDec c = true := by
  intro c hc
  unfold decText at hc
  split at hc
  · simp only [List.mem_singleton] at hc
    subst hc
    decide
  · simp only [List.mem_reverse, List.mem_map] at hc
    obtain ⟨d, hd, rfl⟩ := hc
    have := Nat.digits_lt_base (by decide : 1 < 10) hd
    simp [isDec]
    omega

theorem unsignedOk_decText (n : ℕ) : unsignedOk (decText n) = true := by
  have h1 : (decText n).takeWhile isDec = decText n := List.takeWhile_eq_self_iff.2 (decText_chars n)
  have h2 : (decText n).dropWhile isDec = [] := List.dropWhile_eq_nil_iff.2 (decText_chars n)
  unfold unsignedOk
  rw [h1, h2]
  split
  · rename_i h
    unfold decText at h
    split at h
    · simp at h
    · rename_i hn
      simp [Nat.digits_eq_nil_iff_eq_zero, hn] at h
  · rfl
  · rename_i c _ t h
    have : c ≠ 48 := by
      unfold decText at h
      split at h
      · simp at h
      · rename_i hn
        have hl := Nat.getLast_digit_ne_zero 10 hn
        have hne : Nat.digits 10 n ≠ [] := Nat.digits_ne_nil_iff_ne_zero.2 hn
        rw [← List.dropLast_append_getLast hne] at h
        simp only [List.map_append, List.map_cons, List.map_nil, List.reverse_append, List.reverse_cons, List.reverse_nil, List.nil_append,
          List.cons_append, List.cons.injEq] at h
        omega
    simp [this, fractionOk, exponentOk]

theorem numberOk_intText (z : ℤ) : numberOk (intText z) = true := by
  cases z with
  | ofNat n =>
    have h := unsignedOk_decText n
    obtain ⟨⟨c, t, e, hc⟩, -⟩ := unsigned_chars h
    simp only [intText]
    rw [e] at h ⊢
    unfold numberOk
    split
    · rename_i heq
      simp only [List.cons.injEq] at heq
      rw [heq.1] at hc
      simp [isDec] at hc
    · exact h
  | negSucc n => exact unsignedOk_decText (n + 1)

theorem natValue_decText (n : ℕ) : natValue (decText n) = n := by
  unfold decText natValue
  split
  · rename_i h
    subst h
    rfl
  · conv_rhs => rw [← Nat.ofDigits_digits 10 n]
    rw [List.foldl_reverse]
    generalize Nat.digits 10 n = l
    induction l with
    | nil => rfl
    | cons d l ih =>
      simp only [List.map_cons, List.foldr_cons, ih, Nat.ofDigits_cons]
      simp
      omega

theorem intValue_intText (z : ℤ) : intValue (intText z) = z := by
  cases z with
  | ofNat n =>
    obtain ⟨⟨c, t, e, hc⟩, -⟩ := unsigned_chars (unsignedOk_decText n)
    have : c ≠ 45 := by
      rintro rfl
      simp [isDec] at hc
    have h := natValue_decText n
    simp only [intText]
    rw [e] at h ⊢
    unfold intValue
    split
    · rename_i heq
      simp only [List.cons.injEq] at heq
      exact absurd heq.1 this
    · rw [h]
      rfl
  | negSucc n =>
    simp only [intText, intValue, natValue_decText]
    rfl

theorem intText_injective {a b : ℤ} (h : intText a = intText b) : a = b := by
  rw [← intValue_intText a, h, intValue_intText]

theorem floatOk_text {r : List ℕ} (h : FloatOk r) : TextOk r := by
  have hn : ∀ c, isNumChar c = true → CharOk c := by
    intro c hc
    left
    simp only [isNumChar, isDec, Bool.or_eq_true, Bool.and_eq_true, decide_eq_true_eq, beq_iff_eq] at hc
    omega
  rcases h with h | rfl | rfl | rfl
  · exact fun c hc => hn c ((number_chars h).2 c hc)
  all_goals
    intro c hc
    left
    simp [nanText, infText] at hc
    omega

end TNCO
