import Verif.Spec.Twister
import Verif.Lemmas.Json

/-!
# Writing and reading the state of the generator
-/

namespace TNCO

theorem isNum_eq : isNum = isDec := rfl

theorem numValue_decText (n : ℕ) : numValue (decText n) = n := natValue_decText n

theorem decText_ne_nil (n : ℕ) : decText n ≠ [] := by
  unfold decText
  split
  · simp
  · rename_i h
    simp [Nat.digits_eq_nil_iff_eq_zero, h]

theorem isBlank_of_num {c : ℕ} (h : isNum c = true) : isBlank c = false := by
  simp [isNum, isBlank] at h ⊢
  omega

/-- Reading a number that was written, followed by a space or by nothing. -/
theorem extract_dec {n : ℕ} (hn : n < 2 ^ 64) (rest : List ℕ) (hr : ∀ c r, rest = c :: r → isNum c = false) :
    extractNumber ⟨decText n ++ rest, true⟩ = (some n, ⟨rest, rest ≠ []⟩) := by
  have hall : ∀ c ∈ decText n, isNum c = true := decText_chars n
  obtain ⟨c, t, e⟩ : ∃ c t, decText n = c :: t := by
    cases h : decText n with
    | nil => exact absurd h (decText_ne_nil n)
    | cons c t => exact ⟨c, t, rfl⟩
  have hc : isNum c = true := hall c (by simp [e])
  have hdrop : (decText n ++ rest).dropWhile isBlank = decText n ++ rest := by
    rw [e, List.cons_append, List.dropWhile_cons_of_neg (by simp [isBlank_of_num hc])]
  have htake : (decText n ++ rest).takeWhile isNum = decText n := by
    rw [List.takeWhile_append_of_pos hall]
    cases rest with
    | nil => simp
    | cons c r => rw [List.takeWhile_cons_of_neg (by simp [hr c r rfl])]; simp
  have hdw : (decText n ++ rest).dropWhile isNum = rest := by
    rw [List.dropWhile_append_of_pos hall]
    cases rest with
    | nil => simp
    | cons c r => rw [List.dropWhile_cons_of_neg (by simp [hr c r rfl])]
  have hs : ¬ (c = 45 ∨ c = 43) := by
    simp [isNum] at hc
    omega
  unfold extractNumber
  rw [if_neg (by simp)]
  dsimp only
  rw [hdrop]
  rw [e, List.cons_append] at htake hdw ⊢
  dsimp only
  rw [if_neg hs, htake, hdw, ← e]
  unfold finishNumber
  rw [if_neg (decText_ne_nil n), numValue_decText, if_neg (by omega)]
  simp

/-- A space before a number is skipped. -/
theorem extract_blank (l : List ℕ) : extractNumber ⟨32 :: l, true⟩ = extractNumber ⟨l, true⟩ := by
  unfold extractNumber
  simp [isBlank]

theorem readWords_dump (ws : List ℕ) (hw : ∀ w ∈ ws, w < 2 ^ 64) (old : List ℕ) (ho : old.length = ws.length) (l : List ℕ)
    (hl : l ≠ []) (pre : List ℕ) (hpre : pre = [] ∨ pre = [32]) :
    ∃ pre', (pre' = [] ∨ pre' = [32]) ∧
      readWords ⟨pre ++ (ws.flatMap (fun w => decText w ++ [32]) ++ l), true⟩ old = (ws, ⟨pre' ++ l, true⟩) := by
  induction ws generalizing old pre with
  | nil =>
    cases old with
    | nil => exact ⟨pre, hpre, by simp [readWords]⟩
    | cons _ _ => simp at ho
  | cons w ws ih =>
    cases old with
    | nil => simp at ho
    | cons x old =>
      have e1 : extractNumber ⟨pre ++ ((w :: ws).flatMap (fun w => decText w ++ [32]) ++ l), true⟩ =
          (some w, ⟨[32] ++ (ws.flatMap (fun w => decText w ++ [32]) ++ l), true⟩) := by
        have e2 := extract_dec (hw w (by simp)) ([32] ++ (ws.flatMap (fun w => decText w ++ [32]) ++ l)) (by
          intro c r h
          simp only [List.cons_append, List.nil_append, List.cons.injEq] at h
          rw [← h.1]; decide)
        have e3 : (w :: ws).flatMap (fun w => decText w ++ [32]) ++ l =
            decText w ++ ([32] ++ (ws.flatMap (fun w => decText w ++ [32]) ++ l)) := by simp
        rcases hpre with rfl | rfl
        · rw [List.nil_append, e3, e2]; simp
        · rw [List.singleton_append, extract_blank, e3, e2]; simp
      obtain ⟨pre', h1, h2⟩ := ih (fun w h => hw w (by simp [h])) old (by simpa using ho) [32] (Or.inr rfl)
      refine ⟨pre', h1, ?_⟩
      rw [readWords, e1]
      dsimp only
      rw [h2]
      rfl

theorem Mt.Ok.restore {e : Mt} (h : e.Ok) {e0 : Mt} (h0 : e0.words.length = 624) : e0.read e.dump = e := by
  obtain ⟨pre', h1, h2⟩ := readWords_dump e.words h.2.1 e0.words (h0.trans h.1.symm) (decText e.pos) (decText_ne_nil _) []
    (Or.inl rfl)
  rw [List.nil_append] at h2
  unfold Mt.read Mt.dump
  rw [h2]
  dsimp only
  have e1 := extract_dec h.2.2 [] (by simp)
  rw [List.append_nil] at e1
  have : extractNumber ⟨pre' ++ decText e.pos, true⟩ = (some e.pos, ⟨[], decide (([] : List ℕ) ≠ [])⟩) := by
    rcases h1 with rfl | rfl
    · exact e1
    · rw [List.singleton_append, extract_blank]; exact e1
  rw [this]
  rfl

theorem seedLoop_length (n i x : ℕ) : (seedLoop n i x).length = n := by
  induction n generalizing i x with
  | zero => rfl
  | succ n ih => simp [seedLoop, ih]

theorem seedLoop_lt (n i x : ℕ) : ∀ w ∈ seedLoop n i x, w < 2 ^ 32 := by
  induction n generalizing i x with
  | zero => simp [seedLoop]
  | succ n ih =>
    intro w hw
    rw [seedLoop, List.mem_cons] at hw
    rcases hw with rfl | hw
    · exact Nat.mod_lt _ (by norm_num)
    · exact ih _ _ w hw

theorem seed_proper (n : ℕ) : (Mt.seed n).Proper := by
  refine ⟨?_, ?_, ?_⟩
  · unfold Mt.seed
    rw [List.length_cons, seedLoop_length]
  · intro w hw
    unfold Mt.seed at hw
    rcases List.mem_cons.1 hw with rfl | hw
    · exact Nat.mod_lt _ (by norm_num)
    · exact seedLoop_lt _ _ _ w hw
  · unfold Mt.seed
    exact le_refl _

theorem Mt.Proper.ok {e : Mt} (h : e.Proper) : e.Ok :=
  ⟨h.1, fun w hw => lt_trans (h.2.1 w hw) (by norm_num), lt_of_le_of_lt h.2.2 (by norm_num)⟩

/-! ## Any text -/

theorem extract_lt (s : InStream) : ∀ v, (extractNumber s).1 = some v → v < 2 ^ 64 := by
  intro v hv
  have hf : ∀ neg d r, (finishNumber neg d r).1 < 2 ^ 64 := by
    intro neg d r
    unfold finishNumber
    split
    · norm_num
    · split
      · norm_num
      · dsimp only
        split
        · exact Nat.mod_lt _ (by norm_num)
        · omega
  unfold extractNumber at hv
  split at hv
  · cases hv
  · split at hv
    · cases hv
    · split at hv
      · simp only [Prod.map, Option.some.injEq] at hv
        rw [← hv]; exact hf _ _ _
      · simp only [Prod.map, Option.some.injEq] at hv
        rw [← hv]; exact hf _ _ _

theorem readWords_ok (s : InStream) (ws : List ℕ) (h : ∀ w ∈ ws, w < 2 ^ 64) :
    (readWords s ws).1.length = ws.length ∧ ∀ w ∈ (readWords s ws).1, w < 2 ^ 64 := by
  induction ws generalizing s with
  | nil => simp [readWords]
  | cons w ws ih =>
    obtain ⟨h1, h2⟩ := ih (extractNumber s).2 (fun w hw => h w (by simp [hw]))
    rw [readWords]
    refine ⟨by simp [h1], ?_⟩
    intro v hv
    rcases List.mem_cons.1 hv with rfl | hv
    · cases e : (extractNumber s).1 with
      | none => exact h w (by simp)
      | some v => exact extract_lt s v e
    · exact h2 v hv

theorem Mt.Ok.read {e : Mt} (h : e.Ok) (text : List ℕ) : (e.read text).Ok := by
  obtain ⟨h1, h2⟩ := readWords_ok ⟨text, true⟩ e.words h.2.1
  refine ⟨h1.trans h.1, h2, ?_⟩
  unfold Mt.read
  dsimp only
  cases e' : (extractNumber (readWords ⟨text, true⟩ e.words).2).1 with
  | none => exact h.2.2
  | some v => exact extract_lt _ v e'

/-- Once the stream is not good, nothing is changed. -/
theorem readWords_bad (l : List ℕ) (ws : List ℕ) : readWords ⟨l, false⟩ ws = (ws, ⟨l, false⟩) := by
  induction ws with
  | nil => rfl
  | cons w ws ih =>
    have e : extractNumber ⟨l, false⟩ = (none, ⟨l, false⟩) := rfl
    rw [readWords, e]
    dsimp only
    rw [ih]
    rfl

theorem extract_gap {g : List ℕ} (hg : IsGap g) (l : List ℕ) : extractNumber ⟨g ++ l, true⟩ = extractNumber ⟨l, true⟩ := by
  have h : (g ++ l).dropWhile isBlank = l.dropWhile isBlank := by
    rw [List.dropWhile_append_of_pos]
    intro c hc
    have := hg c hc
    simp only [List.mem_cons, List.not_mem_nil, or_false] at this
    rcases this with rfl | rfl | rfl | rfl | rfl | rfl <;> decide
  unfold extractNumber
  simp only [h, Bool.true_eq_false, if_false]

theorem gap_not_num {c : ℕ} (h : IsGap [c]) : isNum c = false := by
  have := h c (by simp)
  simp only [List.mem_cons, List.not_mem_nil, or_false] at this
  rcases this with rfl | rfl | rfl | rfl | rfl | rfl <;> decide

theorem readWords_written (ws : List ℕ) (pos : ℕ) (hw : ∀ w ∈ ws ++ [pos], w < 2 ^ 64) (old : List ℕ) (ho : old.length = ws.length)
    (text : List ℕ) (ht : WrittenAs (ws ++ [pos]) text) :
    ∃ rest, WrittenAs [pos] rest ∧ readWords ⟨text, true⟩ old = (ws, ⟨rest, true⟩) := by
  induction ws generalizing old text with
  | nil =>
    cases old with
    | nil => exact ⟨text, ht, rfl⟩
    | cons _ _ => simp at ho
  | cons w ws ih =>
    cases old with
    | nil => simp at ho
    | cons x old =>
      rw [List.cons_append] at ht
      generalize hns : w :: (ws ++ [pos]) = l at ht
      cases ht with
      | last n g tail hg htail => simp at hns
      | more n c g ns rest hg hc hr =>
        obtain ⟨rfl, rfl⟩ := List.cons.inj hns
        obtain ⟨r, h1, h2⟩ := ih (fun v hv => hw v (by simp at hv ⊢; tauto)) old (by simpa using ho) _ hr
        refine ⟨r, h1, ?_⟩
        have e2 := extract_dec (hw w (by simp)) (c :: rest) (by
          intro c' r' h
          rw [← (List.cons.inj h).1]; exact gap_not_num hc)
        rw [readWords, extract_gap hg, e2]
        simp only [ne_eq, reduceCtorEq, not_false_eq_true, decide_true]
        rw [h2]
        rfl

theorem extract_written {n : ℕ} (hn : n < 2 ^ 64) {text : List ℕ} (h : WrittenAs [n] text) :
    (extractNumber ⟨text, true⟩).1 = some n := by
  generalize hl : [n] = l at h
  cases h with
  | last m g tail hg ht =>
    obtain ⟨rfl, -⟩ := List.cons.inj hl
    rw [extract_gap hg, extract_dec hn tail]
    intro c r h
    have := ht c r h
    simp [isNum]; omega
  | more m c g ns rest hg hc hr =>
    obtain ⟨rfl, rfl⟩ := List.cons.inj hl
    cases hr

/-- One number per line, with the ends of lines of Windows. -/
theorem written_lines (n : ℕ) (ns : List ℕ) : WrittenAs (ns ++ [n]) ((ns ++ [n]).flatMap fun w => 13 :: 10 :: decText w) := by
  induction ns with
  | nil =>
    have := WrittenAs.last n [13, 10] [] (by simp [IsGap]) (by simp)
    simpa using this
  | cons w ns ih =>
    obtain ⟨r, hr⟩ : ∃ r, (ns ++ [n]).flatMap (fun w => 13 :: 10 :: decText w) = 13 :: r := by
      cases ns <;> simp
    rw [hr] at ih
    have := WrittenAs.more w 13 [13, 10] (ns ++ [n]) r (by simp [IsGap]) (by simp [IsGap]) ih
    simpa [List.flatMap_cons, ← hr] using this

end TNCO
