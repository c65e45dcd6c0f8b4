import Verif.Spec.LoadText

/-!
# Lines and words of a text
-/

namespace TNCO

/-! ## Lines -/

theorem splitGo_append {l : List ℕ} (hl : ∀ c ∈ l, isBreak c = false) (h0 : l ≠ []) (cr : Bool) (cur s : List ℕ) :
    splitGo cr cur (l ++ s) = splitGo false (cur ++ l) s := by
  induction l generalizing cr cur with
  | nil => exact absurd rfl h0
  | cons c l ih =>
    have hc := hl c List.mem_cons_self
    have h10 : c ≠ 10 := by rintro rfl; revert hc; decide
    have h1 : splitGo cr cur (c :: (l ++ s)) = splitGo false (cur ++ [c]) (l ++ s) := by
      rw [splitGo.eq_def]
      simp [h10, hc]
    rw [List.cons_append, h1]
    by_cases hl0 : l = []
    · simp [hl0]
    · rw [ih (fun c hc => hl c (List.mem_cons_of_mem _ hc)) hl0]
      simp

theorem splitGo_append' {l : List ℕ} (hl : ∀ c ∈ l, isBreak c = false) (s : List ℕ) : splitGo false [] (l ++ s) = splitGo false l s := by
  by_cases h : l = []
  · simp [h]
  · rw [splitGo_append hl h]; simp

theorem splitGo_break {b : ℕ} (hb : isBreak b = true) (cur s : List ℕ) : splitGo false cur (b :: s) = cur :: splitGo (decide (b = 13)) [] s := by
  rw [splitGo.eq_def]
  simp [hb]

theorem splitGo_cr {s : List ℕ} (h : s.head? ≠ some 10) : splitGo true [] s = splitGo false [] s := by
  cases s with
  | nil => rfl
  | cons c s =>
    have : c ≠ 10 := by simpa using h
    rw [splitGo.eq_def, splitGo.eq_def false]
    simp [this]

theorem splitGo_lf (s : List ℕ) : splitGo true [] (10 :: s) = splitGo false [] s := by
  rw [splitGo.eq_def]
  simp

theorem splitlines_of {s : List ℕ} {ls : List (List ℕ)} (h : IsLines s ls) : splitlines s = ls := by
  unfold splitlines
  induction h with
  | nil => rfl
  | last l h0 hl =>
    have := splitGo_append' hl []
    rw [List.append_nil] at this
    rw [this]
    cases l with
    | nil => exact absurd rfl h0
    | cons c l => rfl
  | one l b s ls hl hb hn _ ih =>
    rw [splitGo_append' hl, splitGo_break hb]
    by_cases h13 : b = 13
    · have : s.head? ≠ some 10 := fun h => hn ⟨h13, h⟩
      simp only [h13, decide_true, splitGo_cr this, ih]
    · simp only [h13, decide_false, ih]
  | crlf l s ls hl _ ih =>
    rw [splitGo_append' hl, splitGo_break (by decide)]
    simp only [decide_true, splitGo_lf, ih]

theorem splitGo_isLines (s : List ℕ) : (∀ cur, (∀ c ∈ cur, isBreak c = false) → IsLines (cur ++ s) (splitGo false cur s)) ∧
    IsLines (if s.head? = some 10 then s.tail else s) (splitGo true [] s) := by
  induction s with
  | nil =>
    refine ⟨fun cur hc => ?_, .nil⟩
    cases cur with
    | nil => exact .nil
    | cons c cur => rw [List.append_nil]; exact .last _ (by simp) hc
  | cons c s ih =>
    have h1 : ∀ cur, (∀ c ∈ cur, isBreak c = false) → IsLines (cur ++ c :: s) (splitGo false cur (c :: s)) := by
      intro cur hc
      by_cases hb : isBreak c = true
      · rw [splitGo_break hb]
        by_cases h13 : c = 13
        · have h2 := ih.2
          simp only [h13, decide_true]
          by_cases h10 : s.head? = some 10
          · rw [if_pos h10] at h2
            cases s with
            | nil => simp at h10
            | cons d s =>
              simp only [List.head?_cons, Option.some.injEq] at h10
              subst h10
              exact .crlf _ _ _ hc h2
          · rw [if_neg h10] at h2
            exact .one _ _ _ _ hc (by decide) (fun h => h10 h.2) h2
        · simp only [h13, decide_false]
          exact .one _ _ _ _ hc hb (fun h => h13 h.1) (ih.1 [] (by simp))
      · have e : splitGo false cur (c :: s) = splitGo false (cur ++ [c]) s := by
          rw [splitGo.eq_def]; simp [hb]
        rw [e]
        have := ih.1 (cur ++ [c]) (by
          intro d hd
          rcases List.mem_append.1 hd with hd | hd
          · exact hc d hd
          · rw [List.mem_singleton.1 hd]; simpa using hb)
        simpa using this
    refine ⟨h1, ?_⟩
    by_cases h10 : c = 10
    · subst h10
      simp only [List.head?_cons, if_true, List.tail_cons, splitGo_lf]
      exact ih.1 [] (by simp)
    · have : (c :: s).head? ≠ some 10 := by simpa using h10
      rw [if_neg this, splitGo_cr this]
      exact h1 [] (by simp)

/-- `splitlines` gives the lines. -/
theorem splitlines_iff {s : List ℕ} {ls : List (List ℕ)} : splitlines s = ls ↔ IsLines s ls := by
  refine ⟨?_, splitlines_of⟩
  rintro rfl
  exact (splitGo_isLines s).1 [] (by simp)

/-! ## Words -/

theorem splitWords_space {cur ws : List ℕ} (hw : ∀ c ∈ ws, isSpace c = true) (h0 : ws ≠ []) (h1 : cur ≠ []) (s : List ℕ) :
    splitWords cur (ws ++ s) = cur :: splitWords [] (ws.tail ++ s) := by
  cases cur with
  | nil => exact absurd rfl h1
  | cons d cur =>
    cases ws with
    | nil => exact absurd rfl h0
    | cons c ws => simp [splitWords, hw c List.mem_cons_self]

theorem splitWords_skip {ws : List ℕ} (hw : ∀ c ∈ ws, isSpace c = true) (s : List ℕ) : splitWords [] (ws ++ s) = splitWords [] s := by
  induction ws with
  | nil => rfl
  | cons c ws ih =>
    rw [List.cons_append, splitWords, if_pos (hw c List.mem_cons_self)]
    exact ih fun c hc => hw c (List.mem_cons_of_mem _ hc)

theorem splitWords_word {w : List ℕ} (hw : ∀ c ∈ w, isSpace c = false) (cur s : List ℕ) : splitWords cur (w ++ s) = splitWords (cur ++ w) s := by
  induction w generalizing cur with
  | nil => simp
  | cons c w ih =>
    have hc := hw c List.mem_cons_self
    have : splitWords cur (c :: (w ++ s)) = splitWords (cur ++ [c]) (w ++ s) := by
      cases cur <;> simp [splitWords, hc]
    rw [List.cons_append, this, ih fun c hc => hw c (List.mem_cons_of_mem _ hc)]
    simp

theorem splitWords_trail {ws : List ℕ} (hw : ∀ c ∈ ws, isSpace c = true) (cur s : List ℕ) : splitWords cur (s ++ ws) = splitWords cur s := by
  induction s generalizing cur with
  | nil =>
    have h := splitWords_skip hw []
    rw [List.append_nil] at h
    rw [List.nil_append]
    cases cur with
    | nil => exact h
    | cons d cur =>
      by_cases h0 : ws = []
      · rw [h0]
      · have := splitWords_space hw h0 (cur := d :: cur) (by simp) []
        rw [List.append_nil, List.append_nil] at this
        rw [this]
        have h' := splitWords_skip (ws := ws.tail) (fun c hc => hw c (List.mem_of_mem_tail hc)) []
        rw [List.append_nil] at h'
        rw [h']
        rfl
  | cons c s ih =>
    rw [List.cons_append]
    cases cur <;> simp only [splitWords, ih]

theorem splitWords_collapse (s : List ℕ) : (∀ cur, splitWords cur (collapse false s) = splitWords cur s) ∧
    splitWords [] (collapse true s) = splitWords [] s := by
  induction s with
  | nil => exact ⟨fun _ => rfl, rfl⟩
  | cons c s ih =>
    by_cases hc : isSpace c = true
    · constructor
      · intro cur
        cases cur <;> simp [collapse, hc, splitWords, ih.2, show isSpace 32 = true from by decide]
      · simp [collapse, hc, splitWords, ih.2]
    · have hc : isSpace c = false := by simpa using hc
      constructor
      · intro cur
        cases cur <;> simp [collapse, hc, splitWords, ih.1]
      · simp [collapse, hc, splitWords, ih.1]

theorem mem_takeWhile {α : Type} {p : α → Bool} {l : List α} {x : α} (h : x ∈ l.takeWhile p) : p x = true := by
  induction l with
  | nil => simp at h
  | cons a l ih =>
    rw [List.takeWhile_cons] at h
    split at h
    · rcases List.mem_cons.1 h with rfl | h
      · assumption
      · exact ih h
    · simp at h

theorem splitWords_strip (s : List ℕ) : splitWords [] (strip s) = splitWords [] s := by
  have h1 : splitWords [] (s.dropWhile isSpace) = splitWords [] s := by
    conv_rhs => rw [← List.takeWhile_append_dropWhile (p := isSpace) (l := s)]
    rw [splitWords_skip fun c hc => mem_takeWhile hc]
  rw [← h1]
  unfold strip
  generalize s.dropWhile isSpace = t
  have e : t = (t.reverse.dropWhile isSpace).reverse ++ (t.reverse.takeWhile isSpace).reverse := by
    rw [← List.reverse_append, List.takeWhile_append_dropWhile, List.reverse_reverse]
  conv_rhs => rw [e]
  rw [splitWords_trail fun c hc => mem_takeWhile (List.mem_reverse.1 hc)]

theorem IsNames.head {s : List ℕ} {names : List (List ℕ)} (h : IsNames s names) : ∀ c, s.head? = some c → isSpace c = true := by
  intro c hc
  cases h with
  | nil ws hw => exact hw c (List.mem_of_mem_head? hc)
  | cons ws name rest names h0 hw _ _ _ _ =>
    cases ws with
    | nil => exact absurd rfl h0
    | cons d ws =>
      simp only [List.cons_append, List.head?_cons, Option.some.injEq] at hc
      exact hw c (by rw [← hc]; exact List.mem_cons_self)

theorem splitWords_cur {s : List ℕ} (hs : ∀ c, s.head? = some c → isSpace c = true) {cur : List ℕ} (hc : cur ≠ []) :
    splitWords cur s = cur :: splitWords [] s := by
  cases cur with
  | nil => exact absurd rfl hc
  | cons d cur =>
    cases s with
    | nil => rfl
    | cons c s => simp [splitWords, hs c rfl]

theorem IsNames.words {s : List ℕ} {names : List (List ℕ)} (h : IsNames s names) : splitWords [] s = names := by
  induction h with
  | nil ws hw =>
    have := splitWords_skip hw []
    rw [List.append_nil] at this
    rw [this]; rfl
  | cons ws name rest names h0 hw hn hname hrest hd ih =>
    rw [List.append_assoc, splitWords_skip hw, splitWords_word hname, List.nil_append, splitWords_cur hd hn, ih]

theorem isNames_words : ∀ (n : ℕ) (s : List ℕ), s.length ≤ n → (∀ c, s.head? = some c → isSpace c = true) → IsNames s (splitWords [] s) := by
  intro n
  induction n with
  | zero =>
    intro s hs _
    have : s = [] := List.length_eq_zero_iff.1 (by omega)
    subst this
    exact .nil [] (by simp)
  | succ n ih =>
    intro s hs hd
    have e := List.takeWhile_append_dropWhile (p := isSpace) (l := s)
    set ws := s.takeWhile isSpace with hws
    have hw : ∀ c ∈ ws, isSpace c = true := fun c hc => mem_takeWhile hc
    cases ht : s.dropWhile isSpace with
    | nil =>
      rw [ht, List.append_nil] at e
      have : splitWords [] s = [] := by
        have := splitWords_skip hw []
        rw [List.append_nil] at this
        rw [← e, this]; rfl
      rw [this, ← e]
      exact .nil _ hw
    | cons c t =>
      rw [ht] at e
      have hc : isSpace c = false := by
        have := List.head?_dropWhile_not isSpace s
        rw [ht] at this
        simpa using this
      have h0 : ws ≠ [] := by
        intro h0
        rw [h0, List.nil_append] at e
        have := hd c (by rw [← e]; rfl)
        rw [hc] at this
        cases this
      have e2 := List.takeWhile_append_dropWhile (p := fun c => !isSpace c) (l := c :: t)
      set name := (c :: t).takeWhile fun c => !isSpace c with hnm
      set rest := (c :: t).dropWhile fun c => !isSpace c with hrs
      have hname : ∀ c ∈ name, isSpace c = false := fun c hc => by simpa using mem_takeWhile hc
      have hn0 : name ≠ [] := by rw [hnm, List.takeWhile_cons]; simp [hc]
      have hrd : ∀ c, rest.head? = some c → isSpace c = true := by
        intro d hd'
        have := List.head?_dropWhile_not (fun c => !isSpace c) (c :: t)
        rw [← hrs, hd'] at this
        simpa using this
      have hlen : rest.length ≤ n := by
        have h1 : s.length = ws.length + (name.length + rest.length) := by rw [← e, ← e2]; simp
        have h2 : 0 < ws.length := List.length_pos_iff.2 h0
        omega
      have e3 : s = ws ++ name ++ rest := by rw [List.append_assoc, e2, e]
      have e4 : splitWords [] s = name :: splitWords [] rest := by
        rw [e3, List.append_assoc, splitWords_skip hw, splitWords_word hname, List.nil_append, splitWords_cur hrd hn0]
      rw [e4, e3]
      exact .cons _ _ _ _ h0 hw hn0 hname (ih rest hlen hrd) hrd

/-! ## Data lines -/

section
variable {digit : ℕ → Option ℕ}

theorem wordVal_eq {ds vs : List ℕ} (h : ds.map digit = vs.map some) : wordVal digit ds = vs.foldl (fun n v => 10 * n + v) 0 := by
  unfold wordVal
  suffices H : ∀ k, ds.foldl (fun n c => 10 * n + (digit c).getD 0) k = vs.foldl (fun n v => 10 * n + v) k from H 0
  intro k
  induction ds generalizing vs k with
  | nil =>
    cases vs with
    | nil => rfl
    | cons v vs => simp at h
  | cons d ds ih =>
    cases vs with
    | nil => simp at h
    | cons v vs =>
      simp only [List.map_cons, List.cons.injEq] at h
      rw [List.foldl_cons, List.foldl_cons, h.1]
      exact ih h.2 _

theorem digits_of {ds vs : List ℕ} (h : ds.map digit = vs.map some) : ∀ c ∈ ds, (digit c).isSome = true := by
  intro c hc
  have : digit c ∈ ds.map digit := List.mem_map_of_mem hc
  rw [h] at this
  obtain ⟨v, _, hv⟩ := List.mem_map.1 this
  rw [← hv]; rfl

theorem exists_vals {ds : List ℕ} (h : ∀ c ∈ ds, (digit c).isSome = true) : ∃ vs : List ℕ, ds.map digit = vs.map some := by
  induction ds with
  | nil => exact ⟨[], rfl⟩
  | cons d ds ih =>
    obtain ⟨vs, hvs⟩ := ih fun c hc => h c (List.mem_cons_of_mem _ hc)
    obtain ⟨v, hv⟩ := Option.isSome_iff_exists.1 (h d List.mem_cons_self)
    exact ⟨v :: vs, by rw [List.map_cons, List.map_cons, hv, hvs]⟩

theorem dropWhile_digits {ds : List ℕ} (h : ∀ c ∈ ds, (digit c).isSome = true) {rest : List ℕ} (hd : ∀ c, rest.head? = some c → digit c = none) :
    (ds ++ rest).dropWhile (fun c => (digit c).isSome) = rest := by
  induction ds with
  | nil =>
    cases rest with
    | nil => rfl
    | cons c rest => simp [List.dropWhile_cons, hd c rfl]
  | cons d ds ih =>
    rw [List.cons_append, List.dropWhile_cons, if_pos (h d List.mem_cons_self)]
    exact ih fun c hc => h c (List.mem_cons_of_mem _ hc)

/-- What a data line is. -/
theorem isData_iff (hd : DigitsOk digit) {l : List ℕ} {d : ℕ} {names : List (List ℕ)} :
    IsData digit l d names ↔ isDataLine digit l = true ∧ dataRow digit l = (d, names) := by
  have key : ∀ {ds rest : List ℕ} {names : List (List ℕ)}, ds ≠ [] → (∀ c ∈ ds, (digit c).isSome = true) → IsNames rest names →
      splitWords [] (strip (collapse false (ds ++ rest))) = ds :: names := by
    intro ds rest names h0 h1 h2
    rw [splitWords_strip, (splitWords_collapse _).1, splitWords_word, List.nil_append, splitWords_cur h2.head h0, h2.words]
    intro c hc
    by_contra h
    have := hd.2.1 c (by simpa using h)
    obtain ⟨v, hv⟩ := Option.isSome_iff_exists.1 (h1 c hc)
    rw [this] at hv
    cases hv
  constructor
  · rintro ⟨ds, rest, rfl, h0, ⟨vs, hvs, rfl⟩, hn⟩
    have hdig := digits_of hvs
    constructor
    · cases ds with
      | nil => exact absurd rfl h0
      | cons c ds =>
        have e := dropWhile_digits (digit := digit) (fun c hc => hdig c (List.mem_cons_of_mem _ hc)) (ds := ds) (rest := rest)
          fun c hc => hd.2.1 c (hn.head c hc)
        rw [List.cons_append, isDataLine, e, hdig c List.mem_cons_self]
        cases rest with
        | nil => rfl
        | cons c rest => simpa using hn.head c rfl
    · unfold dataRow
      rw [key h0 hdig hn]
      simp only [wordVal_eq hvs]
  · rintro ⟨h1, h2⟩
    cases l with
    | nil => cases h1
    | cons c l =>
      rw [isDataLine, Bool.and_eq_true] at h1
      obtain ⟨hc, h1⟩ := h1
      have e := List.takeWhile_append_dropWhile (p := fun c => (digit c).isSome) (l := l)
      set rest := l.dropWhile fun c => (digit c).isSome with hrest
      set ds := l.takeWhile fun c => (digit c).isSome with hds
      have hr : ∀ c, rest.head? = some c → isSpace c = true := by
        intro d hd
        cases hrr : rest with
        | nil => rw [hrr] at hd; cases hd
        | cons a r =>
          rw [hrr] at hd h1
          simp only [List.head?_cons, Option.some.injEq] at hd
          rw [← hd]; exact h1
      have hn := isNames_words rest.length rest le_rfl hr
      have hdig : ∀ x ∈ c :: ds, (digit x).isSome = true := by
        intro x hx
        rcases List.mem_cons.1 hx with rfl | hx
        · exact hc
        · exact mem_takeWhile (p := fun c => (digit c).isSome) hx
      obtain ⟨vs, hvs⟩ := exists_vals hdig
      have e' : c :: l = (c :: ds) ++ rest := by rw [List.cons_append, e]
      unfold dataRow at h2
      rw [e', key (by simp) hdig hn, Prod.mk.injEq] at h2
      obtain ⟨rfl, rfl⟩ := h2
      exact ⟨c :: ds, rest, e', by simp, ⟨vs, hvs, wordVal_eq hvs⟩, hn⟩

theorem not_data_of_ignored (hd : DigitsOk digit) {l : List ℕ} (h : IsIgnored l) : isDataLine digit l = false := by
  cases l with
  | nil => rfl
  | cons c l =>
    have : digit c = none := by
      rcases h with h | h
      · exact hd.2.1 c (h c List.mem_cons_self)
      · simp only [List.head?_cons, Option.some.injEq] at h
        rw [h]; exact hd.1
    rw [isDataLine, this]
    rfl

theorem bad_iff {l : List ℕ} : isBadLine digit l = false ↔ IsIgnored l ∨ isDataLine digit l = true := by
  unfold isBadLine IsIgnored
  constructor
  · intro h
    by_contra hn
    push Not at hn
    obtain ⟨⟨⟨c, hc, hcs⟩, h35⟩, hdl⟩ := hn
    have : l.any (fun c => !isSpace c) = true := List.any_eq_true.2 ⟨c, hc, by simpa using hcs⟩
    rw [this] at h
    simp [h35, hdl] at h
  · rintro ((h | h) | h)
    · have : l.any (fun c => !isSpace c) = false := by
        rw [List.any_eq_false]
        intro c hc
        simp [h c hc]
      rw [this]; rfl
    · simp [h]
    · simp [h]

theorem rows_iff (hd : DigitsOk digit) {ls : List (List ℕ)} {rows : List (ℕ × List (List ℕ))} :
    IsRows digit ls rows ↔ ls.any (isBadLine digit) = false ∧ (ls.filter (isDataLine digit)).map (dataRow digit) = rows := by
  constructor
  · intro h
    induction h with
    | nil => exact ⟨rfl, rfl⟩
    | skip l ls rows hi _ ih =>
      refine ⟨?_, ?_⟩
      · rw [List.any_cons, ih.1, bad_iff.2 (Or.inl hi)]; rfl
      · rw [List.filter_cons, not_data_of_ignored hd hi]; exact ih.2
    | data l ls d names rows hi _ ih =>
      obtain ⟨h1, h2⟩ := (isData_iff hd).1 hi
      refine ⟨?_, ?_⟩
      · rw [List.any_cons, ih.1, bad_iff.2 (Or.inr h1)]; rfl
      · rw [List.filter_cons, if_pos h1, List.map_cons, h2, ih.2]
  · rintro ⟨h1, rfl⟩
    induction ls with
    | nil => exact .nil
    | cons l ls ih =>
      rw [List.any_cons, Bool.or_eq_false_iff] at h1
      rw [List.filter_cons]
      rcases bad_iff.1 h1.1 with h | h
      · rw [not_data_of_ignored hd h]
        exact .skip _ _ _ h (ih h1.2)
      · rw [if_pos h, List.map_cons]
        exact .data _ _ _ _ _ ((isData_iff hd).2 ⟨h, rfl⟩) (ih h1.2)

end

end TNCO
