import Verif.Lemmas.CostText
import Verif.Spec.Json

/-!
# C92: the text of a cost
-/

namespace TNCO

/-- Every whole cost is printed as a text that `Decimal` can read, and its value is the reported cost: six digits, or all digits for `float1024`. -/
theorem C92_cost (fixed : Bool) (c : ℕ) : ∃ d, Dec.ofText (shownText fixed c) = some d ∧ d.value = shownCost fixed c := shownText_value fixed c

/-- "1.23457e+06", "1e+06", "999999", "1e+10", "1e+16" -/
example : streamText 1234567 = [49, 46, 50, 51, 52, 53, 55, 101, 43, 48, 54] ∧ streamText 1000000 = [49, 101, 43, 48, 54] ∧
    streamText 999999 = decText 999999 ∧ streamText 9999995000 = [49, 101, 43, 49, 48] ∧ streamText (10 ^ 16) = [49, 101, 43, 49, 54] := by
  decide +kernel

example : Dec.ofText (streamText 1234567) = some ⟨123457, 1⟩ ∧ Dec.ofText (fixedText 7) = some ⟨7 * 10 ^ 308, -308⟩ := by decide +kernel

/-- The text of a `Decimal` is read as the same `Decimal`. -/
theorem C92_str (d : Dec) : Dec.ofText d.str = some d := ofText_str d

/-- So different `Decimal`s have different texts. -/
theorem C92_distinct {a b : Dec} (h : a.str = b.str) : a = b :=
  Option.some.inj ((ofText_str a).symm.trans ((congrArg Dec.ofText h).trans (ofText_str b)))

/-- "1.23457E+6", "0.0012", "1.2E-9", "123.45", "0E+2" -/
example : Dec.str ⟨123457, 1⟩ = [49, 46, 50, 51, 52, 53, 55, 69, 43, 54] ∧ Dec.str ⟨12, -4⟩ = [48, 46, 48, 48, 49, 50] ∧
    Dec.str ⟨12, -10⟩ = [49, 46, 50, 69, 45, 57] ∧ Dec.str ⟨12345, -2⟩ = [49, 50, 51, 46, 52, 53] ∧ Dec.str ⟨0, 2⟩ = [48, 69, 43, 50] := by decide +kernel

/-- The sum of two `Decimal`s is the sum of their values, rounded to 28 digits. -/
theorem C92_add (a b : Dec) : (a.add b).value = roundSig 28 (a.value + b.value) := add_value a b

example : Dec.add ⟨123457, 1⟩ ⟨25, -1⟩ = ⟨12345725, -1⟩ ∧ Dec.add ⟨10 ^ 28 - 1, 0⟩ ⟨9, -1⟩ = ⟨10 ^ 27, 1⟩ := by decide +kernel

/-- The cost of a result: the whole number `0` exactly if no part needed an optimizer, and else a `Decimal`, whose text is read as the rounded sum of the reported
costs of the parts. -/
theorem C92_total (fixed : Bool) (l : List (Option ℕ)) :
    (sumCost (l.map (partCost fixed)) = none ∧ ∀ p ∈ l, p = none) ∨
    (∃ p ∈ l, p ≠ none) ∧ ∃ d, sumCost (l.map (partCost fixed)) = some d ∧ Dec.ofText d.str = some d ∧
      d.value = decimalSum (l.map fun p => p.elim 0 fun c => shownCost fixed (c : ℤ)) := by
  have hpart : ∀ p : Option ℕ, (partCost fixed p = none ↔ p = none) ∧ (partCost fixed p).value = p.elim 0 fun c => shownCost fixed (c : ℤ) := by
    intro p
    cases p with
    | none => exact ⟨by simp [partCost], rfl⟩
    | some c =>
      obtain ⟨d, h1, h2⟩ := shownText_value fixed c
      have : partCost fixed (some c) = some d := h1
      rw [this]
      exact ⟨by simp, h2⟩
  have hv : (sumCost (l.map (partCost fixed))).value = decimalSum (l.map fun p => p.elim 0 fun c => shownCost fixed (c : ℤ)) := by
    rw [sumCost_value, List.map_map]
    congr 1
    exact List.map_congr_left fun p _ => (hpart p).2
  have hnone := sumCost_none (l.map (partCost fixed))
  cases hs : sumCost (l.map (partCost fixed)) with
  | none =>
    left
    refine ⟨rfl, fun p hp => (hpart p).1.1 ?_⟩
    exact hnone.1 hs _ (List.mem_map_of_mem hp)
  | some d =>
    right
    refine ⟨?_, d, rfl, ofText_str d, by rw [hs] at hv; exact hv⟩
    by_contra hno
    push Not at hno
    have : sumCost (l.map (partCost fixed)) = none := hnone.2 fun q hq => by
      obtain ⟨p, hp, rfl⟩ := List.mem_map.1 hq
      exact (hpart p).1.2 (hno p hp)
    rw [hs] at this
    cases this

/-- "1234570" and, with another part of 1000000 and one that needs no optimizer, "2234570" -/
example : (sumCost [partCost false (some 1234567)]).map Dec.str = some (decText 1234570) ∧
    (sumCost [partCost false none, partCost false (some 1234567), partCost false (some 1000000)]).map Dec.str = some (decText 2234570) ∧
    sumCost [partCost false none] = none := by decide +kernel

/-- For all cost types but `float1024`: a total of at most 28 digits is exactly the sum of the reported costs, and it is written with all its digits, without point
or exponent. -/
theorem C92_plain {l : List (Option ℕ)} {n : ℕ} (hn : ∃ p ∈ l, p ≠ none) (h : (n : ℚ) = (l.map fun p => p.elim 0 fun c => shownCost false (c : ℤ)).sum)
    (hs : n < 10 ^ 28) : (sumCost (l.map (partCost false))).map Dec.str = some (decText n) := by
  have hpart : ∀ p : Option ℕ, (∀ d ∈ partCost false p, 0 ≤ d.exp) ∧ (((partCost false p).elim 0 Dec.whole : ℕ) : ℚ) = p.elim 0 fun c => shownCost false (c : ℤ) := by
    intro p
    cases p with
    | none => exact ⟨by simp [partCost], by simp [partCost]⟩
    | some c =>
      obtain ⟨d, h1, h2⟩ := shownText_value false c
      have h3 : partCost false (some c) = some d := h1
      have h4 : 0 ≤ d.exp := streamText_exp c h1
      rw [h3]
      refine ⟨fun d' hd' => ?_, ?_⟩
      · rw [← Option.mem_some_iff.1 hd']; exact h4
      · rw [Option.elim_some, whole_value h4, h2]
        rfl
  have hsum : ((((l.map (partCost false)).map fun p => p.elim 0 Dec.whole).sum : ℕ) : ℚ) = n := by
    rw [h]
    clear h hs hn
    induction l with
    | nil => simp
    | cons p l ih =>
      simp only [List.map_cons, List.sum_cons, Nat.cast_add]
      rw [ih, (hpart p).2]
  have hsum' : ((l.map (partCost false)).map fun p => p.elim 0 Dec.whole).sum = n := by exact_mod_cast hsum
  have hw := sumCost_whole (l := l.map (partCost false)) ?_ (by rw [hsum']; exact hs) ?_
  · rw [hw, hsum', Option.map_some, str_whole]
  · intro q hq
    obtain ⟨p, _, rfl⟩ := List.mem_map.1 hq
    exact (hpart p).1
  · obtain ⟨p, hp, hne⟩ := hn
    refine ⟨_, List.mem_map_of_mem hp, ?_⟩
    cases p with
    | none => exact absurd rfl hne
    | some c =>
      obtain ⟨d, h1, _⟩ := shownText_value false c
      have : partCost false (some c) = some d := h1
      rw [this]
      simp

example : (∃ p ∈ [none, some 12], p ≠ (none : Option ℕ)) ∧ ((12 : ℕ) : ℚ) = ([none, some 12].map fun p : Option ℕ => p.elim 0 fun c => shownCost false (c : ℤ)).sum ∧
    12 < 10 ^ 28 := by
  refine ⟨⟨some 12, by simp, by simp⟩, ?_, by norm_num⟩
  have := shownCost_small (c := 12) (by norm_num) false
  simp [this]

/-- For `float1024` and one part: a cost of at most 28 digits is written with zeros after the point, so that there are 28 digits. -/
theorem C92_fixed {c : ℕ} (hc : c ≠ 0) (h : c < 10 ^ 28) :
    (sumCost [partCost true (some c)]).map Dec.str = some (decText c ++ pointed (List.replicate (28 - (decText c).length) 48)) := by
  rw [sumCost_fixed hc h, Option.map_some, str_fixed hc]

example : (12 : ℕ) ≠ 0 ∧ 12 < 10 ^ 28 ∧ decText 12 ++ pointed (List.replicate (28 - (decText 12).length) 48) = 49 :: 50 :: 46 :: List.replicate 26 48 := by decide +kernel

/-- `repr` of a result shows the cost with three digits: its text is read as the cost rounded to three digits, ties to even. -/
theorem C92_repr (p : PartCost) : ∃ d, Dec.ofText (shortCost p) = some d ∧ d.value = roundSig 3 p.value := by
  cases p with
  | none => exact ⟨⟨0, 0⟩, by decide +kernel, by simp [Dec.value, PartCost.value, roundSig_zero]⟩
  | some d => exact ⟨d.fit 3, ofText_text 101 (Or.inl rfl) _, fit_value (by norm_num) d⟩

/-- "1.23e+6", "1.00e+6" (for 999500), "12", "8.00" (for `float1024`), "0" -/
example : shortCost (some ⟨1234570, 0⟩) = [49, 46, 50, 51, 101, 43, 54] ∧ shortCost (some ⟨999500, 0⟩) = [49, 46, 48, 48, 101, 43, 54] ∧
    shortCost (some ⟨12, 0⟩) = [49, 50] ∧ shortCost (some ⟨8 * 10 ^ 27, -27⟩) = [56, 46, 48, 48] ∧ shortCost none = [48] := by decide +kernel

/-- A cost has no text of its own: the only part of a result and the result have the same cost (1234570) but not the same text, and nor have the same results for
two cost types. -/
theorem C92_violated_text :
    (∃ c p t, partCost false (some c) = some p ∧ sumCost [some p] = some t ∧ p.value = t.value ∧ p.str ≠ t.str) ∧
    ∃ c s t, sumCost [partCost false (some c)] = some s ∧ sumCost [partCost true (some c)] = some t ∧ s.value = t.value ∧ s.str ≠ t.str := by
  refine ⟨⟨1234567, ⟨123457, 1⟩, ⟨1234570, 0⟩, by decide +kernel, by decide +kernel, ?_, by decide +kernel⟩,
    8, ⟨8, 0⟩, ⟨8 * 10 ^ 27, -27⟩, by decide +kernel, by decide +kernel, ?_, by decide +kernel⟩
  · norm_num [Dec.value]
  · norm_num [Dec.value]

/-- For one cost type, though, results of the same cost have the same text, and so have parts of the same reported cost. -/
theorem C92_same (fixed : Bool) :
    (∀ (l l' : List (Option ℕ)) (d d' : Dec), sumCost (l.map (partCost fixed)) = some d → sumCost (l'.map (partCost fixed)) = some d' → d.value = d'.value → d = d') ∧
    ∀ c c' : ℕ, shownCost fixed c = shownCost fixed c' → partCost fixed (some c) = partCost fixed (some c') :=
  ⟨fun l l' _ _ h h' e => canon_unique (canon_sum fixed l h) (canon_sum fixed l' h') e, fun _ _ h => part_same fixed h⟩

/-- Hence the texts of parts and of results are two functions of the reported costs, as the model of the program (`ProgEnv.part`, `ProgEnv.decimal`) assumes, and
JSON can write them. -/
theorem C92_functions (fixed : Bool) : ∃ part total : ℚ → List ℕ, (∀ q, TextOk (part q)) ∧ (∀ q, TextOk (total q)) ∧
    (∀ c : ℕ, ∃ d, partCost fixed (some c) = some d ∧ d.str = part (shownCost fixed c)) ∧
    ∀ (l : List (Option ℕ)) (d : Dec), sumCost (l.map (partCost fixed)) = some d → d.str = total (decimalSum (l.map fun p => p.elim 0 fun c => shownCost fixed (c : ℤ))) := by
  classical
  have hok : ∀ d : Dec, TextOk d.str := fun d c hc => Or.inl (lt_trans (str_ascii d c hc) (by norm_num))
  refine ⟨fun q => if h : ∃ d : Dec, ∃ c : ℕ, partCost fixed (some c) = some d ∧ shownCost fixed c = q then h.choose.str else [],
    fun q => if h : ∃ d : Dec, ∃ l : List (Option ℕ), sumCost (l.map (partCost fixed)) = some d ∧ d.value = q then h.choose.str else [], ?_, ?_, ?_, ?_⟩
  · intro q
    simp only
    split
    · exact hok _
    · intro c hc; simp at hc
  · intro q
    simp only
    split
    · exact hok _
    · intro c hc; simp at hc
  · intro c
    obtain ⟨d, hd, -⟩ := shownText_value fixed c
    have hd : partCost fixed (some c) = some d := hd
    refine ⟨d, hd, ?_⟩
    have h : ∃ d : Dec, ∃ c' : ℕ, partCost fixed (some c') = some d ∧ shownCost fixed c' = shownCost fixed c := ⟨d, c, hd, rfl⟩
    simp only
    rw [dif_pos h]
    obtain ⟨c', h1, h2⟩ := h.choose_spec
    rw [part_same fixed h2, hd] at h1
    rw [← Option.some.inj h1]
  · intro l d hd
    have hv : d.value = decimalSum (l.map fun p => p.elim 0 fun c => shownCost fixed (c : ℤ)) := by
      rcases C92_total fixed l with ⟨h, -⟩ | ⟨-, d', h, -, hv⟩
      · rw [hd] at h; cases h
      · rw [hd] at h
        rw [Option.some.inj h, hv]
    have h : ∃ d' : Dec, ∃ l' : List (Option ℕ), sumCost (l'.map (partCost fixed)) = some d' ∧
        d'.value = decimalSum (l.map fun p => p.elim 0 fun c => shownCost fixed (c : ℤ)) := ⟨d, l, hd, hv⟩
    simp only
    rw [dif_pos h]
    obtain ⟨l', h1, h2⟩ := h.choose_spec
    rw [(C92_same fixed).1 l l' d _ hd h1 (hv.trans h2.symm)]

end TNCO
