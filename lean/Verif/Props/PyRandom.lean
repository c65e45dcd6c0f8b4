import Verif.Lemmas.PyRandom
import Verif.Lemmas.PyDraws
import Verif.Lemmas.PySeedWords
import Verif.Props.Twister
import Verif.Model.Calls
import Verif.Model.RandomPath

/-!
# C89: Python's generator

`random.Random` of CPython 3.11 as the project uses it (see Model/PyRandom): which seeds give the same numbers, and that `random`, `choices`,
`randrange` and `sample` favour no value.
-/

namespace TNCO

/-! ## Seeds -/

/-- C89: the generator is always in order, whatever the seed: 624 words of 32 bits, the first of them 2^31. -/
theorem C89_state (dev : List ℕ) (s : Option ℤ) :
    (pyRandom dev s).Proper ∧ (pyRandom dev s).pos = 624 ∧ (pyRandom dev s).words.getD 0 0 = 2 ^ 31 := by
  cases s with
  | none => exact ⟨ofKey_proper _, ofKey_pos _, ofKey_front _⟩
  | some z => exact ⟨ofKey_proper _, ofKey_pos _, ofKey_front _⟩

/-- C89: it never gives 624 zeros one after the other, whatever the seed (0 and the words of the system included). -/
theorem C89_alive (dev : List ℕ) (s : Option ℤ) (t : ℕ) : ((pyRandom dev s).after t).draws 624 ≠ List.replicate 624 0 := by
  intro h
  obtain ⟨hp, e, h0⟩ := C89_state dev s
  have hX := twisterOf_is hp.2.1
  have hf := follows_after hX t (proper_follows hp)
  rw [follows_draws hX 624 hf, e] at h
  have key := twister_back hX zero_twister (624 + t) (by omega) (fun i hi => by
    have := congrArg (fun l => l.getD i 0) h
    rw [List.getD_eq_getElem _ _ (by simpa using hi), List.getD_eq_getElem _ _ (by rw [List.length_replicate]; exact hi)] at this
    simp only [List.getElem_map, List.getElem_range, List.getElem_replicate] at this
    exact temper_inj (this.trans temper_zero.symm))
  have k := key.1
  rw [twisterOf, dif_pos (by norm_num), h0] at k
  norm_num at k

/-- C89: the words of a seeded generator, with no array: two chains, of which each number is made of the one before it. -/
theorem C89_words (dev : List ℕ) (z : ℤ) (h : z.natAbs < 2 ^ (32 * 624)) :
    (pyRandom dev (some z)).words.getD 1 0 =
      (spreadWord 1566083941 (keyFirst (keyWords z.natAbs)) (numSeq (keyWords z.natAbs) 622) + (2 ^ 32 - 1)) % 2 ^ 32 ∧
    ∀ p, 1 ≤ p → p < 623 → (pyRandom dev (some z)).words.getD (p + 1) 0 = numSeq (keyWords z.natAbs) p := by
  unfold pyRandom
  dsimp only
  exact ofKey_seq (keyWords_lt _).2 ((keyWords_length _ 624 (by norm_num)).2 h)

private theorem value_of {key : List ℕ} (hk : 0 < key.length) (hL : key.length ≤ 624) (x y : ℕ)
    (h : numList key (fun f r => decide ((spreadWord 1566083941 f (r.getD 621 0) + (2 ^ 32 - 1)) % 2 ^ 32 = x ∧ r.getD 621 0 = y)) = true) :
    (Mt.ofKey key).words.getD 1 0 = x ∧ (Mt.ofKey key).words.getD 623 0 = y := by
  obtain ⟨r, h1, h2⟩ := numList_eq key (fun f r => decide ((spreadWord 1566083941 f (r.getD 621 0) + (2 ^ 32 - 1)) % 2 ^ 32 = x ∧ r.getD 621 0 = y))
  rw [h1, decide_eq_true_iff, h2 621 (by norm_num)] at h
  obtain ⟨g1, g2⟩ := ofKey_seq hk hL
  exact ⟨g1.trans h.1, (g2 622 (by norm_num) (by norm_num)).trans h.2⟩

/-- C89: the words 1 and 623 of `Random(5).getstate()` and of `Random(5 + 7 * 2**32).getstate()`, as CPython 3.11 shows them (every other word
enters into these). -/
theorem C89_values (dev : List ℕ) :
    ((pyRandom dev (some 5)).words.getD 1 0 = 2796186638 ∧ (pyRandom dev (some 5)).words.getD 623 0 = 957143377) ∧
    (pyRandom dev (some (5 + 7 * 2 ^ 32))).words.getD 1 0 = 2089080942 ∧ (pyRandom dev (some (5 + 7 * 2 ^ 32))).words.getD 623 0 = 1112446760 := by
  have k1 : keyWords (5 : ℤ).natAbs = [5] := keyWords_one (by norm_num)
  have k2 : keyWords (5 + 7 * 2 ^ 32 : ℤ).natAbs = [5, 7] := by
    rw [keyWords_two (by norm_num) (by norm_num)]
    norm_num
  unfold pyRandom
  dsimp only
  rw [k1, k2]
  exact ⟨value_of (by norm_num) (by norm_num) _ _ (by decide +kernel), value_of (by norm_num) (by norm_num) _ _ (by decide +kernel)⟩

private theorem tail_of_draws {key key' : List ℕ} (h : (Mt.ofKey key).draws 624 = (Mt.ofKey key').draws 624) :
    TailEq (Mt.ofKey key).words (Mt.ofKey key').words := fun p h1 h2 =>
  (C87_words _ _ (ofKey_proper key) (ofKey_proper key') (ofKey_pos key) (ofKey_pos key') h).2 p h1 h2

private theorem twin_same {m n : ℕ} (h : SeedTwin m n) : Mt.ofKey (keyWords m) = Mt.ofKey (keyWords n) := by
  obtain ⟨h1, h2⟩ := h
  by_cases hm : m = 1
  · subst hm
    rw [h2]
    norm_num
  · have hb := mod_word (m + (2 ^ 32 - 1))
    have hb0 : (m + (2 ^ 32 - 1)) % 2 ^ 32 ≠ 0 := by omega
    have hb1 : ((m + (2 ^ 32 - 1)) % 2 ^ 32 + 1) % 2 ^ 32 = m % 2 ^ 32 := by omega
    generalize hbe : (m + (2 ^ 32 - 1)) % 2 ^ 32 = b at hb hb0 hb1 h2
    have hn : keyWords n = [m, b] := by
      have e1 : n % 2 ^ 32 = m := by omega
      have e2 : n / 2 ^ 32 = b := by omega
      rw [keyWords_two (by omega) (by omega), e1, e2]
    rw [keyWords_one h1, hn]
    refine ofKey_same (by simp) (by simp) (by simp) (by simp) fun t => ?_
    rw [keyAdd_one, keyAdd_two, hb1]
    split <;> rfl

/-- C89: which seeds below 2^64 (in absolute value) give the same 624 first numbers: those with the same absolute value, and the pairs of
`SeedTwin`; these give the same generator altogether. -/
theorem C89_seeds (dev dev' : List ℕ) (m n : ℤ) (hm : m.natAbs < 2 ^ 64) (hn : n.natAbs < 2 ^ 64) :
    ((pyRandom dev (some m)).draws 624 = (pyRandom dev' (some n)).draws 624 ↔
      m.natAbs = n.natAbs ∨ SeedTwin m.natAbs n.natAbs ∨ SeedTwin n.natAbs m.natAbs) ∧
    ((pyRandom dev (some m)).draws 624 = (pyRandom dev' (some n)).draws 624 → pyRandom dev (some m) = pyRandom dev' (some n)) := by
  unfold pyRandom
  dsimp only
  generalize m.natAbs = a at hm ⊢
  generalize n.natAbs = b at hn ⊢
  have back : a = b ∨ SeedTwin a b ∨ SeedTwin b a → Mt.ofKey (keyWords a) = Mt.ofKey (keyWords b) := by
    rintro (h | h | h)
    · rw [h]
    · exact twin_same h
    · exact (twin_same h).symm
  have mixed : ∀ a b : ℕ, a < 2 ^ 32 → 2 ^ 32 ≤ b → b < 2 ^ 64 → (∀ t, 2 ≤ t → t < 623 → keyAdd (keyWords a) t = keyAdd (keyWords b) t) →
      SeedTwin a b := by
    intro a b ha hb hb' h
    rw [keyWords_one ha, keyWords_two hb hb'] at h
    have h2 := h 2 (le_refl _) (by norm_num)
    have h3 := h 3 (by norm_num) (by norm_num)
    rw [keyAdd_one, keyAdd_two] at h2 h3
    rw [if_pos rfl] at h2
    rw [if_neg (by norm_num)] at h3
    have hd := Nat.div_add_mod b (2 ^ 32)
    have hr := mod_word b
    have hq : b / 2 ^ 32 < 2 ^ 32 := by omega
    have hq' : 0 < b / 2 ^ 32 := by omega
    generalize b % 2 ^ 32 = r at hd hr h2
    generalize b / 2 ^ 32 = q at hd hq hq' h3
    refine ⟨ha, ?_⟩
    rw [← hd]
    have e1 : r = a := by omega
    have e2 : (a + (2 ^ 32 - 1)) % 2 ^ 32 = q := by omega
    rw [e1, e2]
    omega
  have len : ∀ a : ℕ, a < 2 ^ 64 → 0 < (keyWords a).length ∧ (keyWords a).length ≤ 2 := fun a ha =>
    ⟨(keyWords_lt a).2, (keyWords_length a 2 (by norm_num)).2 (by simpa using ha)⟩
  have fwd : (Mt.ofKey (keyWords a)).draws 624 = (Mt.ofKey (keyWords b)).draws 624 → a = b ∨ SeedTwin a b ∨ SeedTwin b a := by
    intro h
    have add := ofKey_add (len a hm).1 (by have := (len a hm).2; omega) (len b hn).1 (by have := (len b hn).2; omega) (tail_of_draws h)
    by_cases ha : a < 2 ^ 32
    · by_cases hb : b < 2 ^ 32
      · refine Or.inl (keyWords_inj (keyAdd_key ?_ (keyWords_lt a).1 (keyWords_lt b).1 (len a hm).1 ?_ add))
        · rw [keyWords_one ha, keyWords_one hb]; rfl
        · have := (len a hm).2; omega
      · exact Or.inr (Or.inl (mixed a b ha (by omega) hn add))
    · by_cases hb : b < 2 ^ 32
      · exact Or.inr (Or.inr (mixed b a hb (by omega) hm fun t h1 h2 => (add t h1 h2).symm))
      · refine Or.inl (keyWords_inj (keyAdd_key ?_ (keyWords_lt a).1 (keyWords_lt b).1 (len a hm).1 ?_ add))
        · rw [keyWords_two (by omega) hm, keyWords_two (by omega) hn]; rfl
        · have := (len a hm).2; omega
  exact ⟨⟨fwd, fun h => by rw [back h]⟩, fun h => back (fwd h)⟩

/-- C89: integers with equally many words (up to 621) give the same 624 first numbers only if their absolute values are equal. -/
theorem C89_seeds_long (dev dev' : List ℕ) (m n : ℤ) (L : ℕ) (hL : L < 621) (hm : m.natAbs < 2 ^ (32 * (L + 1))) (hn : n.natAbs < 2 ^ (32 * (L + 1)))
    (hm' : L = 0 ∨ 2 ^ (32 * L) ≤ m.natAbs) (hn' : L = 0 ∨ 2 ^ (32 * L) ≤ n.natAbs) :
    (pyRandom dev (some m)).draws 624 = (pyRandom dev' (some n)).draws 624 ↔ m.natAbs = n.natAbs := by
  unfold pyRandom
  dsimp only
  generalize m.natAbs = a at hm hm' ⊢
  generalize n.natAbs = b at hn hn' ⊢
  have len : ∀ a : ℕ, a < 2 ^ (32 * (L + 1)) → (L = 0 ∨ 2 ^ (32 * L) ≤ a) → (keyWords a).length = L + 1 := by
    intro a h1 h2
    have h3 := (keyWords_length a (L + 1) (by omega)).2 h1
    have h4 := (keyWords_lt a).2
    by_cases hl : L = 0
    · omega
    · rcases h2 with h2 | h2
      · exact absurd h2 hl
      · have := (keyWords_length a L (by omega)).not.2 (by omega)
        omega
  refine ⟨fun h => ?_, fun h => by rw [h]⟩
  have la := len a hm hm'
  have lb := len b hn hn'
  exact keyWords_inj (keyAdd_key (la.trans lb.symm) (keyWords_lt a).1 (keyWords_lt b).1 (by omega) (by omega)
    (ofKey_add (by omega) (by omega) (by omega) (by omega) (tail_of_draws h)))

/-- C89, the seeds that the project itself draws (`randrange(2**32)`, `choices(range(2**32))`) and hands on: different ones give different
numbers. -/
theorem C89_seeds_drawn (dev dev' : List ℕ) (m n : ℕ) (hm : m < 2 ^ 32) (hn : n < 2 ^ 32) :
    (pyRandom dev (some m)).draws 624 = (pyRandom dev' (some n)).draws 624 ↔ m = n :=
  C89_seeds_long dev dev' m n 0 (by norm_num) (by simpa using hm) (by simpa using hn) (Or.inl rfl) (Or.inl rfl)

example : (pyRandom [] (some 1)).draws 624 ≠ (pyRandom [] (some 2)).draws 624 := fun h =>
  absurd ((C89_seeds_drawn [] [] 1 2 (by norm_num) (by norm_num)).1 h) (by norm_num)

example : (pyRandom [] (some 3)).draws 624 ≠ (pyRandom [] (some (3 + 3 * 2 ^ 32))).draws 624 := fun h => by
  have := (C89_seeds [] [] 3 (3 + 3 * 2 ^ 32) (by norm_num) (by norm_num)).1.1 h
  unfold SeedTwin at this
  norm_num at this

example : (pyRandom [] (some (2 ^ 64))).draws 624 ≠ (pyRandom [] (some (2 ^ 64 + 1))).draws 624 := fun h =>
  absurd ((C89_seeds_long [] [] (2 ^ 64) (2 ^ 64 + 1) 2 (by norm_num) (by norm_num) (by norm_num) (Or.inr (by norm_num)) (Or.inr (by norm_num))).1 h) (by norm_num)

/-- **C89 is violated** for the seeds of the user: the sign of a seed is lost, and `a` and `a + (a - 1) * 2^32` give the same generator, so that
what was meant as two runs is one. -/
theorem C89_violated_seed (dev dev' : List ℕ) (z : ℤ) (a : ℕ) (h2 : 2 ≤ a) (ha : a < 2 ^ 32) :
    pyRandom dev (some (-z)) = pyRandom dev' (some z) ∧ pyRandom dev (some a) = pyRandom dev' (some (a + (a - 1) * 2 ^ 32)) ∧
      (a : ℤ) ≠ a + (a - 1) * 2 ^ 32 := by
  refine ⟨?_, ?_, by omega⟩
  · unfold pyRandom
    dsimp only
    rw [Int.natAbs_neg]
  · unfold pyRandom
    dsimp only
    refine twin_same ⟨by omega, ?_⟩
    omega

example : pyRandom [] (some (-2026)) = pyRandom [] (some 2026) ∧ pyRandom [] (some 2) = pyRandom [] (some 4294967298) :=
  ⟨(C89_violated_seed [] [] 2026 2 (by norm_num) (by norm_num)).1, by
    have := (C89_violated_seed [] [] 2026 2 (by norm_num) (by norm_num)).2.1
    norm_num at this
    exact this⟩

/-! ## `random` -/

/-- C89: `random()` is a number of `[0, 1)`, a multiple of 2^-53, and none of the operations that make it of two draws is rounded. -/
theorem C89_random (e : Mt) (h : e.Proper) :
    e.random.1 = (pairBits e.draw.1 e.draw.2.draw.1 : ℚ) / 2 ^ 53 ∧ 0 ≤ e.random.1 ∧ e.random.1 ≤ 1 - 1 / 2 ^ 53 ∧
      roundTo 53 ((e.draw.1 / 32 : ℕ) * 67108864) = ((e.draw.1 / 32 : ℕ) * 67108864 : ℚ) ∧
      roundTo 53 ((e.draw.1 / 32 : ℕ) * 67108864 + (e.draw.2.draw.1 / 64 : ℕ)) = ((e.draw.1 / 32 : ℕ) * 67108864 + (e.draw.2.draw.1 / 64 : ℕ) : ℚ) ∧
      roundTo 53 (((e.draw.1 / 32 : ℕ) * 67108864 + (e.draw.2.draw.1 / 64 : ℕ)) * (1 / 9007199254740992)) = e.random.1 ∧ e.random.2.Proper := by
  obtain ⟨h1, p1⟩ := C87_range e h
  obtain ⟨h2, p2⟩ := C87_range _ p1
  have hlt := pairBits_lt h1 h2
  have hr : e.random.1 = (pairBits e.draw.1 e.draw.2.draw.1 : ℚ) / 2 ^ 53 := by
    unfold Mt.random
    norm_num
  have hv : ((pairBits e.draw.1 e.draw.2.draw.1 : ℕ) : ℚ) = (e.draw.1 / 32 : ℕ) * 67108864 + (e.draw.2.draw.1 / 64 : ℕ) := by
    rw [pairBits_div, Nat.cast_add, Nat.cast_mul, Nat.cast_pow]
    norm_num
  refine ⟨hr, by rw [hr]; positivity, ?_, ?_, ?_, ?_, p2⟩
  · rw [hr, le_sub_iff_add_le, ← add_div, div_le_one (by positivity)]
    have : pairBits e.draw.1 e.draw.2.draw.1 + 1 ≤ 2 ^ 53 := hlt
    exact_mod_cast this
  · have := roundTo_nat53 (n := e.draw.1 / 32 * 67108864) (by omega)
    rw [Nat.cast_mul] at this
    exact_mod_cast this
  · rw [← hv]
    exact roundTo_nat53 hlt
  · rw [← hv, hr]
    have := roundTo_nat53_div hlt 53
    rw [show ((pairBits e.draw.1 e.draw.2.draw.1 : ℕ) : ℚ) * (1 / 9007199254740992) = (pairBits e.draw.1 e.draw.2.draw.1 : ℕ) / 2 ^ 53 by norm_num; ring]
    exact this

example : (pyRandom [] (some 5)).Proper ∧ (pyRandom [] (some 5)).random.1 < 1 :=
  ⟨(C89_state [] (some 5)).1, by linarith [(C89_random _ (C89_state [] (some 5)).1).2.2.1]⟩

/-- C89: no value of `random()` is favoured: each multiple of 2^-53 comes from 2^11 pairs of draws. -/
theorem C89_random_uniform (v : ℕ) (hv : v < 2 ^ 53) : (wordPairs.filter fun p => pairBits p.1 p.2 = v).card = 2 ^ 11 := card_random v hv

/-- C89: `rng.random() < q` (sampling.py:338) for a chance `q`: of the 2^64 pairs of draws, ⌈q 2^53⌉ 2^11 flip the bit: never for `q = 0`, always
for `q = 1`, and in between the chance is `q` rounded up to a multiple of 2^-53. -/
theorem C89_flip (q : ℚ) (h1 : q ≤ 1) :
    (wordPairs.filter fun p => ((pairBits p.1 p.2 : ℕ) : ℚ) / ((2 ^ 53 : ℕ) : ℚ) < q).card = 2 ^ 11 * ⌈q * ((2 ^ 53 : ℕ) : ℚ)⌉₊ := card_random_below q h1

example : (wordPairs.filter fun p => ((pairBits p.1 p.2 : ℕ) : ℚ) / ((2 ^ 53 : ℕ) : ℚ) < 1 / 2).card = 2 ^ 63 := by
  rw [C89_flip (1 / 2) (by norm_num)]
  have : (1 / 2 : ℚ) * ((2 ^ 53 : ℕ) : ℚ) = ((2 ^ 52 : ℕ) : ℚ) := by norm_num
  rw [this, Nat.ceil_natCast]
  norm_num

/-! ## `choices` -/

private theorem floor_random (e : Mt) (h : e.Proper) : (e.random.1 * ((2 ^ 32 : ℕ) : ℚ)).floor.toNat = pairBits e.draw.1 e.draw.2.draw.1 / 2 ^ 21 := by
  rw [(C89_random e h).1]
  have : ((pairBits e.draw.1 e.draw.2.draw.1 : ℕ) : ℚ) / 2 ^ 53 * ((2 ^ 32 : ℕ) : ℚ) = (pairBits e.draw.1 e.draw.2.draw.1 : ℕ) / ((2 ^ 21 : ℕ) : ℚ) := by
    push_cast
    field_simp
    ring
  rw [this, floor_div_nat]

/-- C89: the seeds of the runs, `choices(range(2**32), k=n)`: as many as asked for, all below 2^32, each made of two draws of its own; they are what
CPython computes in `double`, and each of the 2^32 seeds comes from 2^32 pairs of draws. -/
theorem C89_choices (n : ℕ) (e : Mt) (h : e.Proper) :
    (choices Mt.random (2 ^ 32) n e).1 = (List.range n).map (fun i => pairBits (e.after (2 * i)).draw.1 (e.after (2 * i + 1)).draw.1 / 2 ^ 21) ∧
      (choices Mt.random (2 ^ 32) n e).2 = e.after (2 * n) ∧ (∀ x ∈ (choices Mt.random (2 ^ 32) n e).1, x < 2 ^ 32) ∧
      (choices Mt.random (2 ^ 32) 1 e).1 = [(e.choice (2 ^ 32)).1] ∧
      ∀ v < 2 ^ 32, (wordPairs.filter fun p => pairBits p.1 p.2 / 2 ^ 21 = v).card = 2 ^ 32 := by
  have main : ∀ (n : ℕ) (e : Mt), e.Proper →
      (choices Mt.random (2 ^ 32) n e).1 = (List.range n).map (fun i => pairBits (e.after (2 * i)).draw.1 (e.after (2 * i + 1)).draw.1 / 2 ^ 21) ∧
      (choices Mt.random (2 ^ 32) n e).2 = e.after (2 * n) ∧ (∀ x ∈ (choices Mt.random (2 ^ 32) n e).1, x < 2 ^ 32) := by
    intro n
    induction n with
    | zero => intro e _; exact ⟨rfl, rfl, by simp [choices]⟩
    | succ n ih =>
      intro e h
      obtain ⟨h1, p1⟩ := C87_range e h
      obtain ⟨h2, p2⟩ := C87_range _ p1
      obtain ⟨g1, g2, g3⟩ := ih e.random.2 p2
      rw [choices]
      refine ⟨?_, ?_, ?_⟩
      · rw [g1, List.range_succ_eq_map, List.map_cons, List.map_map, floor_random e h]
        rfl
      · rw [g2]
        rfl
      · intro x hx
        rcases List.mem_cons.1 hx with rfl | hx
        · rw [floor_random e h]
          have := pairBits_lt h1 h2
          omega
        · exact g3 x hx
  obtain ⟨h1, h2, h3⟩ := main n e h
  refine ⟨h1, h2, h3, ?_, card_choice⟩
  unfold Mt.choice
  rw [choices, choices]
  dsimp only
  obtain ⟨a1, p1⟩ := C87_range e h
  obtain ⟨a2, -⟩ := C87_range _ p1
  have hr := roundTo_nat53_div (pairBits_lt a1 a2) 21
  have : e.random.1 * ((2 ^ 32 : ℕ) : ℚ) = ((pairBits e.draw.1 e.draw.2.draw.1 : ℕ) : ℚ) / 2 ^ 21 := by
    rw [(C89_random e h).1]
    push_cast
    field_simp
    norm_num
  rw [this, hr]

/-- C89: a position that `choices` draws lies within the sequence (also for the letters of tensor.py:319), although the product is rounded. -/
theorem C89_choice (n : ℕ) (h0 : 0 < n) (hn : n < 2 ^ 53) (e : Mt) (h : e.Proper) : (e.choice n).1 < n := by
  obtain ⟨-, g0, g1, -⟩ := C89_random e h
  unfold Mt.choice
  have h1 := roundTo_top53 h0 hn g1
  have : (roundTo 53 (e.random.1 * n)).floor < (n : ℤ) := by
    rw [Rat.floor_lt_iff]
    exact_mod_cast h1
  dsimp only
  omega

example : ((pyRandom [] (some 7)).choice 52).1 < 52 := C89_choice 52 (by norm_num) (by norm_num) _ (C89_state [] (some 7)).1

/-! ## `randrange` and `sample` -/

/-- A generator with 624 draws of 0 ahead, for the examples. -/
def quietMt : Mt := ⟨List.replicate 624 0, 0⟩

/-- C89: `getrandbits(k)` is below 2^k. -/
theorem C89_bits (k : ℕ) : ∀ e : Mt, e.Proper → (e.bits k).1 < 2 ^ k ∧ (e.bits k).2.Proper := by
  induction k using Nat.strongRecOn with
  | ind k ih =>
    intro e h
    obtain ⟨h1, p1⟩ := C87_range e h
    rw [Mt.bits]
    split
    · next hk => subst hk; exact ⟨by norm_num, h⟩
    · split
      · next hk0 hk =>
        refine ⟨?_, p1⟩
        dsimp only
        rw [Nat.shiftRight_eq_div_pow]
        refine Nat.div_lt_of_lt_mul ?_
        rw [← pow_add, show 32 - k + k = 32 by omega]
        exact h1
      · next hk0 hk =>
        obtain ⟨g1, g2⟩ := ih (k - 32) (by omega) _ p1
        refine ⟨?_, g2⟩
        dsimp only
        have e1 : 2 ^ k = 2 ^ 32 * 2 ^ (k - 32) := by rw [← pow_add]; congr 1; omega
        rw [e1]
        generalize (Mt.bits (k - 32) e.draw.2).1 = v at g1 ⊢
        generalize 2 ^ (k - 32) = w at g1 ⊢
        have := Nat.mul_le_mul_left (2 ^ 32) (show v + 1 ≤ w from g1)
        omega

/-- C89: `randrange(n)` is the first `getrandbits` of as many bits as `n` has that is below `n` (and so below `n`); more than half of the values
that are drawn are accepted or, for powers of two, exactly half; of an empty range it raises ValueError. -/
theorem C89_randrange (n fuel : ℕ) (e : Mt) :
    (n = 0 → e.randrange n fuel = some (.error .valueError)) ∧
    (0 < n → ∀ r, e.randrange n fuel = some (.ok r) ↔
      ∃ t < fuel, r = (e.afterBits n.size t).bits n.size ∧ r.1 < n ∧ ∀ s < t, n ≤ ((e.afterBits n.size s).bits n.size).1) ∧
    (0 < n → ∀ x, e.randrange n fuel ≠ some (.error x)) ∧ (0 < n → n < 2 ^ n.size ∧ 2 ^ n.size ≤ 2 * n) := by
  unfold Mt.randrange
  refine ⟨fun h => if_pos h, fun h r => ?_, fun h x => ?_, fun h => ⟨Nat.lt_size_self n, ?_⟩⟩
  · rw [if_neg (by omega), ← below_iff]
    cases e.below n fuel with
    | none => simp
    | some q => simp
  · rw [if_neg (by omega)]
    cases e.below n fuel with
    | none => simp
    | some q => simp
  · have h1 : 0 < n.size := Nat.size_pos.2 h
    have := Nat.lt_size.1 (show n.size - 1 < n.size by omega)
    calc 2 ^ n.size = 2 * 2 ^ (n.size - 1) := by rw [← pow_succ']; congr 1; omega
      _ ≤ 2 * n := Nat.mul_le_mul_left _ this

example : quietMt.below 5 1 = some (0, ⟨List.replicate 624 0, 1⟩) ∧ 5 < 2 ^ Nat.size 5 := ⟨by decide +kernel, Nat.lt_size_self 5⟩

/-- C89: up to 32 bits, each value of `getrandbits` comes from equally many draws, so that `randrange` favours no value. -/
theorem C89_bits_uniform (k : ℕ) (h0 : 0 < k) (hk : k ≤ 32) (v : ℕ) (hv : v < 2 ^ k) :
    (∀ e : Mt, e.bits k = (e.draw.1 >>> (32 - k), e.draw.2)) ∧ ((Finset.range (2 ^ 32)).filter fun w => w >>> (32 - k) = v).card = 2 ^ (32 - k) := by
  refine ⟨fun e => by rw [Mt.bits, if_neg (by omega), if_pos hk], ?_⟩
  have := card_upper (2 ^ (32 - k)) (2 ^ k) v (by positivity) hv
  rw [← pow_add, show 32 - k + k = 32 by omega] at this
  simp only [Nat.shiftRight_eq_div_pow]
  exact this

/-- C89: `randrange(2**32)` (sampling.py:466,543, circuit.py:396): two draws, and again if the top bit of the second is set; each value comes from 2^31 of
the pairs. -/
theorem C89_seed_uniform (v : ℕ) (hv : v < 2 ^ 32) :
    (∀ e : Mt, (e.bits (2 ^ 32).size).1 = e.draw.1 + 2 ^ 32 * (e.draw.2.draw.1 >>> 31)) ∧
      (wordPairs.filter fun p => p.1 + 2 ^ 32 * (p.2 >>> 31) = v).card = 2 ^ 31 := by
  have hs : (2 ^ 32).size = 33 := Nat.size_pow
  refine ⟨fun e => ?_, ?_⟩
  · rw [hs, Mt.bits, if_neg (by norm_num), if_neg (by norm_num), show 33 - 32 = 1 from rfl, Mt.bits, if_neg (by norm_num), if_pos (by norm_num)]
  · exact card_low v hv

/-- C89: `sample(l, k=2)` gives two different positions of the sequence; of fewer than two elements it raises ValueError. -/
theorem C89_sample (n fuel : ℕ) (e : Mt) :
    (n < 2 → e.sample2 n fuel = some (.error .valueError)) ∧
    (2 ≤ n → ∀ x, e.sample2 n fuel ≠ some (.error x)) ∧
    ∀ a b e', e.sample2 n fuel = some (.ok ((a, b), e')) → a < n ∧ b < n ∧ a ≠ b := by
  unfold Mt.sample2
  refine ⟨fun h => if_pos h, fun h x => ?_, fun a b e' => ?_⟩
  · rw [if_neg (by omega)]
    split
    · simp
    · split <;> split <;> simp
  · split
    · intro h; simp at h
    · next hn =>
      split
      · intro h; simp at h
      · next a1 e1 h1 =>
        have ha := below_lt h1
        split
        · split
          · intro h; simp at h
          · next b1 e2 h2 =>
            have hb := below_lt h2
            intro h
            simp only [Option.some.injEq, Except.ok.injEq, Prod.mk.injEq] at h
            obtain ⟨⟨rfl, rfl⟩, -⟩ := h
            refine ⟨ha, ?_, ?_⟩
            · split <;> omega
            · split <;> omega
        · split
          · intro h; simp at h
          · next b1 e2 h2 =>
            obtain ⟨hb, hne⟩ := belowNew_spec h2
            intro h
            simp only [Option.some.injEq, Except.ok.injEq, Prod.mk.injEq] at h
            obtain ⟨⟨rfl, rfl⟩, -⟩ := h
            exact ⟨ha, hb, fun h => hne h.symm⟩

/-- C89: up to 21 elements, `sample` makes its positions of one `_randbelow(n)` and one `_randbelow(n - 1)`, and each pair of different positions
comes from exactly one pair of them: no pair is favoured. Above, the second position is drawn until it differs from the first. -/
theorem C89_sample_uniform (n fuel : ℕ) (hn : 2 ≤ n) (e e1 e2 : Mt) (i j : ℕ) (h1 : e.below n fuel = some (i, e1)) :
    (n ≤ 21 → e1.below (n - 1) fuel = some (j, e2) → e.sample2 n fuel = some (.ok ((i, if j = i then n - 1 else j), e2))) ∧
    (21 < n → 0 < fuel → e1.below n fuel = some (j, e2) → j ≠ i → e.sample2 n fuel = some (.ok ((i, j), e2))) ∧
    ∀ a < n, ∀ b < n, a ≠ b → ∃! p : ℕ × ℕ, p.1 < n ∧ p.2 < n - 1 ∧ (p.1, if p.2 = p.1 then n - 1 else p.2) = (a, b) := by
  refine ⟨fun h21 h2 => ?_, fun h21 hf h2 hne => ?_, fun a ha b hb hab => ?_⟩
  · unfold Mt.sample2
    rw [if_neg (by omega), h1]
    dsimp only
    rw [if_pos h21, h2]
  · unfold Mt.sample2
    rw [if_neg (by omega), h1]
    dsimp only
    rw [if_neg (by omega)]
    obtain ⟨f, rfl⟩ : ∃ f, fuel = f + 1 := ⟨fuel - 1, by omega⟩
    rw [Mt.belowNew, h2]
    dsimp only
    rw [if_neg hne]
  · refine ⟨(a, if b = n - 1 then a else b), ⟨ha, ?_, ?_⟩, ?_⟩
    · dsimp only
      split <;> omega
    · dsimp only
      by_cases hbn : b = n - 1
      · rw [if_pos hbn, if_pos rfl, hbn]
      · rw [if_neg hbn, if_neg (fun h => hab h.symm)]
    · rintro ⟨x, y⟩ ⟨g1, g2, g3⟩
      simp only [Prod.mk.injEq] at g1 g2 g3 ⊢
      obtain ⟨rfl, g3⟩ := g3
      refine ⟨rfl, ?_⟩
      by_cases hy : y = x
      · rw [if_pos hy] at g3
        rw [if_pos g3.symm, hy]
      · rw [if_neg hy] at g3
        rw [if_neg (by omega), g3]

example : quietMt.below 5 1 = some (0, ⟨List.replicate 624 0, 1⟩) ∧
    (quietMt.sample2 5 1).map Except.toOption = some (some ((0, 4), ⟨List.replicate 624 0, 2⟩)) := ⟨by decide +kernel, by decide +kernel⟩

/-- C89: the generator of the code is one that the models of the other files allow (`PyRng.Ok`), so that all theorems on them apply to the code
wherever its draws end. -/
theorem C89_model : ∃ g : PyRng Mt, g.Ok ∧ (∀ n fuel e r, e.randrange n fuel = some (.ok r) → g.randrange n e = r) ∧
    ∀ n fuel e r, e.sample2 n fuel = some (.ok r) → g.sample2 n e = r := by
  classical
  refine ⟨{ randrange := fun n e => if h : ∃ r fuel, e.randrange n fuel = some (.ok r) then h.choose else (0, e),
            sample2 := fun n e => if h : ∃ r fuel, e.sample2 n fuel = some (.ok r) then h.choose else ((0, 1), e) }, ⟨?_, ?_⟩, ?_, ?_⟩
  · intro n e hn
    dsimp only
    split
    · next h =>
      obtain ⟨fuel, hf⟩ := h.choose_spec
      obtain ⟨_, _, _, h4, _⟩ := ((C89_randrange n fuel e).2.1 hn _).1 hf
      exact h4
    · exact hn
  · intro n e hn
    dsimp only
    split
    · next h =>
      obtain ⟨fuel, hf⟩ := h.choose_spec
      exact (C89_sample n fuel e).2.2 _ _ _ hf
    · exact ⟨by dsimp only; omega, by dsimp only; omega, by dsimp only; omega⟩
  · intro n fuel e r hr
    dsimp only
    have h : ∃ r fuel, e.randrange n fuel = some (.ok r) := ⟨r, fuel, hr⟩
    rw [dif_pos h]
    obtain ⟨fuel', hf⟩ := h.choose_spec
    generalize h.choose = r' at hf
    have hn : 0 < n := by
      rcases Nat.eq_zero_or_pos n with h0 | h0
      · rw [(C89_randrange n fuel e).1 h0] at hr
        simp at hr
      · exact h0
    unfold Mt.randrange at hr hf
    rw [if_neg (by omega), Option.map_eq_some_iff] at hr hf
    obtain ⟨x, hx, hx'⟩ := hr
    obtain ⟨y, hy, hy'⟩ := hf
    have := (below_mono (le_max_left fuel fuel') hx).symm.trans (below_mono (le_max_right fuel fuel') hy)
    rw [← Except.ok.inj hx', ← Except.ok.inj hy']
    exact (Option.some.inj this).symm
  · intro n fuel e r hr
    dsimp only
    have h : ∃ r fuel, e.sample2 n fuel = some (.ok r) := ⟨r, fuel, hr⟩
    rw [dif_pos h]
    obtain ⟨fuel', hf⟩ := h.choose_spec
    generalize h.choose = r' at hf
    have := (sample2_mono (le_max_left fuel fuel') hr).symm.trans (sample2_mono (le_max_right fuel fuel') hf)
    exact (Except.ok.inj (Option.some.inj this)).symm

end TNCO
