import Verif.Lemmas.TwisterText
import Mathlib.Data.List.GetD
import Mathlib.Tactic.Ring
import Mathlib.Tactic.Linarith

/-!
# The Mersenne twister: the words of the engine follow the recurrence, and the numbers determine the words
-/

namespace TNCO

theorem xor_cancel {a b c : ℕ} (h : a ^^^ b = a ^^^ c) : b = c := by
  have := congrArg (a ^^^ ·) h
  simpa only [← Nat.xor_assoc, Nat.xor_self, Nat.zero_xor] using this

/-! ## One word -/

theorem and_upper {x : ℕ} (h : x < 2 ^ 32) : x &&& (2 ^ 64 - 2 ^ 31) = 2 ^ 31 * (x / 2 ^ 31) := by
  apply Nat.eq_of_testBit_eq
  intro i
  rw [Nat.testBit_and, Nat.testBit_two_pow_mul, Nat.testBit_div_two_pow]
  by_cases hi : i < 32
  · have hm : (2 ^ 64 - 2 ^ 31).testBit i = decide (31 ≤ i) := by
      revert i; decide
    rw [hm]
    by_cases h31 : 31 ≤ i
    · simp [h31]
    · simp [h31]
  · have hx : x.testBit i = false := Nat.testBit_lt_two_pow (lt_of_lt_of_le h (Nat.pow_le_pow_right (by norm_num) (by omega)))
    have hx' : x.testBit (i - 31 + 31) = false := by rw [show i - 31 + 31 = i by omega]; exact hx
    rw [hx]
    simp [hx']

theorem joinWords_eq {x : ℕ} (y : ℕ) (h : x < 2 ^ 32) : joinWords x y = 2 ^ 31 * (x / 2 ^ 31) + y % 2 ^ 31 := by
  unfold joinWords
  rw [and_upper h, Nat.and_two_pow_sub_one_eq_mod, Nat.two_pow_add_eq_or_of_lt (Nat.mod_lt _ (by norm_num))]

theorem twistWord_eq (y : ℕ) : twistWord y = (y / 2) ^^^ (if y % 2 = 1 then 2567483615 else 0) := by
  unfold twistWord
  rw [Nat.shiftRight_eq_div_pow, Nat.and_one_is_mod, pow_one]
  congr 1
  rcases Nat.mod_two_eq_zero_or_one y with h | h <;> rw [h] <;> rfl

theorem join_lt {x y : ℕ} (h : x < 2 ^ 32) : 2 ^ 31 * (x / 2 ^ 31) + y % 2 ^ 31 < 2 ^ 32 := by
  have h1 : x / 2 ^ 31 ≤ 1 := by omega
  have h2 := Nat.mod_lt y (show 2 ^ 31 > 0 by norm_num)
  omega

theorem join_mod (x y : ℕ) : (2 ^ 31 * (x / 2 ^ 31) + y % 2 ^ 31) % 2 = y % 2 := by
  have : 2 ^ 31 * (x / 2 ^ 31) = 2 * (2 ^ 30 * (x / 2 ^ 31)) := by ring
  omega

/-- The right-hand side of the recurrence. -/
theorem twist_join {x : ℕ} (y : ℕ) (h : x < 2 ^ 32) :
    twistWord (joinWords x y) = ((2 ^ 31 * (x / 2 ^ 31) + y % 2 ^ 31) / 2) ^^^ (if y % 2 = 1 then 2567483615 else 0) := by
  rw [joinWords_eq y h, twistWord_eq, join_mod]

theorem twist_lt {x : ℕ} (y : ℕ) (h : x < 2 ^ 32) : twistWord (joinWords x y) < 2 ^ 32 := by
  rw [joinWords_eq y h, twistWord_eq]
  refine Nat.xor_lt_two_pow (lt_of_le_of_lt (Nat.div_le_self _ _) (join_lt h)) ?_
  split <;> norm_num

/-- The twist can be undone. -/
theorem twist_inj {u v : ℕ} (hu : u < 2 ^ 32) (hv : v < 2 ^ 32) (h : twistWord u = twistWord v) : u = v := by
  rw [twistWord_eq, twistWord_eq] at h
  have hb : ∀ w : ℕ, w < 2 ^ 32 → ((w / 2) ^^^ (if w % 2 = 1 then 2567483615 else 0)).testBit 31 = decide (w % 2 = 1) := by
    intro w hw
    rw [Nat.testBit_xor, Nat.testBit_lt_two_pow (show w / 2 < 2 ^ 31 by omega)]
    split
    · simp only [Bool.false_xor]; rename_i hw; rw [hw]; decide
    · rename_i hw; simp [hw]
  have h1 := hb u hu
  rw [h, hb v hv] at h1
  have h2 : v % 2 = 1 ↔ u % 2 = 1 := by simpa using h1
  have h3 : (if v % 2 = 1 then 2567483615 else 0) = (if u % 2 = 1 then 2567483615 else 0) := by
    by_cases g : u % 2 = 1
    · rw [if_pos g, if_pos (h2.2 g)]
    · rw [if_neg g, if_neg (fun k => g (h2.1 k))]
  rw [h3] at h
  have h4 : u / 2 = v / 2 := xor_cancel (by rw [Nat.xor_comm, h, Nat.xor_comm])
  have h5 : u % 2 = v % 2 := by
    rcases Nat.mod_two_eq_zero_or_one u with a | a <;> rcases Nat.mod_two_eq_zero_or_one v with b | b <;> simp_all
  omega

/-! ## Mixing the bits -/

theorem rshift_zero {d s m : ℕ} (hs : 0 < s) (h : d = (d >>> s) &&& m) : d = 0 := by
  have h1 : d ≤ d >>> s := by
    conv_lhs => rw [h]
    exact Nat.and_le_left
  rw [Nat.shiftRight_eq_div_pow] at h1
  by_contra hd
  have : d / 2 ^ s < d := Nat.div_lt_self (by omega) (Nat.one_lt_two_pow (by omega))
  omega

theorem lshift_zero {d s m : ℕ} (hs : 0 < s) (h : d = (d <<< s) &&& m) : d = 0 := by
  apply Nat.eq_of_testBit_eq
  intro i
  rw [Nat.zero_testBit]
  induction i using Nat.strong_induction_on with
  | _ i ih =>
    rw [h, Nat.testBit_and, Nat.testBit_shiftLeft]
    by_cases hi : s ≤ i
    · rw [ih (i - s) (by omega)]; simp
    · simp [hi]

theorem xor_zero_iff {x y : ℕ} : x ^^^ y = 0 ↔ x = y := by
  constructor
  · intro h
    have := congrArg (· ^^^ y) h
    simpa [Nat.xor_assoc] using this
  · rintro rfl; simp

theorem step_inj {g : ℕ → ℕ} (hlin : ∀ x y, g (x ^^^ y) = g x ^^^ g y) (hz : ∀ d, d = g d → d = 0) {x y : ℕ}
    (h : x ^^^ g x = y ^^^ g y) : x = y := by
  apply xor_zero_iff.1
  apply hz
  rw [hlin]
  apply xor_zero_iff.1
  have e : (x ^^^ y) ^^^ (g x ^^^ g y) = (x ^^^ g x) ^^^ (y ^^^ g y) := by
    rw [Nat.xor_assoc, ← Nat.xor_assoc y, Nat.xor_comm y, Nat.xor_assoc (g x), ← Nat.xor_assoc x]
  rw [e, h]
  simp

theorem temper_inj {x y : ℕ} (h : temper x = temper y) : x = y := by
  unfold temper at h
  dsimp only at h
  have hr : ∀ s m x y : ℕ, ((x ^^^ y) >>> s) &&& m = ((x >>> s) &&& m) ^^^ ((y >>> s) &&& m) := by
    intro s m x y
    rw [Nat.shiftRight_xor_distrib, Nat.and_xor_distrib_right]
  have hl : ∀ s m x y : ℕ, ((x ^^^ y) <<< s) &&& m = ((x <<< s) &&& m) ^^^ ((y <<< s) &&& m) := by
    intro s m x y
    rw [Nat.shiftLeft_xor_distrib, Nat.and_xor_distrib_right]
  have h4 := step_inj (g := fun z => z >>> 18) (fun x y => Nat.shiftRight_xor_distrib) (fun d hd => rshift_zero (s := 18) (m := d >>> 18)
    (by norm_num) (by rw [Nat.and_self]; exact hd)) h
  have h3 := step_inj (g := fun z => (z <<< 15) &&& 0xefc60000) (hl _ _) (fun d hd => lshift_zero (s := 15) (by norm_num) hd) h4
  have h2 := step_inj (g := fun z => (z <<< 7) &&& 0x9d2c5680) (hl _ _) (fun d hd => lshift_zero (s := 7) (by norm_num) hd) h3
  exact step_inj (g := fun z => (z >>> 11) &&& 0xffffffff) (hr _ _) (fun d hd => rshift_zero (s := 11) (by norm_num) hd) h2

theorem temper_lt {z : ℕ} (h : z < 2 ^ 32) : temper z < 2 ^ 32 := by
  unfold temper
  dsimp only
  have s1 : ∀ z : ℕ, z < 2 ^ 32 → z ^^^ ((z >>> 11) &&& 0xffffffff) < 2 ^ 32 := fun z h =>
    Nat.xor_lt_two_pow h (Nat.and_lt_two_pow _ (by norm_num))
  have s2 : ∀ z : ℕ, z < 2 ^ 32 → z ^^^ ((z <<< 7) &&& 0x9d2c5680) < 2 ^ 32 := fun z h =>
    Nat.xor_lt_two_pow h (Nat.and_lt_two_pow _ (by norm_num))
  have s3 : ∀ z : ℕ, z < 2 ^ 32 → z ^^^ ((z <<< 15) &&& 0xefc60000) < 2 ^ 32 := fun z h =>
    Nat.xor_lt_two_pow h (Nat.and_lt_two_pow _ (by norm_num))
  have s4 : ∀ z : ℕ, z < 2 ^ 32 → z ^^^ (z >>> 18) < 2 ^ 32 := fun z h =>
    Nat.xor_lt_two_pow h (lt_of_le_of_lt (Nat.shiftRight_le _ _) h)
  exact s4 _ (s3 _ (s2 _ (s1 _ h)))

theorem temper_zero : temper 0 = 0 := by decide

/-! ## The array -/

/-- The words at the place `k` of the loop: those below have been renewed. -/
def mixedWords (X : ℕ → ℕ) (b k : ℕ) : List ℕ := (List.range 624).map fun i => if i < k then X (b + 624 + i) else X (b + i)

theorem mixed_getD (X : ℕ → ℕ) (b k : ℕ) {i : ℕ} (hi : i < 624) :
    (mixedWords X b k).getD i 0 = if i < k then X (b + 624 + i) else X (b + i) := by
  unfold mixedWords
  rw [List.getD_eq_getElem _ _ (by simpa using hi)]
  simp

theorem mixed_set (X : ℕ → ℕ) (b : ℕ) {k : ℕ} : (mixedWords X b k).set k (X (b + 624 + k)) = mixedWords X b (k + 1) := by
  apply List.ext_getElem
  · simp [mixedWords]
  · intro i h1 h2
    rw [List.getElem_set]
    simp only [mixedWords, List.getElem_map, List.getElem_range]
    by_cases e : k = i
    · subst e; simp
    · rw [if_neg e]
      by_cases hlt : i < k
      · rw [if_pos hlt, if_pos (by omega)]
      · rw [if_neg hlt, if_neg (by omega)]

theorem renew_mixed {X : ℕ → ℕ} (hX : IsTwister X) (b : ℕ) {k next far : ℕ} (hk : k < 624) (hn : next < 624) (hf : far < 624)
    (h1 : (if next < k then X (b + 624 + next) else X (b + next)) = X (b + k + 1))
    (h2 : (if far < k then X (b + 624 + far) else X (b + far)) = X (b + k + 397)) :
    renewWord (mixedWords X b k) k next far = mixedWords X b (k + 1) := by
  unfold renewWord
  rw [mixed_getD X b k hk, mixed_getD X b k hn, mixed_getD X b k hf, h1, h2, if_neg (lt_irrefl k), twist_join _ (hX.1 _),
    ← mixed_set X b, ← Nat.xor_assoc, show b + 624 + k = b + k + 624 by omega, hX.2]

theorem renewLow_mixed {X : ℕ → ℕ} (hX : IsTwister X) (b : ℕ) : renewLow (mixedWords X b 0) = mixedWords X b 227 := by
  have h : ∀ n, n ≤ 227 → (List.range' 0 n).foldl (fun x k => renewWord x k (k + 1) (k + 397)) (mixedWords X b 0) = mixedWords X b n := by
    intro n
    induction n with
    | zero => intro _; simp
    | succ n ih =>
      intro hn
      rw [List.range'_concat, List.foldl_append, ih (by omega)]
      simp only [List.foldl_cons, List.foldl_nil, one_mul, zero_add]
      refine renew_mixed hX b (by omega) (by omega) (by omega) ?_ ?_
      · rw [if_neg (by omega), Nat.add_assoc]
      · rw [if_neg (by omega), Nat.add_assoc]
  unfold renewLow
  exact h 227 (by norm_num)

theorem renewMid_mixed {X : ℕ → ℕ} (hX : IsTwister X) (b : ℕ) : renewMid (mixedWords X b 227) = mixedWords X b 623 := by
  have h : ∀ n, n ≤ 396 → (List.range' 227 n).foldl (fun x k => renewWord x k (k + 1) (k - 227)) (mixedWords X b 227) =
      mixedWords X b (227 + n) := by
    intro n
    induction n with
    | zero => intro _; simp
    | succ n ih =>
      intro hn
      rw [List.range'_concat, List.foldl_append, ih (by omega)]
      simp only [List.foldl_cons, List.foldl_nil, one_mul]
      refine renew_mixed hX b (by omega) (by omega) (by omega) ?_ ?_
      · rw [if_neg (by omega), show b + (227 + n + 1) = b + (227 + n) + 1 by omega]
      · rw [if_pos (by omega), show b + 624 + (227 + n - 227) = b + (227 + n) + 397 by omega]
  unfold renewMid
  exact h 396 (by norm_num)

theorem renewWords_follow {X : ℕ → ℕ} (hX : IsTwister X) (b : ℕ) :
    renewWords ((List.range 624).map fun i => X (b + i)) = (List.range 624).map fun i => X (b + 624 + i) := by
  have e0 : ((List.range 624).map fun i => X (b + i)) = mixedWords X b 0 := by simp [mixedWords]
  have e1 : ((List.range 624).map fun i => X (b + 624 + i)) = mixedWords X b 624 := by
    unfold mixedWords
    apply List.map_congr_left
    intro i hi
    rw [if_pos (List.mem_range.1 hi)]
  rw [e0, e1]
  unfold renewWords
  rw [renewLow_mixed hX, renewMid_mixed hX]
  refine renew_mixed hX b (by omega) (by omega) (by omega) ?_ ?_
  · rw [if_pos (by omega), show b + 624 + 0 = b + 623 + 1 by omega]
  · rw [if_pos (by omega), show b + 624 + 396 = b + 623 + 397 by omega]

theorem follows_draw {X : ℕ → ℕ} (hX : IsTwister X) {t : ℕ} {e : Mt} (h : e.Follows X t) :
    e.draw.1 = temper (X t) ∧ e.draw.2.Follows X (t + 1) := by
  obtain ⟨b, hw, hp, ht⟩ := h
  have key : ∃ b', e.fill.words = (List.range 624).map (fun i => X (b' + i)) ∧ e.fill.pos < 624 ∧ t = b' + e.fill.pos := by
    unfold Mt.fill
    split
    · refine ⟨b + 624, ?_, by norm_num, ?_⟩
      · dsimp only
        rw [hw, renewWords_follow hX b]
      · dsimp only
        omega
    · exact ⟨b, hw, by omega, ht⟩
  obtain ⟨b', g1, g2, g3⟩ := key
  unfold Mt.draw
  refine ⟨?_, b', g1, by show e.fill.pos + 1 ≤ 624; omega, by show t + 1 = b' + (e.fill.pos + 1); omega⟩
  dsimp only
  rw [g1, List.getD_eq_getElem _ _ (by simpa using g2)]
  simp only [List.getElem_map, List.getElem_range]
  rw [← g3]

theorem follows_draws {X : ℕ → ℕ} (hX : IsTwister X) (n : ℕ) {t : ℕ} {e : Mt} (h : e.Follows X t) :
    e.draws n = (List.range n).map fun i => temper (X (t + i)) := by
  induction n generalizing t e with
  | zero => rfl
  | succ n ih =>
    obtain ⟨h1, h2⟩ := follows_draw hX h
    rw [Mt.draws, h1, ih h2, List.range_succ_eq_map, List.map_cons, List.map_map]
    congr 1
    apply List.map_congr_left
    intro i _
    show temper (X (t + 1 + i)) = temper (X (t + (i + 1)))
    rw [show t + 1 + i = t + (i + 1) by omega]

theorem follows_after {X : ℕ → ℕ} (hX : IsTwister X) (n : ℕ) {t : ℕ} {e : Mt} (h : e.Follows X t) : (e.after n).Follows X (t + n) := by
  induction n generalizing t e with
  | zero => exact h
  | succ n ih =>
    have := ih (follows_draw hX h).2
    rw [show t + 1 + n = t + (n + 1) by omega] at this
    exact this

/-! ## The sequence of an engine -/

/-- The sequence that begins with the given words. -/
def twisterOf (w : List ℕ) (k : ℕ) : ℕ :=
  if _h : k < 624 then w.getD k 0
  else twisterOf w (k - 624 + 397) ^^^ twistWord (joinWords (twisterOf w (k - 624)) (twisterOf w (k - 624 + 1)))
termination_by k
decreasing_by all_goals omega

theorem twisterOf_lt {w : List ℕ} (hw : ∀ x ∈ w, x < 2 ^ 32) (k : ℕ) : twisterOf w k < 2 ^ 32 := by
  induction k using Nat.strong_induction_on with
  | _ k ih =>
    rw [twisterOf]
    split
    · rw [List.getD_eq_getElem?_getD]
      cases e : w[k]? with
      | none => simp
      | some v => exact hw v (List.mem_of_getElem? e)
    · exact Nat.xor_lt_two_pow (ih _ (by omega)) (twist_lt _ (ih _ (by omega)))

theorem twisterOf_is {w : List ℕ} (hw : ∀ x ∈ w, x < 2 ^ 32) : IsTwister (twisterOf w) := by
  refine ⟨twisterOf_lt hw, fun k => ?_⟩
  rw [twisterOf, dif_neg (by omega), show k + 624 - 624 = k by omega, twist_join _ (twisterOf_lt hw k), Nat.xor_assoc]

theorem proper_follows {e : Mt} (h : e.Proper) : e.Follows (twisterOf e.words) e.pos := by
  refine ⟨0, ?_, h.2.2, by omega⟩
  apply List.ext_getElem
  · simp [h.1]
  · intro i h1 h2
    simp only [List.getElem_map, List.getElem_range, zero_add]
    rw [twisterOf, dif_pos (by rw [← h.1]; exact h1), List.getD_eq_getElem _ _ h1]

theorem follows_proper {X : ℕ → ℕ} (hX : IsTwister X) {t : ℕ} {e : Mt} (h : e.Follows X t) : e.Proper := by
  obtain ⟨b, h1, h2, h3⟩ := h
  refine ⟨by rw [h1]; simp, ?_, h2⟩
  intro w hw
  rw [h1, List.mem_map] at hw
  obtain ⟨i, -, rfl⟩ := hw
  exact hX.1 _

/-- Two sequences that agree in 624 consecutive words agree in all words before, but for the lower bits of the first. -/
theorem twister_back {X Y : ℕ → ℕ} (hX : IsTwister X) (hY : IsTwister Y) (T : ℕ) (hT : 0 < T)
    (h : ∀ i, i < 624 → X (T + i) = Y (T + i)) :
    X 0 / 2 ^ 31 = Y 0 / 2 ^ 31 ∧ ∀ j, 0 < j → j < T + 624 → X j = Y j := by
  have step : ∀ k, X (k + 624) = Y (k + 624) → X (k + 397) = Y (k + 397) →
      X k / 2 ^ 31 = Y k / 2 ^ 31 ∧ X (k + 1) % 2 ^ 31 = Y (k + 1) % 2 ^ 31 := by
    intro k h1 h2
    rw [hX.2, hY.2, h2, Nat.xor_assoc, Nat.xor_assoc, ← twist_join _ (hX.1 k), ← twist_join _ (hY.1 k)] at h1
    have h3 := xor_cancel h1
    rw [joinWords_eq _ (hX.1 k), joinWords_eq _ (hY.1 k)] at h3
    have h4 := twist_inj (join_lt (hX.1 k)) (join_lt (hY.1 k)) h3
    have := Nat.mod_lt (X (k + 1)) (show 2 ^ 31 > 0 by norm_num)
    have := Nat.mod_lt (Y (k + 1)) (show 2 ^ 31 > 0 by norm_num)
    constructor <;> omega
  have hP : ∀ n k, k + n = T - 1 → X k / 2 ^ 31 = Y k / 2 ^ 31 ∧ ∀ j, k < j → j < T + 624 → X j = Y j := by
    intro n
    induction n with
    | zero =>
      intro k hk
      have e1 := h 623 (by omega)
      have e2 := h 396 (by omega)
      rw [show T + 623 = k + 624 by omega] at e1
      rw [show T + 396 = k + 397 by omega] at e2
      refine ⟨(step k e1 e2).1, fun j h1 h2 => ?_⟩
      have := h (j - T) (by omega)
      rwa [show T + (j - T) = j by omega] at this
    | succ n ih =>
      intro k hk
      obtain ⟨g1, g2⟩ := ih (k + 1) (by omega)
      obtain ⟨s1, s2⟩ := step k (g2 _ (by omega) (by omega)) (g2 _ (by omega) (by omega))
      refine ⟨s1, fun j h1 h2 => ?_⟩
      by_cases hj : j = k + 1
      · subst hj
        have e1 := Nat.div_add_mod (X (k + 1)) (2 ^ 31)
        have e2 := Nat.div_add_mod (Y (k + 1)) (2 ^ 31)
        rw [← e1, ← e2, g1, s2]
      · exact g2 j (by omega) h2
  obtain ⟨a, b⟩ := hP (T - 1) 0 (by omega)
  exact ⟨a, fun j h1 h2 => b j h1 h2⟩

/-! ## Seeds -/

theorem seed_inj_word {x y : ℕ} (hx : x < 2 ^ 32) (hy : y < 2 ^ 32)
    (h : ((x ^^^ (x / 2 ^ 30)) * 1812433253 + 1) % 2 ^ 32 = ((y ^^^ (y / 2 ^ 30)) * 1812433253 + 1) % 2 ^ 32) : x = y := by
  rw [← Nat.shiftRight_eq_div_pow, ← Nat.shiftRight_eq_div_pow] at h
  have h1 : (x ^^^ (x >>> 30)) * 1812433253 ≡ (y ^^^ (y >>> 30)) * 1812433253 [MOD 2 ^ 32] :=
    Nat.ModEq.add_right_cancel' 1 h
  have h2 : x ^^^ (x >>> 30) ≡ y ^^^ (y >>> 30) [MOD 2 ^ 32] :=
    Nat.ModEq.cancel_right_of_coprime (by decide +kernel) h1
  have l : ∀ z : ℕ, z < 2 ^ 32 → z ^^^ (z >>> 30) < 2 ^ 32 := fun z hz =>
    Nat.xor_lt_two_pow hz (lt_of_le_of_lt (Nat.shiftRight_le _ _) hz)
  have h3 : x ^^^ (x >>> 30) = y ^^^ (y >>> 30) := Nat.ModEq.eq_of_lt_of_lt h2 (l x hx) (l y hy)
  exact step_inj (g := fun z => z >>> 30) (fun x y => Nat.shiftRight_xor_distrib) (fun d hd => rshift_zero (s := 30) (m := d >>> 30)
    (by norm_num) (by rw [Nat.and_self]; exact hd)) h3

theorem seedLoop_get (n i x k : ℕ) (hk : k < n) :
    (x :: seedLoop n i x).getD (k + 1) 0 = seedWord ((x :: seedLoop n i x).getD k 0) (i + k) := by
  induction n generalizing i x k with
  | zero => omega
  | succ n ih =>
    rw [seedLoop]
    cases k with
    | zero => rw [List.getD_cons_succ, List.getD_cons_zero, List.getD_cons_zero, Nat.add_zero]
    | succ k =>
      have h := ih (i + 1) (seedWord x i) k (by omega)
      have e : ∀ (l : List ℕ) (j : ℕ), (x :: l).getD (j + 1) 0 = l.getD j 0 := fun _ _ => List.getD_cons_succ ..
      rw [e _ (k + 1), e _ k, h, show i + 1 + k = i + (k + 1) by omega]

theorem seedWord_eq (x : ℕ) {i : ℕ} (hi : i < 624) : seedWord x i = ((x ^^^ (x / 2 ^ 30)) * 1812433253 + i) % 2 ^ 32 := by
  unfold seedWord
  rw [Nat.shiftRight_eq_div_pow, Nat.mod_eq_of_lt hi]

theorem twisterOf_seed (n : ℕ) : twisterOf (Mt.seed n).words 0 = n % 2 ^ 32 ∧
    ∀ k, k < 623 → twisterOf (Mt.seed n).words (k + 1) =
      ((twisterOf (Mt.seed n).words k ^^^ (twisterOf (Mt.seed n).words k / 2 ^ 30)) * 1812433253 + (k + 1)) % 2 ^ 32 := by
  refine ⟨?_, fun k hk => ?_⟩
  · rw [twisterOf, dif_pos (by norm_num)]
    unfold Mt.seed
    rw [List.getD_cons_zero]
  · rw [twisterOf, dif_pos (by omega), twisterOf, dif_pos (by omega), ← seedWord_eq _ (by omega), Nat.add_comm k 1]
    unfold Mt.seed
    dsimp only
    rw [Nat.add_comm 1 k, seedLoop_get _ _ _ _ hk, Nat.add_comm 1 k]

theorem zero_twister : IsTwister fun _ => 0 := ⟨fun _ => by norm_num, fun _ => by simp⟩

/-! ## Computing many words -/

/-- `k n`, computed with the value of `n`. -/
def forceNat {α : Type} (n : ℕ) (k : ℕ → α) : α := Nat.rec (motive := fun _ => α) (k 0) (fun m _ => k (m + 1)) n

theorem forceNat_eq {α : Type} (n : ℕ) (k : ℕ → α) : forceNat n k = k n := by cases n <;> rfl

def forceList {α : Type} : List ℕ → (List ℕ → α) → α
  | [], k => k []
  | x :: xs, k => forceNat x fun x => forceList xs fun xs => k (x :: xs)

theorem forceList_eq {α : Type} (l : List ℕ) (k : List ℕ → α) : forceList l k = k l := by
  induction l generalizing k with
  | nil => rfl
  | cons x xs ih => rw [forceList, forceNat_eq, ih]

/-- The words `a, ..., a + n - 1` of a sequence. -/
def wordsFrom (X : ℕ → ℕ) : ℕ → ℕ → List ℕ
  | _, 0 => []
  | a, n + 1 => X a :: wordsFrom X (a + 1) n

theorem wordsFrom_append (X : ℕ → ℕ) (a m n : ℕ) : wordsFrom X a m ++ wordsFrom X (a + m) n = wordsFrom X a (m + n) := by
  induction m generalizing a with
  | zero => simp [wordsFrom]
  | succ m ih => rw [show m + 1 + n = m + n + 1 by omega, wordsFrom, wordsFrom, List.cons_append, ← ih, show a + (m + 1) = a + 1 + m by omega]

theorem wordsFrom_drop (X : ℕ → ℕ) (a m n : ℕ) : (wordsFrom X a (m + n)).drop m = wordsFrom X (a + m) n := by
  induction m generalizing a with
  | zero => simp
  | succ m ih => rw [show m + 1 + n = m + n + 1 by omega, wordsFrom, List.drop_succ_cons, ih, show a + (m + 1) = a + 1 + m by omega]

theorem wordsFrom_eq (X : ℕ → ℕ) (a n : ℕ) : wordsFrom X a n = (List.range n).map fun i => X (a + i) := by
  induction n generalizing a with
  | zero => rfl
  | succ n ih =>
    rw [wordsFrom, ih, List.range_succ_eq_map, List.map_cons, List.map_map, Nat.add_zero]
    congr 1
    apply List.map_congr_left
    intro i _
    rw [Function.comp, Nat.succ_eq_add_one, show a + 1 + i = a + (i + 1) by omega]

/-- Words made one after the other. -/
def mixLists : List ℕ → List ℕ → List ℕ → List ℕ
  | z :: zs, x :: xs, y :: ys => (z ^^^ twistWord (joinWords x y)) :: mixLists zs xs ys
  | _, _, _ => []

theorem mixLists_words {X : ℕ → ℕ} (hX : IsTwister X) (n k : ℕ) (i j : ℕ) :
    mixLists (wordsFrom X (k + 397) n) (wordsFrom X k (n + i)) (wordsFrom X (k + 1) (n + j)) = wordsFrom X (k + 624) n := by
  induction n generalizing k with
  | zero => simp [wordsFrom, mixLists]
  | succ n ih =>
    have e : X (k + 397) ^^^ twistWord (joinWords (X k) (X (k + 1))) = X (k + 624) := by
      rw [hX.2, twist_join _ (hX.1 k), Nat.xor_assoc]
    rw [show n + 1 + i = n + i + 1 by omega, show n + 1 + j = n + j + 1 by omega, wordsFrom, wordsFrom, wordsFrom, wordsFrom, mixLists, e,
      show k + 397 + 1 = k + 1 + 397 by omega, ih, show k + 624 + 1 = k + 1 + 624 by omega]

/-- All words renewed, with no array. -/
def renewLists {α : Type} (x : List ℕ) (k : List ℕ → α) : α :=
  forceList (mixLists (x.drop 397) x (x.drop 1)) fun p =>
    forceList (mixLists p (x.drop 227) (x.drop 228)) fun q =>
      forceList (mixLists (q.take 170) (x.drop 454) (x.drop 455 ++ p.take 1)) fun r => k (p ++ q ++ r)

theorem renewLists_words {α : Type} {X : ℕ → ℕ} (hX : IsTwister X) (b : ℕ) (k : List ℕ → α) :
    renewLists (wordsFrom X b 624) k = k (wordsFrom X (b + 624) 624) := by
  have d : ∀ m n, m + n = 624 → (wordsFrom X b 624).drop m = wordsFrom X (b + m) n := by
    intro m n h
    rw [← h]; exact wordsFrom_drop X b m n
  have p : mixLists ((wordsFrom X b 624).drop 397) (wordsFrom X b 624) ((wordsFrom X b 624).drop 1) = wordsFrom X (b + 624) 227 := by
    rw [d 397 227 (by norm_num), d 1 623 (by norm_num)]
    exact mixLists_words hX 227 b 397 396
  have q : mixLists (wordsFrom X (b + 624) 227) ((wordsFrom X b 624).drop 227) ((wordsFrom X b 624).drop 228) =
      wordsFrom X (b + 624 + 227) 227 := by
    rw [d 227 397 (by norm_num), d 228 396 (by norm_num)]
    have h := mixLists_words hX 227 (b + 227) 170 169
    rw [show b + 227 + 397 = b + 624 by omega, show b + 227 + 1 = b + 228 by omega, show b + 227 + 624 = b + 624 + 227 by omega] at h
    exact h
  have t1 : (wordsFrom X (b + 624 + 227) 227).take 170 = wordsFrom X (b + 624 + 227) 170 := by
    have h := wordsFrom_append X (b + 624 + 227) 170 57
    have hl : (wordsFrom X (b + 624 + 227) 170).length = 170 := by rw [wordsFrom_eq]; simp
    rw [show (227 : ℕ) = 170 + 57 by norm_num, ← wordsFrom_append, List.take_append_of_le_length (by rw [show 170 + 57 = 227 by norm_num, hl]),
      List.take_of_length_le (by rw [show 170 + 57 = 227 by norm_num, hl])]
  have t2 : (wordsFrom X (b + 624) 227).take 1 = wordsFrom X (b + 624) 1 := by
    rw [show (227 : ℕ) = 226 + 1 by norm_num, wordsFrom, List.take_succ_cons, List.take_zero, wordsFrom, wordsFrom]
  have r : mixLists (wordsFrom X (b + 624 + 227) 170) ((wordsFrom X b 624).drop 454)
      ((wordsFrom X b 624).drop 455 ++ wordsFrom X (b + 624) 1) = wordsFrom X (b + 624 + 454) 170 := by
    rw [d 454 170 (by norm_num), d 455 169 (by norm_num), show b + 624 = b + 455 + 169 by omega, wordsFrom_append]
    have h := mixLists_words hX 170 (b + 454) 0 0
    rw [show b + 454 + 397 = b + 455 + 169 + 227 by omega, show b + 454 + 1 = b + 455 by omega,
      show b + 454 + 624 = b + 455 + 169 + 454 by omega] at h
    exact h
  unfold renewLists
  rw [forceList_eq, p, forceList_eq, q, forceList_eq, t1, t2, r, wordsFrom_append, show b + 624 + 454 = b + 624 + (227 + 227) by omega,
    wordsFrom_append]

def renewTimes {α : Type} : ℕ → List ℕ → (List ℕ → α) → α
  | 0, x, k => k x
  | n + 1, x, k => renewLists x fun y => renewTimes n y k

theorem renewTimes_words {α : Type} {X : ℕ → ℕ} (hX : IsTwister X) (n b : ℕ) (k : List ℕ → α) :
    renewTimes n (wordsFrom X b 624) k = k (wordsFrom X (b + 624 * n) 624) := by
  induction n generalizing b with
  | zero => rfl
  | succ n ih => rw [renewTimes, renewLists_words hX, ih, show b + 624 + 624 * n = b + 624 * (n + 1) by ring]

end TNCO
