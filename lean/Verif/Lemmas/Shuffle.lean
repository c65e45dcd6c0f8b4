import Verif.Spec.Shuffle
import Mathlib.Data.Nat.Count
import Mathlib.Order.Interval.Finset.Nat
import Mathlib.Tactic.Linarith
import Mathlib.Tactic.Ring

namespace TNCO

/-! ## One number -/

theorem threshold_eq {n : ℕ} (h0 : 0 < n) (h : n < 2 ^ 32) : (2 ^ 32 - n) % 2 ^ 32 % n = 2 ^ 32 % n := by
  generalize 2 ^ 32 = b at h
  rw [Nat.mod_eq_of_lt (a := b - n) (by omega)]
  conv_rhs => rw [show b = (b - n) + n by omega]
  rw [Nat.add_mod_right]

theorem scaled_lt {n x v : ℕ} (hx : x < 2 ^ 32) (hn : 0 < n) (h : scaled n x = some v) : v < n := by
  unfold scaled at h
  split at h
  · cases h
  · cases h
    rw [Nat.div_lt_iff_lt_mul (by norm_num), Nat.mul_comm]
    exact Nat.mul_lt_mul_of_pos_left hx hn

variable {σ : Type} {next : σ → ℕ × σ}

/-- The state after `k` numbers. -/
def skipDraws (next : σ → ℕ × σ) : ℕ → σ → σ
  | 0, s => s
  | k + 1, s => skipDraws next k (next s).2

theorem scaleLoop_first (hd : ∀ s, (next s).1 < 2 ^ 32) {n : ℕ} (hn : n < 2 ^ 32) :
    ∀ fuel x s v s', x < 2 ^ 32 → scaleLoop next n (2 ^ 32 % n) fuel (x * n % 2 ^ 64) s = .ok (v, s') →
      (scaled n x = some v ∧ s' = s) ∨ (scaled n x = none ∧ ∃ k, (∀ i < k, scaled n (next (skipDraws next i s)).1 = none) ∧
        scaled n (next (skipDraws next k s)).1 = some v ∧ s' = (next (skipDraws next k s)).2) := by
  intro fuel
  induction fuel with
  | zero => intro x s v s' _ h; rw [scaleLoop] at h; cases h
  | succ fuel ih =>
    intro x s v s' hx h
    have hp : x * n % 2 ^ 64 = x * n := Nat.mod_eq_of_lt (by
      calc x * n < 2 ^ 32 * 2 ^ 32 := Nat.mul_lt_mul_of_lt_of_le hx hn.le (by norm_num)
        _ = 2 ^ 64 := by norm_num)
    rw [scaleLoop, hp] at h
    split at h
    · next hlt =>
      refine Or.inr ⟨by unfold scaled; exact if_pos hlt, ?_⟩
      rcases ih _ _ _ _ (hd s) h with ⟨h1, h2⟩ | ⟨h1, k, h2, h3, h4⟩
      · exact ⟨0, fun i hi => absurd hi (by omega), h1, h2⟩
      · refine ⟨k + 1, fun i hi => ?_, h3, h4⟩
        cases i with
        | zero => exact h1
        | succ i => exact h2 i (by omega)
    · next hlt =>
      cases h
      exact Or.inl ⟨by unfold scaled; exact if_neg hlt, rfl⟩

/-- What is returned is made of the first number that is not rejected. -/
theorem scale_first (hd : ∀ s, (next s).1 < 2 ^ 32) {n : ℕ} (h0 : 0 < n) (hn : n < 2 ^ 32) {fuel : ℕ} {s : σ} {v : ℕ} {s' : σ}
    (h : scale next fuel n s = .ok (v, s')) :
    ∃ k, (∀ i < k, scaled n (next (skipDraws next i s)).1 = none) ∧
      scaled n (next (skipDraws next k s)).1 = some v ∧ s' = (next (skipDraws next k s)).2 := by
  have hx := hd s
  unfold scale at h
  have hp : (next s).1 * n % 2 ^ 64 = (next s).1 * n := Nat.mod_eq_of_lt (by
    calc (next s).1 * n < 2 ^ 32 * 2 ^ 32 := Nat.mul_lt_mul_of_lt_of_le hx hn.le (by norm_num)
      _ = 2 ^ 64 := by norm_num)
  split at h
  · rw [threshold_eq h0 hn] at h
    rcases scaleLoop_first hd hn _ _ _ _ _ hx h with ⟨h1, h2⟩ | ⟨h1, k, h2, h3, h4⟩
    · exact ⟨0, fun i hi => absurd hi (by omega), h1, h2⟩
    · refine ⟨k + 1, fun i hi => ?_, h3, h4⟩
      cases i with
      | zero => exact h1
      | succ i => exact h2 i (by omega)
  · next hlt =>
    rw [hp] at h hlt
    cases h
    refine ⟨0, fun i hi => absurd hi (by omega), ?_, rfl⟩
    unfold scaled
    have : 2 ^ 32 % n < n := Nat.mod_lt _ h0
    exact if_neg (by have := Nat.mod_lt (2 ^ 32) h0; exact fun h => hlt (lt_trans h this))

theorem scale_error {fuel n : ℕ} {s : σ} {e : ShufErr} (h : scale next fuel n s = .error e) : e = .noReturn := by
  have key : ∀ thr fuel p s, scaleLoop next n thr fuel p s = .error e → e = .noReturn := by
    intro thr fuel
    induction fuel with
    | zero => intro p s h; rw [scaleLoop] at h; cases h; rfl
    | succ fuel ih =>
      intro p s h
      rw [scaleLoop] at h
      split at h
      · exact ih _ _ h
      · cases h
  unfold scale at h
  split at h
  · exact key _ _ _ _ h
  · cases h

theorem scale_lt (hd : ∀ s, (next s).1 < 2 ^ 32) {n : ℕ} (h0 : 0 < n) (hn : n < 2 ^ 32) {fuel : ℕ} {s : σ} {v : ℕ} {s' : σ}
    (h : scale next fuel n s = .ok (v, s')) : v < n := by
  obtain ⟨k, -, h2, -⟩ := scale_first hd h0 hn h
  exact scaled_lt (hd _) h0 h2

/-- The multiples of `n` in an interval. -/
theorem count_interval (n q a b : ℕ) (hn : 0 < n) (h : a + n * q ≤ b * n) :
    b.count (fun x => a ≤ x * n ∧ x * n < a + n * q) = q := by
  rw [Nat.count_eq_card_filter_range]
  have : (Finset.range b).filter (fun x => a ≤ x * n ∧ x * n < a + n * q) = Finset.Ico ((a + n - 1) / n) ((a + n - 1) / n + q) := by
    ext x
    have e1 : a ≤ x * n ↔ (a + n - 1) / n ≤ x := by
      rw [Nat.div_le_iff_le_mul_add_pred hn]
      constructor <;> intro h <;> nlinarith [Nat.mul_comm n x, Nat.sub_add_cancel (show 1 ≤ a + n by omega), Nat.sub_add_cancel hn]
    have e2 : x * n < a + n * q ↔ x < (a + n - 1) / n + q := by
      rw [← not_le, ← not_le, not_iff_not]
      constructor
      · intro h
        have : q ≤ x := by
          by_contra hq
          have : x + 1 ≤ q := by omega
          nlinarith
        have e : (a + n - 1) / n ≤ x - q := by
          rw [Nat.div_le_iff_le_mul_add_pred hn]
          obtain ⟨y, rfl⟩ := Nat.exists_eq_add_of_le this
          rw [Nat.add_sub_cancel_left]
          have : a ≤ n * y := by nlinarith
          omega
        omega
      · intro h
        have e : (a + n - 1) / n ≤ x - q := by omega
        rw [Nat.div_le_iff_le_mul_add_pred hn] at e
        obtain ⟨y, rfl⟩ := Nat.exists_eq_add_of_le (le_trans (Nat.le_add_left q _) h)
        rw [Nat.add_sub_cancel_left] at e
        have : a ≤ n * y := by omega
        nlinarith
    rw [Finset.mem_filter, Finset.mem_range, Finset.mem_Ico, e1, ← e2]
    constructor
    · exact fun h => h.2
    · rintro ⟨h1, h2⟩
      exact ⟨by by_contra hb; have : b * n ≤ x * n := Nat.mul_le_mul_right _ (by omega); omega, h1, h2⟩
  rw [this, Nat.card_Ico]
  omega

theorem scaled_count {n v : ℕ} (h0 : 0 < n) (hv : v < n) : (2 ^ 32).count (fun x => scaled n x = some v) = 2 ^ 32 / n := by
  unfold scaled
  have hb : 0 < 2 ^ 32 := by norm_num
  generalize 2 ^ 32 = b at hb
  have hdm := Nat.div_add_mod b n
  rw [← count_interval n (b / n) (v * b + b % n) b h0 (by
    have : (v + 1) * b ≤ n * b := Nat.mul_le_mul_right _ hv
    nlinarith)]
  congr 1
  funext x
  apply propext
  have hx := Nat.div_add_mod (x * n) b
  have hlt := Nat.mod_lt (x * n) hb
  split
  · next h =>
    constructor
    · intro h; cases h
    · rintro ⟨h1, h2⟩
      exfalso
      rw [Nat.add_assoc, Nat.add_comm (b % n), hdm] at h2
      have : x * n / b = v := by
        rw [Nat.div_eq_iff hb]
        constructor <;> omega
      rw [this] at hx
      nlinarith
  · next h =>
    rw [Option.some.injEq]
    constructor
    · intro h
      rw [h] at hx
      constructor <;> nlinarith
    · rintro ⟨h1, h2⟩
      rw [Nat.add_assoc, Nat.add_comm (b % n), hdm] at h2
      rw [Nat.div_eq_iff hb]
      constructor <;> omega

/-! ## Swaps -/

theorem swapPos_length (l : List ℕ) (i j : ℕ) : (swapPos l i j).length = l.length := by unfold swapPos; simp

theorem swapPos_perm {l : List ℕ} {i j : ℕ} (hi : i < l.length) (hj : j < l.length) : (swapPos l i j).Perm l := by
  unfold swapPos
  rw [List.getD_eq_getElem _ _ hi, List.getD_eq_getElem _ _ hj]
  exact List.set_set_perm hi hj

theorem swapPos_get {l : List ℕ} {i j : ℕ} (hi : i < l.length) (hj : j < l.length) (m : ℕ) :
    (swapPos l i j).getD m 0 = if m = j then l.getD i 0 else if m = i then l.getD j 0 else l.getD m 0 := by
  unfold swapPos
  simp only [List.getD_eq_getElem?_getD, List.getElem?_set, List.length_set]
  by_cases h1 : m = j
  · subst h1; simp [hj]
  · rw [if_neg (fun h => h1 h.symm), if_neg h1]
    by_cases h2 : m = i
    · subst h2; simp [hi]
    · rw [if_neg (fun h => h2 h.symm), if_neg h2]

theorem ext_getD {l l' : List ℕ} (h : l.length = l'.length) (hg : ∀ m, l.getD m 0 = l'.getD m 0) : l = l' := by
  refine List.ext_getElem h fun m h1 h2 => ?_
  have := hg m
  rwa [List.getD_eq_getElem _ _ h1, List.getD_eq_getElem _ _ h2] at this

theorem swapPos_twice {l : List ℕ} {i j : ℕ} (hi : i < l.length) (hj : j < l.length) : swapPos (swapPos l i j) i j = l := by
  refine ext_getD (by rw [swapPos_length, swapPos_length]) fun m => ?_
  rw [swapPos_get (by rwa [swapPos_length]) (by rwa [swapPos_length]), swapPos_get hi hj, swapPos_get hi hj, swapPos_get hi hj]
  split_ifs <;> simp_all

theorem arrange_snoc (cs : List ℕ) (c : ℕ) : ∀ i l, arrange i (cs ++ [c]) l = swapPos (arrange i cs l) (i + cs.length) c := by
  induction cs with
  | nil => intro i l; rfl
  | cons d cs ih => intro i l; rw [List.cons_append, arrange, arrange, ih]; congr 1; rw [List.length_cons]; omega

theorem choicesOk_snoc (cs : List ℕ) (c : ℕ) : ∀ i, ChoicesOk i (cs ++ [c]) ↔ ChoicesOk i cs ∧ c ≤ i + cs.length := by
  induction cs with
  | nil => intro i; simp [ChoicesOk]
  | cons d cs ih =>
    intro i
    rw [List.cons_append, ChoicesOk, ChoicesOk, ih, and_assoc, List.length_cons]
    rw [show i + 1 + cs.length = i + (cs.length + 1) by omega]

theorem arrange_perm : ∀ cs i l, ChoicesOk i cs → i + cs.length ≤ l.length → (arrange i cs l).Perm l := by
  intro cs
  induction cs with
  | nil => intro i l _ _; exact List.Perm.refl _
  | cons c cs ih =>
    intro i l h hl
    rw [ChoicesOk] at h
    rw [List.length_cons] at hl
    rw [arrange]
    exact (ih _ _ h.2 (by rw [swapPos_length]; omega)).trans (swapPos_perm (by omega) (by omega))

theorem arrange_keeps (cs : List ℕ) : ∀ i l, ChoicesOk i cs → i + cs.length ≤ l.length →
    ∀ m, i + cs.length ≤ m → (arrange i cs l).getD m 0 = l.getD m 0 := by
  induction cs with
  | nil => intro i l _ _ m _; rfl
  | cons c cs ih =>
    intro i l h hl m hm
    rw [ChoicesOk] at h
    rw [List.length_cons] at hl hm
    rw [arrange, ih _ _ h.2 (by rw [swapPos_length]; omega) m (by omega), swapPos_get (by omega) (by omega), if_neg (by omega), if_neg (by omega)]

theorem getD_inj {l : List ℕ} (hn : l.Nodup) {i j : ℕ} (hi : i < l.length) (hj : j < l.length) (h : l.getD i 0 = l.getD j 0) : i = j := by
  rw [List.getD_eq_getElem _ _ hi, List.getD_eq_getElem _ _ hj] at h
  exact (List.Nodup.getElem_inj_iff hn).1 h

theorem arrange_inj {l : List ℕ} (hn : l.Nodup) : ∀ k cs ds, cs.length = k → ds.length = k → k ≤ l.length → ChoicesOk 0 cs → ChoicesOk 0 ds →
    arrange 0 cs l = arrange 0 ds l → cs = ds := by
  intro k
  induction k with
  | zero => intro cs ds h1 h2 _ _ _ _; rw [List.length_eq_zero_iff.1 h1, List.length_eq_zero_iff.1 h2]
  | succ k ih =>
    intro cs ds h1 h2 hk hc hd h
    obtain ⟨cs, c, rfl⟩ := List.eq_nil_or_concat' cs |>.resolve_left (by rintro rfl; cases h1)
    obtain ⟨ds, d, rfl⟩ := List.eq_nil_or_concat' ds |>.resolve_left (by rintro rfl; cases h2)
    rw [List.length_append, List.length_singleton] at h1 h2
    have e1 : cs.length = k := by omega
    have e2 : ds.length = k := by omega
    rw [choicesOk_snoc, Nat.zero_add] at hc hd
    rw [arrange_snoc, arrange_snoc, e1, e2, Nat.zero_add] at h
    rw [e1] at hc
    rw [e2] at hd
    have pA := arrange_perm cs 0 l hc.1 (by omega)
    have pB := arrange_perm ds 0 l hd.1 (by omega)
    have kA := arrange_keeps cs 0 l hc.1 (by omega) k (by omega)
    have kB := arrange_keeps ds 0 l hd.1 (by omega) k (by omega)
    have lA := pA.length_eq
    have lB := pB.length_eq
    have hcd : c = d := by
      have g1 := swapPos_get (l := arrange 0 cs l) (i := k) (j := c) (by omega) (by omega) c
      have g2 := swapPos_get (l := arrange 0 ds l) (i := k) (j := d) (by omega) (by omega) d
      rw [if_pos rfl, kA] at g1
      rw [if_pos rfl, kB, ← h, ← g1] at g2
      refine (getD_inj ?_ ?_ ?_ g2).symm
      · exact ((swapPos_perm (by omega) (by omega)).trans pA).nodup_iff.2 hn
      · rw [swapPos_length]; omega
      · rw [swapPos_length]; omega
    subst hcd
    have := congrArg (fun x => swapPos x k c) h
    rw [swapPos_twice (by omega) (by omega), swapPos_twice (by omega) (by omega)] at this
    rw [ih cs ds e1 e2 (by omega) hc.1 hd.1 this]

theorem arrange_onto {l : List ℕ} (hn : l.Nodup) : ∀ k l', k ≤ l.length → l'.Perm l → (∀ m, k ≤ m → l'.getD m 0 = l.getD m 0) →
    ∃ cs, cs.length = k ∧ ChoicesOk 0 cs ∧ arrange 0 cs l = l' := by
  intro k
  induction k with
  | zero =>
    intro l' _ hp hm
    exact ⟨[], rfl, trivial, (ext_getD hp.length_eq fun m => hm m (by omega)).symm⟩
  | succ k ih =>
    intro l' hk hp hm
    have hlen := hp.length_eq
    have hz : l.getD k 0 ∈ l' := by
      rw [hp.mem_iff, List.getD_eq_getElem _ _ (by omega)]
      exact List.getElem_mem _
    obtain ⟨c, hc, hcz⟩ := List.getElem_of_mem hz
    have hck : c ≤ k := by
      by_contra hck
      have := hm c (by omega)
      rw [List.getD_eq_getElem _ _ hc, hcz] at this
      have := getD_inj hn (by omega) (by omega) this
      omega
    obtain ⟨cs, h1, h2, h3⟩ := ih (swapPos l' k c) (by omega) ((swapPos_perm (by omega) hc).trans hp) (fun m hkm => by
      rw [swapPos_get (by omega) hc]
      by_cases hmk : m = k
      · subst hmk
        by_cases hmc : m = c
        · subst hmc
          rw [if_pos rfl, List.getD_eq_getElem _ _ hc, hcz]
        · rw [if_neg hmc, if_pos rfl, List.getD_eq_getElem _ _ hc, hcz]
      · rw [if_neg (by omega), if_neg hmk]
        exact hm m (by omega))
    refine ⟨cs ++ [c], by simp [h1], ?_, ?_⟩
    · rw [choicesOk_snoc]; exact ⟨h2, by omega⟩
    · rw [arrange_snoc, h3, h1, Nat.zero_add, swapPos_twice (by omega) hc]

theorem swapPos_self {l : List ℕ} (i : ℕ) (hi : i < l.length) : swapPos l i i = l := by
  refine ext_getD (swapPos_length _ _ _) fun m => ?_
  rw [swapPos_get hi hi]
  split_ifs with h <;> simp_all

/-- Every order comes from exactly one list of choices. -/
theorem arrange_unique {l l' : List ℕ} (hn : l.Nodup) (hp : l'.Perm l) :
    ∃! cs, (cs.length = l.length - 1 ∧ ChoicesOk 1 cs) ∧ arrange 1 cs l = l' := by
  cases l with
  | nil =>
    rw [List.perm_nil.1 hp]
    exact ⟨[], ⟨⟨rfl, trivial⟩, rfl⟩, fun cs h => List.length_eq_zero_iff.1 h.1.1⟩
  | cons a t =>
    have e : ∀ cs, arrange 0 (0 :: cs) (a :: t) = arrange 1 cs (a :: t) := fun cs => by
      rw [arrange, swapPos_self 0 (by simp)]
    obtain ⟨cs, h1, h2, h3⟩ := arrange_onto hn (a :: t).length l' (le_refl _) hp (fun m hm => by
      rw [List.getD_eq_default _ _ (by rw [hp.length_eq]; exact hm), List.getD_eq_default _ _ hm])
    cases cs with
    | nil => cases h1
    | cons c cs =>
      rw [ChoicesOk] at h2
      have hc : c = 0 := by omega
      subst hc
      rw [e] at h3
      rw [List.length_cons, List.length_cons] at h1
      refine ⟨cs, ⟨⟨by rw [List.length_cons]; omega, h2.2⟩, h3⟩, fun ds hds => ?_⟩
      obtain ⟨⟨g1, g2⟩, g3⟩ := hds
      rw [List.length_cons] at g1
      have := arrange_inj hn (t.length + 1) (0 :: ds) (0 :: cs) (by rw [List.length_cons]; omega) (by rw [List.length_cons]; omega) (by simp)
        ⟨le_refl _, g2⟩ ⟨le_refl _, h2.2⟩ (by rw [e, e, g3, h3])
      exact (List.cons.inj this).2

/-! ## `std::shuffle` -/

theorem iterSwap_ok {l : List ℕ} {i j : ℕ} (hi : i < l.length) (hj : j < l.length) : iterSwap l i j = .ok (swapPos l i j) :=
  if_pos ⟨hi, hj⟩

theorem singles_choices (hd : ∀ s, (next s).1 < 2 ^ 32) (fuel : ℕ) : ∀ k i l s, i + k ≤ l.length → i + k < 2 ^ 32 →
    (∃ cs s', shuffleSingles next fuel k i l s = .ok (arrange i cs l, s') ∧ cs.length = k ∧ ChoicesOk i cs) ∨
      shuffleSingles next fuel k i l s = .error .noReturn := by
  intro k
  induction k with
  | zero => intro i l s _ _; exact Or.inl ⟨[], s, rfl, rfl, trivial⟩
  | succ k ih =>
    intro i l s h1 h2
    rw [shuffleSingles]
    rcases hx : scale next fuel (i + 1) s with e | ⟨x, s1⟩
    · exact Or.inr (by rw [scale_error hx])
    · have hlt := scale_lt hd (by omega) (by omega) hx
      dsimp only
      rw [iterSwap_ok (by omega) (by omega)]
      dsimp only
      rcases ih (i + 1) (swapPos l i x) s1 (by rw [swapPos_length]; omega) (by omega) with ⟨cs, s', g1, g2, g3⟩ | g
      · exact Or.inl ⟨x :: cs, s', g1, by rw [List.length_cons, g2], ⟨by omega, g3⟩⟩
      · exact Or.inr g

theorem pairs_choices (hd : ∀ s, (next s).1 < 2 ^ 32) (fuel : ℕ) : ∀ k i l s, i + 2 * k ≤ l.length → l.length * l.length < 2 ^ 32 →
    (∃ cs s', shufflePairs next fuel k i l s = .ok (arrange i cs l, s') ∧ cs.length = 2 * k ∧ ChoicesOk i cs) ∨
      shufflePairs next fuel k i l s = .error .noReturn := by
  intro k
  induction k with
  | zero => intro i l s _ _; exact Or.inl ⟨[], s, rfl, rfl, trivial⟩
  | succ k ih =>
    intro i l s h1 h2
    rw [shufflePairs]
    rcases hx : scale next fuel ((i + 1) * (i + 2)) s with e | ⟨x, s1⟩
    · exact Or.inr (by rw [scale_error hx])
    · have hlt := scale_lt hd (Nat.mul_pos (by omega) (by omega))
        (lt_of_le_of_lt (Nat.mul_le_mul (by omega) (by omega)) h2) hx
      have ha : x / (i + 2) < i + 1 := (Nat.div_lt_iff_lt_mul (by omega)).2 hlt
      have hb : x % (i + 2) < i + 2 := Nat.mod_lt _ (by omega)
      dsimp only
      rw [iterSwap_ok (by omega) (by omega)]
      dsimp only
      rw [iterSwap_ok (by rw [swapPos_length]; omega) (by rw [swapPos_length]; omega)]
      dsimp only
      rcases ih (i + 2) (swapPos (swapPos l i (x / (i + 2))) (i + 1) (x % (i + 2))) s1
        (by rw [swapPos_length, swapPos_length]; omega) (by rw [swapPos_length, swapPos_length]; exact h2) with ⟨cs, s', g1, g2, g3⟩ | g
      · exact Or.inl ⟨x / (i + 2) :: x % (i + 2) :: cs, s', g1, by rw [List.length_cons, List.length_cons, g2]; ring, ⟨by omega, by omega, g3⟩⟩
      · exact Or.inr g

theorem shuffle_choices (hd : ∀ s, (next s).1 < 2 ^ 32) (fuel : ℕ) (l : List ℕ) (s : σ) (hl : l.length < 2 ^ 32) :
    (∃ cs s', stdShuffle next fuel l s = .ok (arrange 1 cs l, s') ∧ cs.length = l.length - 1 ∧ ChoicesOk 1 cs) ∨
      stdShuffle next fuel l s = .error .noReturn := by
  unfold stdShuffle
  split
  · next h => exact Or.inl ⟨[], s, rfl, by rw [h]; rfl, trivial⟩
  · next h =>
    have hpos : 0 < l.length := List.length_pos_iff.2 h
    split
    · next hsq =>
      have hsq' : l.length * l.length < 2 ^ 32 := by
        have := (Nat.le_div_iff_mul_le hpos).1 hsq
        omega
      split
      · next hev =>
        rcases hx : scale next fuel 2 s with e | ⟨x, s1⟩
        · exact Or.inr (by rw [scale_error hx])
        · have hlt := scale_lt hd (by norm_num) (by norm_num) hx
          dsimp only
          rw [iterSwap_ok (by omega) (by omega)]
          dsimp only
          rw [swapPos_length]
          rcases pairs_choices hd fuel ((l.length - 2) / 2) 2 (swapPos l 1 x) s1 (by rw [swapPos_length]; omega) (by rw [swapPos_length]; exact hsq')
            with ⟨cs, s', g1, g2, g3⟩ | g
          · exact Or.inl ⟨x :: cs, s', g1, by rw [List.length_cons, g2]; omega, ⟨by omega, g3⟩⟩
          · exact Or.inr g
      · next hodd =>
        rcases pairs_choices hd fuel ((l.length - 1) / 2) 1 l s (by omega) hsq' with ⟨cs, s', g1, g2, g3⟩ | g
        · exact Or.inl ⟨cs, s', g1, by rw [g2]; omega, g3⟩
        · exact Or.inr g
    · rcases singles_choices hd fuel (l.length - 1) 1 l s (by omega) (by omega) with ⟨cs, s', g1, g2, g3⟩ | g
      · exact Or.inl ⟨cs, s', g1, g2, g3⟩
      · exact Or.inr g

/-! ## More fuel, other generators -/

section
variable {τ : Type} {next' : τ → ℕ × τ} {f : σ → τ}

/-- The result with other states. -/
def onState (f : σ → τ) {α : Type} : Except ShufErr (α × σ) → Except ShufErr (α × τ)
  | .error e => .error e
  | .ok (a, s) => .ok (a, f s)

theorem scaleLoop_sim (h : ∀ s, next' (f s) = ((next s).1, f (next s).2)) (n thr : ℕ) : ∀ fuel p s,
    scaleLoop next' n thr fuel p (f s) = onState f (scaleLoop next n thr fuel p s) := by
  intro fuel
  induction fuel with
  | zero => intro p s; rfl
  | succ fuel ih =>
    intro p s
    rw [scaleLoop, scaleLoop, h]
    split
    · exact ih _ _
    · rfl

theorem scale_sim (h : ∀ s, next' (f s) = ((next s).1, f (next s).2)) (fuel n : ℕ) (s : σ) :
    scale next' fuel n (f s) = onState f (scale next fuel n s) := by
  unfold scale
  rw [h]
  dsimp only
  split
  · exact scaleLoop_sim h _ _ _ _ _
  · rfl

theorem singles_sim (h : ∀ s, next' (f s) = ((next s).1, f (next s).2)) (fuel : ℕ) : ∀ k i l s,
    shuffleSingles next' fuel k i l (f s) = onState f (shuffleSingles next fuel k i l s) := by
  intro k
  induction k with
  | zero => intro i l s; rfl
  | succ k ih =>
    intro i l s
    rw [shuffleSingles, shuffleSingles, scale_sim h]
    rcases scale next fuel (i + 1) s with e | ⟨x, s1⟩
    · rfl
    · dsimp only [onState]
      rcases iterSwap l i x with e | l1
      · rfl
      · exact ih _ _ _

theorem pairs_sim (h : ∀ s, next' (f s) = ((next s).1, f (next s).2)) (fuel : ℕ) : ∀ k i l s,
    shufflePairs next' fuel k i l (f s) = onState f (shufflePairs next fuel k i l s) := by
  intro k
  induction k with
  | zero => intro i l s; rfl
  | succ k ih =>
    intro i l s
    rw [shufflePairs, shufflePairs, scale_sim h]
    rcases scale next fuel ((i + 1) * (i + 2)) s with e | ⟨x, s1⟩
    · rfl
    · dsimp only [onState]
      rcases iterSwap l i (x / (i + 2)) with e | l1
      · rfl
      · dsimp only
        rcases iterSwap l1 (i + 1) (x % (i + 2)) with e | l2
        · rfl
        · exact ih _ _ _

theorem shuffle_sim (h : ∀ s, next' (f s) = ((next s).1, f (next s).2)) (fuel : ℕ) (l : List ℕ) (s : σ) :
    stdShuffle next' fuel l (f s) = onState f (stdShuffle next fuel l s) := by
  unfold stdShuffle
  split
  · rfl
  · split
    · split
      · rw [scale_sim h]
        rcases scale next fuel 2 s with e | ⟨x, s1⟩
        · rfl
        · dsimp only [onState]
          rcases iterSwap l 1 x with e | l1
          · rfl
          · exact pairs_sim h _ _ _ _ _
      · exact pairs_sim h _ _ _ _ _
    · exact singles_sim h _ _ _ _ _

end

theorem scaleLoop_more (n thr : ℕ) : ∀ fuel fuel' p s r, fuel ≤ fuel' → scaleLoop next n thr fuel p s = .ok r →
    scaleLoop next n thr fuel' p s = .ok r := by
  intro fuel
  induction fuel with
  | zero => intro fuel' p s r _ h; rw [scaleLoop] at h; cases h
  | succ fuel ih =>
    intro fuel' p s r hf h
    obtain ⟨fuel', rfl⟩ := Nat.exists_eq_succ_of_ne_zero (show fuel' ≠ 0 by omega)
    rw [scaleLoop] at h ⊢
    split
    · next hlt => rw [if_pos hlt] at h; exact ih _ _ _ _ (by omega) h
    · next hlt => rw [if_neg hlt] at h; exact h

theorem scale_more {n fuel fuel' : ℕ} {s : σ} {r : ℕ × σ} (hf : fuel ≤ fuel') (h : scale next fuel n s = .ok r) : scale next fuel' n s = .ok r := by
  unfold scale at h ⊢
  split
  · next hlt => rw [if_pos hlt] at h; exact scaleLoop_more _ _ _ _ _ _ _ hf h
  · next hlt => rw [if_neg hlt] at h; exact h

theorem singles_more {fuel fuel' : ℕ} (hf : fuel ≤ fuel') : ∀ k i l s r, shuffleSingles next fuel k i l s = .ok r →
    shuffleSingles next fuel' k i l s = .ok r := by
  intro k
  induction k with
  | zero => intro i l s r h; exact h
  | succ k ih =>
    intro i l s r h
    rw [shuffleSingles] at h ⊢
    rcases hx : scale next fuel (i + 1) s with e | ⟨x, s1⟩
    · rw [hx] at h; cases h
    · rw [hx] at h
      rw [scale_more hf hx]
      dsimp only at h ⊢
      rcases hl : iterSwap l i x with e | l1
      · rw [hl] at h; cases h
      · rw [hl] at h
        exact ih _ _ _ _ h

theorem pairs_more {fuel fuel' : ℕ} (hf : fuel ≤ fuel') : ∀ k i l s r, shufflePairs next fuel k i l s = .ok r →
    shufflePairs next fuel' k i l s = .ok r := by
  intro k
  induction k with
  | zero => intro i l s r h; exact h
  | succ k ih =>
    intro i l s r h
    rw [shufflePairs] at h ⊢
    rcases hx : scale next fuel ((i + 1) * (i + 2)) s with e | ⟨x, s1⟩
    · rw [hx] at h; cases h
    · rw [hx] at h
      rw [scale_more hf hx]
      dsimp only at h ⊢
      rcases hl : iterSwap l i (x / (i + 2)) with e | l1
      · rw [hl] at h; cases h
      · rw [hl] at h
        dsimp only at h ⊢
        rcases hl2 : iterSwap l1 (i + 1) (x % (i + 2)) with e | l2
        · rw [hl2] at h; cases h
        · rw [hl2] at h
          exact ih _ _ _ _ h

theorem shuffle_more {fuel fuel' : ℕ} (hf : fuel ≤ fuel') {l : List ℕ} {s : σ} {r : List ℕ × σ} (h : stdShuffle next fuel l s = .ok r) :
    stdShuffle next fuel' l s = .ok r := by
  unfold stdShuffle at h ⊢
  split
  · next h1 => rw [if_pos h1] at h; exact h
  · next h1 =>
    rw [if_neg h1] at h
    split
    · next h2 =>
      rw [if_pos h2] at h
      split
      · next h3 =>
        rw [if_pos h3] at h
        rcases hx : scale next fuel 2 s with e | ⟨x, s1⟩
        · rw [hx] at h; cases h
        · rw [hx] at h
          rw [scale_more hf hx]
          dsimp only at h ⊢
          rcases hl : iterSwap l 1 x with e | l1
          · rw [hl] at h; cases h
          · rw [hl] at h
            exact pairs_more hf _ _ _ _ _ h
      · next h3 => rw [if_neg h3] at h; exact pairs_more hf _ _ _ _ _ h
    · next h2 => rw [if_neg h2] at h; exact singles_more hf _ _ _ _ _ h

/-- What is returned does not depend on the fuel. -/
theorem shuffle_fuel {fuel fuel' : ℕ} {l : List ℕ} {s : σ} {r r' : List ℕ × σ} (h : stdShuffle next fuel l s = .ok r)
    (h' : stdShuffle next fuel' l s = .ok r') : r = r' := by
  have h1 := shuffle_more (le_max_left fuel fuel') h
  have h2 := shuffle_more (le_max_right fuel fuel') h'
  rw [h1] at h2
  cases h2
  rfl

/-! ## A generator of zeros -/

theorem scale_zeros {Z : σ → Prop} (hz : ∀ s, Z s → (next s).1 = 0 ∧ Z (next s).2) {n : ℕ} (h0 : 0 < n) (hn : n < 2 ^ 32) (fuel : ℕ) {s : σ}
    (hs : Z s) : (2 ^ 32 % n ≠ 0 → scale next fuel n s = .error .noReturn) ∧
      (2 ^ 32 % n = 0 → 0 < fuel → ∃ s', Z s' ∧ scale next fuel n s = .ok (0, s')) := by
  have key : 2 ^ 32 % n ≠ 0 → ∀ fuel s, Z s → scaleLoop next n (2 ^ 32 % n) fuel 0 s = .error .noReturn := by
    intro hne fuel
    induction fuel with
    | zero => intro s _; rfl
    | succ fuel ih =>
      intro s hs
      rw [scaleLoop, if_pos (by rw [Nat.zero_mod]; omega), (hz s hs).1, Nat.zero_mul, Nat.zero_mod]
      exact ih _ (hz s hs).2
  unfold scale
  rw [threshold_eq h0 hn, (hz s hs).1, Nat.zero_mul, Nat.zero_mod, Nat.zero_mod, if_pos h0]
  refine ⟨fun hne => key hne _ _ (hz s hs).2, fun he hf => ?_⟩
  obtain ⟨fuel, rfl⟩ := Nat.exists_eq_succ_of_ne_zero (show fuel ≠ 0 by omega)
  exact ⟨_, (hz s hs).2, by rw [scaleLoop, he, if_neg (by omega), Nat.zero_div]⟩

theorem shuffle_zeros {Z : σ → Prop} (hz : ∀ s, Z s → (next s).1 = 0 ∧ Z (next s).2) (fuel : ℕ) {l : List ℕ} (h3 : 3 ≤ l.length) {s : σ} (hs : Z s) :
    stdShuffle next fuel l s = .error .noReturn := by
  unfold stdShuffle
  rw [if_neg (by rintro rfl; simp at h3)]
  split
  · split
    · next hev =>
      cases fuel with
      | zero =>
        have : scale next 0 2 s = .error .noReturn := by
          unfold scale
          rw [(hz s hs).1, Nat.zero_mul, Nat.zero_mod, Nat.zero_mod, if_pos (by norm_num)]
          rfl
        rw [this]
      | succ fuel =>
        obtain ⟨s', hs', e⟩ := (scale_zeros hz (n := 2) (by norm_num) (by norm_num) (fuel + 1) hs).2 (by norm_num) (by omega)
        rw [e]
        dsimp only
        rw [iterSwap_ok (by omega) (by omega)]
        dsimp only
        obtain ⟨k, hk⟩ := Nat.exists_eq_succ_of_ne_zero (show ((swapPos l 1 0).length - 2) / 2 ≠ 0 by rw [swapPos_length]; omega)
        rw [hk, shufflePairs, (scale_zeros hz (n := (2 + 1) * (2 + 2)) (by norm_num) (by norm_num) (fuel + 1) hs').1 (by norm_num)]
    · obtain ⟨k, hk⟩ := Nat.exists_eq_succ_of_ne_zero (show (l.length - 1) / 2 ≠ 0 by omega)
      rw [hk, shufflePairs, (scale_zeros hz (n := (1 + 1) * (1 + 2)) (by norm_num) (by norm_num) fuel hs).1 (by norm_num)]
  · obtain ⟨k, hk⟩ := Nat.exists_eq_add_of_le (show 2 ≤ l.length - 1 by omega)
    rw [hk, Nat.add_comm, shuffleSingles]
    cases fuel with
    | zero =>
      have : scale next 0 (1 + 1) s = .error .noReturn := by
        unfold scale
        rw [(hz s hs).1, Nat.zero_mul, Nat.zero_mod, Nat.zero_mod, if_pos (by norm_num)]
        rfl
      rw [this]
    | succ fuel =>
      obtain ⟨s', hs', e⟩ := (scale_zeros hz (n := 1 + 1) (by norm_num) (by norm_num) (fuel + 1) hs).2 (by norm_num) (by omega)
      rw [e]
      dsimp only
      rw [iterSwap_ok (by omega) (by omega)]
      dsimp only
      rw [shuffleSingles, (scale_zeros hz (n := 1 + 1 + 1) (by norm_num) (by norm_num) (fuel + 1) hs').1 (by norm_num)]

end TNCO
