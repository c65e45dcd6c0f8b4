import Verif.Model.PyRandom
import Verif.Lemmas.Twister

/-! Seeding `random.Random`: what the words tell of the seed. -/

namespace TNCO

theorem getD_set_self' {l : List ℕ} {i v : ℕ} (h : i < l.length) : (l.set i v).getD i 0 = v := by
  rw [List.getD_eq_getElem _ _ (by simpa using h)]
  simp

theorem getD_set_other {l : List ℕ} {i p v : ℕ} (h : i ≠ p) : (l.set i v).getD p 0 = l.getD p 0 := by
  rw [List.getD_eq_getElem?_getD, List.getD_eq_getElem?_getD, List.getElem?_set_ne h]

/-- Arrays of 624 words of 32 bits. -/
def Words (mt : List ℕ) : Prop := mt.length = 624 ∧ ∀ w ∈ mt, w < 2 ^ 32

theorem Words.get {mt : List ℕ} (h : Words mt) (i : ℕ) : mt.getD i 0 < 2 ^ 32 := by
  rw [List.getD_eq_getElem?_getD]
  cases e : mt[i]? with
  | none => norm_num
  | some v => exact h.2 v (List.mem_of_getElem? e)

theorem Words.set {mt : List ℕ} (h : Words mt) (i : ℕ) {v : ℕ} (hv : v < 2 ^ 32) : Words (mt.set i v) := by
  refine ⟨by rw [List.length_set]; exact h.1, fun w hw => ?_⟩
  rcases List.mem_or_eq_of_mem_set hw with hw | rfl
  · exact h.2 w hw
  · exact hv

theorem Words.wrap {mt : List ℕ} (h : Words mt) (i : ℕ) : Words (wrapFront i mt) := by
  unfold wrapFront
  split
  · exact h.set 0 (h.get _)
  · exact h

theorem mod_word (n : ℕ) : n % 2 ^ 32 < 2 ^ 32 := Nat.mod_lt _ (by norm_num)

theorem keyLoop_words (key : List ℕ) (n : ℕ) : ∀ {mt : List ℕ}, Words mt → ∀ i j, Words (keyLoop key n mt i j).1 := by
  induction n with
  | zero => intro mt h i j; exact h
  | succ n ih => intro mt h i j; exact ih ((h.set i (mod_word _)).wrap i) _ _

theorem numLoop_words (n : ℕ) : ∀ {mt : List ℕ}, Words mt → ∀ i, Words (numLoop n mt i) := by
  induction n with
  | zero => intro mt h i; exact h
  | succ n ih => intro mt h i; exact ih ((h.set i (mod_word _)).wrap i) _

theorem seed_words (n : ℕ) : Words (Mt.seed n).words := ⟨(seed_proper n).1, (seed_proper n).2.1⟩

/-! ## The second loop can be undone -/

/-- All words but the first are the same. -/
def TailEq (mt nt : List ℕ) : Prop := ∀ p, 1 ≤ p → p < 624 → mt.getD p 0 = nt.getD p 0

theorem add_mod_inj {x y c : ℕ} (hx : x < 2 ^ 32) (hy : y < 2 ^ 32) (h : (x + c) % 2 ^ 32 = (y + c) % 2 ^ 32) : x = y := by
  have h1 : x ≡ y [MOD 2 ^ 32] := Nat.ModEq.add_right_cancel' c h
  unfold Nat.ModEq at h1
  rwa [Nat.mod_eq_of_lt hx, Nat.mod_eq_of_lt hy] at h1

theorem spread_lt {c x y : ℕ} (hx : x < 2 ^ 32) : spreadWord c x y < 2 ^ 32 := Nat.xor_lt_two_pow hx (mod_word _)

theorem spread_inj {c x x' y : ℕ} (h : spreadWord c x y = spreadWord c x' y) : x = x' := by
  unfold spreadWord at h
  rw [Nat.xor_comm x, Nat.xor_comm x'] at h
  exact xor_cancel h

/-- The step number `i` of the second loop, without the copy. -/
def numStep (mt : List ℕ) (i : ℕ) : List ℕ := mt.set i ((spreadWord 1566083941 (mt.getD i 0) (mt.getD (i - 1) 0) + (2 ^ 32 - i)) % 2 ^ 32)

theorem numStep_words {mt : List ℕ} (h : Words mt) (i : ℕ) : Words (numStep mt i) := h.set i (mod_word _)

/-- A step is undone if the word before it is known. -/
theorem numStep_back {mt nt : List ℕ} (hm : Words mt) (hn : Words nt) {i : ℕ} (hi : 1 ≤ i) (hi' : i < 624)
    (hb : mt.getD (i - 1) 0 = nt.getD (i - 1) 0) (h : TailEq (numStep mt i) (numStep nt i)) : TailEq mt nt := by
  intro p h1 h2
  have e := h p h1 h2
  unfold numStep at e
  by_cases hp : i = p
  · subst hp
    rw [getD_set_self' (by rw [hm.1]; exact hi'), getD_set_self' (by rw [hn.1]; exact hi'), hb] at e
    exact spread_inj (add_mod_inj (spread_lt (hm.get i)) (spread_lt (hn.get i)) e)
  · rwa [getD_set_other hp, getD_set_other hp] at e

theorem wrap_tail {mt nt : List ℕ} (i : ℕ) (h : TailEq (wrapFront i mt) (wrapFront i nt)) : TailEq mt nt := by
  unfold wrapFront at h
  split at h
  · intro p h1 h2
    have := h p h1 h2
    rwa [getD_set_other (by omega), getD_set_other (by omega)] at this
  · exact h

theorem numStep_before {mt nt : List ℕ} {i : ℕ} (hi : 2 ≤ i) (hi' : i < 624) (h : TailEq (numStep mt i) (numStep nt i)) :
    mt.getD (i - 1) 0 = nt.getD (i - 1) 0 := by
  have := h (i - 1) (by omega) (by omega)
  unfold numStep at this
  rwa [getD_set_other (by omega), getD_set_other (by omega)] at this

theorem numLoop_back (n : ℕ) : ∀ {mt nt : List ℕ}, Words mt → Words nt → ∀ i, 2 ≤ i → i + n = 623 →
    TailEq (numLoop (n + 2) mt i) (numLoop (n + 2) nt i) → TailEq mt nt := by
  induction n with
  | zero =>
    intro mt nt hm hn i hi hin h
    obtain rfl : i = 623 := by omega
    rw [numLoop, numLoop, numLoop, numLoop, numLoop, numLoop] at h
    have hwp : wrapPos 623 = 1 := by decide
    rw [hwp] at h
    have h1 := wrap_tail 1 h
    have key : ∀ mt : List ℕ, Words mt → (wrapFront 623 (numStep mt 623)).getD 0 0 = (wrapFront 623 (numStep mt 623)).getD 623 0 := by
      intro mt hmt
      have hw := numStep_words hmt 623
      unfold wrapFront
      rw [if_pos (by norm_num), getD_set_self' (by rw [hw.1]; norm_num), getD_set_other (by norm_num)]
    have hb : (wrapFront 623 (numStep mt 623)).getD (1 - 1) 0 = (wrapFront 623 (numStep nt 623)).getD (1 - 1) 0 := by
      rw [show 1 - 1 = 0 from rfl, key mt hm, key nt hn]
      have := h1 623 (by norm_num) (by norm_num)
      rwa [getD_set_other (by norm_num), getD_set_other (by norm_num)] at this
    have h2 := numStep_back ((numStep_words hm 623).wrap 623) ((numStep_words hn 623).wrap 623) (le_refl 1) (by norm_num) hb h1
    have h3 := wrap_tail 623 h2
    exact numStep_back hm hn (by norm_num) (by norm_num) (numStep_before (by norm_num) (by norm_num) h3) h3
  | succ n ih =>
    intro mt nt hm hn i hi hin h
    have hu : ∀ l, numLoop (n + 1 + 2) l i = numLoop (n + 2) (wrapFront i (numStep l i)) (wrapPos i) := fun l => by
      rw [show n + 1 + 2 = (n + 2) + 1 by omega, numLoop, numStep]
    rw [hu, hu] at h
    have hwp : wrapPos i = i + 1 := by
      unfold wrapPos
      exact if_neg (by omega)
    rw [hwp] at h
    have h1 := ih ((numStep_words hm i).wrap i) ((numStep_words hn i).wrap i) (i + 1) (by omega) (by omega) h
    have h2 := wrap_tail i h1
    exact numStep_back hm hn (by omega) (by omega) (numStep_before hi (by omega) h2) h2

/-! ## The first loop -/

/-- The words that the first loop makes, one after the other. -/
def keyed (key orig : List ℕ) : ℕ → ℕ
  | 0 => orig.getD 0 0
  | t + 1 => (spreadWord 1664525 (orig.getD (t + 1) 0) (keyed key orig t) + key.getD (t % key.length) 0 + t % key.length) % 2 ^ 32

/-- After `t` steps. -/
def Keyed (key orig : List ℕ) (t : ℕ) (mt : List ℕ) : Prop :=
  mt.length = 624 ∧ ∀ p, mt.getD p 0 = if p ≤ t then keyed key orig p else orig.getD p 0

theorem next_mod {t L : ℕ} (hL : 0 < L) : (if L ≤ t % L + 1 then 0 else t % L + 1) = (t + 1) % L := by
  have h1 := Nat.mod_lt t hL
  have h2 : (t + 1) % L = (t % L + 1) % L := (Nat.mod_add_mod t L 1).symm
  rw [h2]
  split
  · have : t % L + 1 = L := by omega
    rw [this, Nat.mod_self]
  · exact (Nat.mod_eq_of_lt (by omega)).symm

theorem keyed_step {key orig : List ℕ} {t : ℕ} {mt : List ℕ} (ht : t + 1 < 624) (h : Keyed key orig t mt) :
    Keyed key orig (t + 1) (mt.set (t + 1) ((spreadWord 1664525 (mt.getD (t + 1) 0) (mt.getD (t + 1 - 1) 0) + key.getD (t % key.length) 0 +
      t % key.length) % 2 ^ 32)) := by
  refine ⟨by rw [List.length_set]; exact h.1, fun p => ?_⟩
  by_cases hp : t + 1 = p
  · subst hp
    rw [getD_set_self' (by rw [h.1]; exact ht), if_pos (le_refl _), h.2, h.2, if_neg (by omega), if_pos (by omega), keyed, Nat.add_sub_cancel]
  · rw [getD_set_other hp, h.2]
    by_cases hq : p ≤ t
    · rw [if_pos hq, if_pos (by omega)]
    · rw [if_neg hq, if_neg (by omega)]

theorem keyLoop_low {key orig : List ℕ} (hk : 0 < key.length) (n m : ℕ) : ∀ {t : ℕ} {mt : List ℕ}, t + n ≤ 622 → Keyed key orig t mt →
    ∃ mt', Keyed key orig (t + n) mt' ∧ keyLoop key (n + m) mt (t + 1) (t % key.length) = keyLoop key m mt' (t + n + 1) ((t + n) % key.length) := by
  induction n with
  | zero => intro t mt _ h; exact ⟨mt, h, by rw [Nat.zero_add]; rfl⟩
  | succ n ih =>
    intro t mt ht h
    obtain ⟨mt', h1, h2⟩ := ih (t := t + 1) (by omega) (keyed_step (by omega) h)
    rw [show t + 1 + n = t + (n + 1) by omega] at h1 h2
    refine ⟨mt', h1, ?_⟩
    rw [← h2, show n + 1 + m = n + m + 1 by omega, keyLoop, next_mod hk]
    have e1 : wrapPos (t + 1) = t + 1 + 1 := by
      unfold wrapPos
      exact if_neg (by omega)
    have e2 : ∀ l, wrapFront (t + 1) l = l := by
      intro l
      unfold wrapFront
      exact if_neg (by omega)
    rw [e1, e2]

/-- The words 2 to 623 after the first loop, for keys of at most 624 words. -/
theorem keyLoop_get {key orig : List ℕ} (hk : 0 < key.length) (ho : orig.length = 624) :
    (keyLoop key 624 orig 1 0).2 = 2 ∧ ∀ p, 2 ≤ p → p < 624 → (keyLoop key 624 orig 1 0).1.getD p 0 = keyed key orig p := by
  have h0 : Keyed key orig 0 orig := by
    refine ⟨ho, fun p => ?_⟩
    by_cases hp : p = 0
    · subst hp; rw [if_pos (le_refl _), keyed]
    · rw [if_neg (by omega)]
  obtain ⟨mt, h1, h2⟩ := keyLoop_low hk 622 2 (t := 0) (by norm_num) h0
  rw [Nat.zero_mod, Nat.zero_add] at h2
  rw [Nat.zero_add] at h1
  rw [show 622 + 2 = 624 from rfl] at h2
  rw [h2, show 622 + 1 = 623 from rfl, keyLoop, keyLoop, keyLoop]
  have h3 := keyed_step (by norm_num) h1
  rw [show 622 + 1 = 623 from rfl] at h3
  have e1 : wrapPos 623 = 1 := by decide
  have e2 : wrapPos 1 = 2 := by decide
  have e3 : ∀ l, wrapFront 1 l = l := by
    intro l
    unfold wrapFront
    exact if_neg (by norm_num)
  rw [e1, e2, e3]
  refine ⟨rfl, fun p g1 g2 => ?_⟩
  dsimp only
  rw [getD_set_other (by omega)]
  unfold wrapFront
  rw [if_pos (by norm_num), getD_set_other (by omega), h3.2, if_pos (by omega)]

/-- What step `t` of the first loop adds. -/
def keyAdd (key : List ℕ) (t : ℕ) : ℕ := (key.getD (t % key.length) 0 + t % key.length) % 2 ^ 32

theorem add_mod_inj' {x y c : ℕ} (h : (c + x) % 2 ^ 32 = (c + y) % 2 ^ 32) : x % 2 ^ 32 = y % 2 ^ 32 := Nat.ModEq.add_left_cancel' c h

/-- The words tell what was added. -/
theorem keyed_add {key key' orig : List ℕ} (h : ∀ p, 2 ≤ p → p < 624 → keyed key orig p = keyed key' orig p) (t : ℕ) (h1 : 2 ≤ t) (h2 : t < 623) :
    keyAdd key t = keyAdd key' t := by
  have e := h (t + 1) (by omega) (by omega)
  rw [keyed, keyed, h t h1 (by omega), Nat.add_assoc, Nat.add_assoc] at e
  exact add_mod_inj' e

theorem key_lt {k : List ℕ} (hk : ∀ w ∈ k, w < 2 ^ 32) (i : ℕ) : k.getD i 0 < 2 ^ 32 := by
  rw [List.getD_eq_getElem?_getD]
  cases e : k[i]? with
  | none => norm_num
  | some v => exact hk v (List.mem_of_getElem? e)

/-- Keys that are equally long are told by what they add. -/
theorem keyAdd_key {key key' : List ℕ} (hl : key.length = key'.length) (hb : ∀ w ∈ key, w < 2 ^ 32) (hb' : ∀ w ∈ key', w < 2 ^ 32)
    (hk : 0 < key.length) (hL : key.length ≤ 621) (h : ∀ t, 2 ≤ t → t < 623 → keyAdd key t = keyAdd key' t) : key = key' := by
  have get : ∀ t, 2 ≤ t → t < 623 → key.getD (t % key.length) 0 = key'.getD (t % key.length) 0 := by
    intro t h1 h2
    have e := h t h1 h2
    unfold keyAdd at e
    rw [← hl] at e
    exact add_mod_inj (key_lt hb _) (key_lt hb' _) e
  refine List.ext_getElem hl fun i h1 h2 => ?_
  have key2 : ∃ t, 2 ≤ t ∧ t < 623 ∧ t % key.length = i := by
    by_cases hi : 2 ≤ i
    · exact ⟨i, hi, by omega, Nat.mod_eq_of_lt h1⟩
    · by_cases hk1 : key.length = 1
      · exact ⟨2, le_refl _, by norm_num, by rw [hk1, Nat.mod_one]; omega⟩
      · exact ⟨i + key.length, by omega, by omega, by rw [Nat.add_mod_right]; exact Nat.mod_eq_of_lt h1⟩
  obtain ⟨t, g1, g2, g3⟩ := key2
  have := get t g1 g2
  rwa [g3, List.getD_eq_getElem _ _ h1, List.getD_eq_getElem _ _ h2] at this

/-- Keys that add the same are the same to the first loop. -/
theorem keyLoop_same {key key' : List ℕ} (hk : 0 < key.length) (hk' : 0 < key'.length) (h : ∀ t, keyAdd key t = keyAdd key' t) (n : ℕ) :
    ∀ (t : ℕ) (mt : List ℕ) (i : ℕ), keyLoop key n mt i (t % key.length) = keyLoop key' n mt i (t % key'.length) := by
  induction n with
  | zero => intro t mt i; rfl
  | succ n ih =>
    intro t mt i
    rw [keyLoop, keyLoop, next_mod hk, next_mod hk', Nat.add_assoc, Nat.add_assoc _ (key'.getD _ _)]
    have e : ∀ x, (x + (key.getD (t % key.length) 0 + t % key.length)) % 2 ^ 32 = (x + (key'.getD (t % key'.length) 0 + t % key'.length)) % 2 ^ 32 :=
      fun x => Nat.ModEq.add_left x (h t)
    rw [e]
    exact ih (t + 1) _ _

theorem ofKey_pos (key : List ℕ) : (Mt.ofKey key).pos = 624 := rfl

theorem ofKey_words (key : List ℕ) : Words (Mt.ofKey key).words := by
  unfold Mt.ofKey
  dsimp only
  have ho := seed_words 19650218
  generalize (Mt.seed 19650218).words = o at ho ⊢
  generalize max 624 key.length = n
  generalize 623 = m
  exact (numLoop_words m (keyLoop_words key n ho 1 0) _).set 0 (by norm_num)

theorem ofKey_proper (key : List ℕ) : (Mt.ofKey key).Proper := ⟨(ofKey_words key).1, (ofKey_words key).2, le_of_eq (ofKey_pos key)⟩

theorem ofKey_front (key : List ℕ) : (Mt.ofKey key).words.getD 0 0 = 2 ^ 31 := by
  unfold Mt.ofKey
  dsimp only
  have ho := seed_words 19650218
  generalize (Mt.seed 19650218).words = o at ho ⊢
  generalize max 624 key.length = n
  generalize 623 = m
  exact getD_set_self' (by rw [(numLoop_words m (keyLoop_words key n ho 1 0) _).1]; norm_num)

theorem ofKey_add {key key' : List ℕ} (hk : 0 < key.length) (hL : key.length ≤ 624) (hk' : 0 < key'.length) (hL' : key'.length ≤ 624)
    (h : TailEq (Mt.ofKey key).words (Mt.ofKey key').words) (t : ℕ) (h1 : 2 ≤ t) (h2 : t < 623) : keyAdd key t = keyAdd key' t := by
  unfold Mt.ofKey at h
  rw [max_eq_left hL, max_eq_left hL'] at h
  have ho := seed_words 19650218
  generalize (Mt.seed 19650218).words = o at ho h
  obtain ⟨g1, g2⟩ := keyLoop_get hk ho.1
  obtain ⟨g1', g2'⟩ := keyLoop_get hk' ho.1
  rw [g1, g1'] at h
  have h3 : TailEq (numLoop 623 (keyLoop key 624 o 1 0).1 2) (numLoop 623 (keyLoop key' 624 o 1 0).1 2) := by
    intro p a b
    have := h p a b
    dsimp only at this
    rwa [getD_set_other (by omega), getD_set_other (by omega)] at this
  have h4 := numLoop_back 621 (keyLoop_words key 624 ho 1 0) (keyLoop_words key' 624 ho 1 0) 2 (le_refl _) rfl h3
  refine keyed_add (orig := o) (fun p a b => ?_) t h1 h2
  rw [← g2 p a b, ← g2' p a b]
  exact h4 p (by omega) b

theorem ofKey_same {key key' : List ℕ} (hk : 0 < key.length) (hL : key.length ≤ 624) (hk' : 0 < key'.length) (hL' : key'.length ≤ 624)
    (h : ∀ t, keyAdd key t = keyAdd key' t) : Mt.ofKey key = Mt.ofKey key' := by
  unfold Mt.ofKey
  rw [max_eq_left hL, max_eq_left hL']
  generalize (Mt.seed 19650218).words = o
  generalize 624 = n
  have := keyLoop_same hk hk' h n 0 o 1
  rw [Nat.zero_mod, Nat.zero_mod] at this
  rw [this]

/-! ## Seeds as words -/

theorem keyWords_lt (n : ℕ) : (∀ w ∈ keyWords n, w < 2 ^ 32) ∧ 0 < (keyWords n).length := by
  induction n using Nat.strongRecOn with
  | ind n ih =>
    rw [keyWords]
    split
    · next h => exact ⟨fun w hw => by rw [List.mem_singleton.1 hw]; exact h, by simp⟩
    · next h =>
      refine ⟨fun w hw => ?_, by simp⟩
      rcases List.mem_cons.1 hw with rfl | hw
      · exact mod_word n
      · exact (ih (n / 2 ^ 32) (Nat.div_lt_self (by omega) (by norm_num))).1 w hw

theorem keyWords_ne (n : ℕ) : keyWords n ≠ [] := List.ne_nil_of_length_pos (keyWords_lt n).2

theorem keyWords_inj {m n : ℕ} (h : keyWords m = keyWords n) : m = n := by
  induction m using Nat.strongRecOn generalizing n with
  | ind m ih =>
    rw [keyWords, keyWords.eq_def n] at h
    split at h
    · split at h
      · exact (List.cons.inj h).1
      · exact absurd (List.cons.inj h).2.symm (keyWords_ne _)
    · next hm =>
      split at h
      · exact absurd (List.cons.inj h).2 (keyWords_ne _)
      · have e1 := (List.cons.inj h).1
        have e2 := ih (m / 2 ^ 32) (Nat.div_lt_self (by omega) (by norm_num)) (List.cons.inj h).2
        rw [← Nat.div_add_mod m (2 ^ 32), ← Nat.div_add_mod n (2 ^ 32), e1, e2]

theorem keyWords_length (n L : ℕ) (hL : 0 < L) : (keyWords n).length ≤ L ↔ n < 2 ^ (32 * L) := by
  induction n using Nat.strongRecOn generalizing L with
  | ind n ih =>
    rw [keyWords]
    split
    · next h =>
      have : 2 ^ 32 ≤ 2 ^ (32 * L) := Nat.pow_le_pow_right (by norm_num) (by omega)
      simp only [List.length_singleton]
      exact ⟨fun _ => lt_of_lt_of_le h this, fun _ => hL⟩
    · next h =>
      rw [List.length_cons]
      obtain ⟨L, rfl⟩ : ∃ L', L = L' + 1 := ⟨L - 1, by omega⟩
      by_cases hL0 : L = 0
      · subst hL0
        have := (keyWords_lt (n / 2 ^ 32)).2
        constructor
        · intro; omega
        · intro hn; exact absurd (by simpa using hn) h
      · rw [Nat.add_le_add_iff_right, ih (n / 2 ^ 32) (Nat.div_lt_self (by omega) (by norm_num)) L (by omega), Nat.div_lt_iff_lt_mul (by norm_num),
          show 32 * (L + 1) = 32 * L + 32 by ring, pow_add]

theorem keyWords_one {n : ℕ} (h : n < 2 ^ 32) : keyWords n = [n] := by
  rw [keyWords]
  exact if_pos h

theorem keyWords_two {n : ℕ} (h : 2 ^ 32 ≤ n) (h' : n < 2 ^ 64) : keyWords n = [n % 2 ^ 32, n / 2 ^ 32] := by
  rw [keyWords, if_neg (by omega), keyWords_one (by omega)]

theorem keyAdd_one (a t : ℕ) : keyAdd [a] t = a % 2 ^ 32 := by
  unfold keyAdd
  rw [List.length_singleton, Nat.mod_one]
  rfl

theorem keyAdd_two (a b t : ℕ) : keyAdd [a, b] t = if t % 2 = 0 then a % 2 ^ 32 else (b + 1) % 2 ^ 32 := by
  unfold keyAdd
  rw [show [a, b].length = 2 from rfl]
  rcases Nat.mod_two_eq_zero_or_one t with h | h
  · rw [h, if_pos rfl]
    rfl
  · rw [h, if_neg (by norm_num)]
    rfl

end TNCO
