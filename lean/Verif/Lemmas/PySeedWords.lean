import Verif.Lemmas.PyRandom
import Verif.Spec.PyRandom

/-! The words of a seeded `random.Random`, one after the other, and how to compute them in the kernel. -/

namespace TNCO

theorem keyed_chain (key orig : List ℕ) (t : ℕ) : keyed key orig t = chainRec (keyMix key) (fun p => orig.getD p 0) t := by
  induction t with
  | zero => rfl
  | succ t ih => rw [keyed, chainRec, ih, keyMix]

/-- The word 1 after the first loop. -/
theorem keyLoop_one {key orig : List ℕ} (hk : 0 < key.length) (ho : orig.length = 624) :
    (keyLoop key 624 orig 1 0).1.getD 1 0 = keyMix key 623 (keyed key orig 1) (keyed key orig 623) := by
  have h0 : Keyed key orig 0 orig := by
    refine ⟨ho, fun p => ?_⟩
    by_cases hp : p = 0
    · subst hp; rw [if_pos (le_refl _), keyed]
    · rw [if_neg (by omega)]
  obtain ⟨mt, h1, h2⟩ := keyLoop_low hk 622 2 (t := 0) (by norm_num) h0
  rw [Nat.zero_mod, Nat.zero_add] at h2
  rw [Nat.zero_add] at h1
  rw [show 622 + 2 = 624 from rfl] at h2
  rw [h2, show 622 + 1 = 623 from rfl, keyLoop, keyLoop, keyLoop, next_mod hk]
  have h3 := keyed_step (by norm_num) h1
  rw [show 622 + 1 = 623 from rfl] at h3
  have e1 : wrapPos 623 = 1 := by decide
  have e3 : ∀ l, wrapFront 1 l = l := by
    intro l
    unfold wrapFront
    exact if_neg (by norm_num)
  rw [e1, e3]
  dsimp only
  have e4 : ∀ l : List ℕ, wrapFront 623 l = l.set 0 (l.getD 623 0) := by
    intro l
    unfold wrapFront
    exact if_pos (by norm_num)
  rw [e4, getD_set_self' (by rw [List.length_set, h3.1]; norm_num), getD_set_other (by norm_num), show 1 - 1 = 0 from rfl,
    getD_set_self' (by rw [h3.1]; norm_num), h3.2, h3.2, if_pos (by norm_num), if_pos (by norm_num), keyMix]

/-- After `t` steps of the second loop. -/
def Numbered (orig : List ℕ) (t : ℕ) (mt : List ℕ) : Prop :=
  mt.length = 624 ∧ ∀ p, mt.getD (p + 1) 0 = if p ≤ t then chainRec numMix (fun q => orig.getD (q + 1) 0) p else orig.getD (p + 1) 0

theorem numbered_step {orig : List ℕ} {t : ℕ} {mt : List ℕ} (ht : t + 2 < 624) (h : Numbered orig t mt) :
    Numbered orig (t + 1) (mt.set (t + 2) ((spreadWord 1566083941 (mt.getD (t + 2) 0) (mt.getD (t + 2 - 1) 0) + (2 ^ 32 - (t + 2))) % 2 ^ 32)) := by
  refine ⟨by rw [List.length_set]; exact h.1, fun p => ?_⟩
  by_cases hp : t + 1 = p
  · subst hp
    rw [getD_set_self' (by rw [h.1]; exact ht), if_pos (le_refl _), h.2 (t + 1), show t + 2 - 1 = t + 1 by omega, h.2 t, if_neg (by omega),
      if_pos (le_refl _), chainRec, numMix]
  · rw [getD_set_other (by omega), h.2]
    by_cases hq : p ≤ t
    · rw [if_pos hq, if_pos (by omega)]
    · rw [if_neg hq, if_neg (by omega)]

theorem numLoop_low {orig : List ℕ} (n m : ℕ) : ∀ {t : ℕ} {mt : List ℕ}, t + n ≤ 621 → Numbered orig t mt →
    ∃ mt', Numbered orig (t + n) mt' ∧ numLoop (n + m) mt (t + 2) = numLoop m mt' (t + n + 2) := by
  induction n with
  | zero => intro t mt _ h; exact ⟨mt, h, by rw [Nat.zero_add, Nat.add_zero]⟩
  | succ n ih =>
    intro t mt ht h
    obtain ⟨mt', h1, h2⟩ := ih (t := t + 1) (by omega) (numbered_step (by omega) h)
    rw [show t + 1 + n = t + (n + 1) by omega] at h1 h2
    refine ⟨mt', h1, ?_⟩
    rw [← h2, show n + 1 + m = n + m + 1 by omega, numLoop]
    have e1 : wrapPos (t + 2) = t + 1 + 2 := by
      unfold wrapPos
      exact if_neg (by omega)
    have e2 : ∀ l, wrapFront (t + 2) l = l := by
      intro l
      unfold wrapFront
      exact if_neg (by omega)
    rw [e1, e2]

/-- The words after the second loop. -/
theorem numLoop_get {orig : List ℕ} (ho : orig.length = 624) :
    (∀ p, 1 ≤ p → p < 623 → (numLoop 623 orig 2).getD (p + 1) 0 = chainRec numMix (fun q => orig.getD (q + 1) 0) p) ∧
    (numLoop 623 orig 2).getD 1 0 =
      (spreadWord 1566083941 (orig.getD 1 0) (chainRec numMix (fun q => orig.getD (q + 1) 0) 622) + (2 ^ 32 - 1)) % 2 ^ 32 := by
  have h0 : Numbered orig 0 orig := by
    refine ⟨ho, fun p => ?_⟩
    by_cases hp : p = 0
    · subst hp; rw [if_pos (le_refl _), chainRec]
    · rw [if_neg (by omega)]
  obtain ⟨mt, h1, h2⟩ := numLoop_low 621 2 (t := 0) (by norm_num) h0
  rw [Nat.zero_add] at h1 h2
  rw [Nat.zero_add] at h2
  rw [show 621 + 2 = 623 from rfl] at h2
  rw [h2, numLoop, numLoop, numLoop]
  have h3 := numbered_step (by norm_num) h1
  rw [show 621 + 1 = 622 from rfl, show 621 + 2 = 623 from rfl] at h3
  have e1 : wrapPos 623 = 1 := by decide
  have e3 : ∀ l, wrapFront 1 l = l := by
    intro l
    unfold wrapFront
    exact if_neg (by norm_num)
  have e4 : ∀ l : List ℕ, wrapFront 623 l = l.set 0 (l.getD 623 0) := by
    intro l
    unfold wrapFront
    exact if_pos (by norm_num)
  rw [e1, e3, e4]
  refine ⟨fun p g1 g2 => ?_, ?_⟩
  · rw [getD_set_other (by omega), getD_set_other (by omega), h3.2, if_pos (by omega)]
  · rw [getD_set_self' (by rw [List.length_set, h3.1]; norm_num), getD_set_other (by norm_num), show 1 - 1 = 0 from rfl,
      getD_set_self' (by rw [h3.1]; norm_num), h3.2 0, if_pos (by norm_num), h3.2 622, if_pos (by norm_num), chainRec]

/-! ## Computing -/

/-- A chain as a list, every number computed before the next. -/
def chainList (f : ℕ → ℕ → ℕ → ℕ) : List ℕ → ℕ → ℕ → List ℕ
  | [], _, _ => []
  | x :: xs, t, y => forceNat (f t x y) fun v => forceNat (t + 1) fun t => v :: chainList f xs t v

theorem chainList_get (f : ℕ → ℕ → ℕ → ℕ) (o : ℕ → ℕ) (xs : List ℕ) : ∀ (t : ℕ), (∀ i, i < xs.length → xs.getD i 0 = o (t + 1 + i)) →
    ∀ i, i < xs.length → (chainList f xs t (chainRec f o t)).getD i 0 = chainRec f o (t + 1 + i) := by
  induction xs with
  | nil => intro t _ i hi; exact absurd hi (by simp)
  | cons x xs ih =>
    intro t h i hi
    rw [chainList, forceNat_eq, forceNat_eq]
    have hx : x = o (t + 1) := h 0 (by simp)
    have hc : f t x (chainRec f o t) = chainRec f o (t + 1) := by rw [chainRec, hx]
    rw [hc]
    cases i with
    | zero => rfl
    | succ i =>
      rw [List.getD_cons_succ, ih (t + 1) (fun j hj => by
        have := h (j + 1) (by simpa using hj)
        rw [List.getD_cons_succ] at this
        rw [this]
        congr 1
        omega) i (by simpa using hi)]
      congr 1
      omega

theorem chainList_length (f : ℕ → ℕ → ℕ → ℕ) (xs : List ℕ) : ∀ t y, (chainList f xs t y).length = xs.length := by
  induction xs with
  | nil => intro t y; rfl
  | cons x xs ih => intro t y; rw [chainList, forceNat_eq, forceNat_eq, List.length_cons, ih, List.length_cons]

theorem chainRec_congr (f : ℕ → ℕ → ℕ → ℕ) {o o' : ℕ → ℕ} (n : ℕ) : (∀ i, i ≤ n → o i = o' i) → chainRec f o n = chainRec f o' n := by
  induction n with
  | zero => intro h; exact h 0 (le_refl _)
  | succ n ih => intro h; rw [chainRec, chainRec, ih fun i hi => h i (by omega), h (n + 1) (le_refl _)]

theorem ofKey_seq {key : List ℕ} (hk : 0 < key.length) (hL : key.length ≤ 624) :
    (Mt.ofKey key).words.getD 1 0 = (spreadWord 1566083941 (keyFirst key) (numSeq key 622) + (2 ^ 32 - 1)) % 2 ^ 32 ∧
    ∀ p, 1 ≤ p → p < 623 → (Mt.ofKey key).words.getD (p + 1) 0 = numSeq key p := by
  have ho := seed_words 19650218
  have hw := keyLoop_words key 624 ho 1 0
  obtain ⟨g1, g2⟩ := keyLoop_get hk ho.1
  have g3 := keyLoop_one hk ho.1
  obtain ⟨n1, n2⟩ := numLoop_get hw.1
  have hc : ∀ p, p < 623 → chainRec numMix (fun q => (keyLoop key 624 (Mt.seed 19650218).words 1 0).1.getD (q + 1) 0) p = numSeq key p := by
    intro p hp
    unfold numSeq
    refine chainRec_congr _ p fun i hi => ?_
    by_cases h0 : i = 0
    · subst h0
      rw [if_pos rfl, keyFirst, keySeq, ← keyed_chain, ← keyed_chain]
      exact g3
    · rw [if_neg h0, g2 (i + 1) (by omega) (by omega), keyed_chain, keySeq]
  have hone : (keyLoop key 624 (Mt.seed 19650218).words 1 0).1.getD 1 0 = keyFirst key := by
    rw [keyFirst, keySeq, ← keyed_chain, ← keyed_chain]
    exact g3
  rw [hc 622 (by norm_num), hone] at n2
  unfold Mt.ofKey
  dsimp only
  rw [max_eq_left hL, g1]
  refine ⟨?_, fun p h1 h2 => ?_⟩
  · rw [getD_set_other (by norm_num)]
    exact n2
  · rw [getD_set_other (by omega), n1 p h1 h2, hc p h2]

/-- The words 2 to 623, computed. -/
def numList {α : Type} (key : List ℕ) (k : ℕ → List ℕ → α) : α :=
  forceList (chainList (keyMix key) ((Mt.seed 19650218).words.drop 1) 0 19650218) fun l =>
    forceNat (keyMix key 623 (l.getD 0 0) (l.getD 622 0)) fun x => forceList (chainList numMix (l.drop 1) 0 x) fun r => k x r

theorem numList_eq {α : Type} (key : List ℕ) (k : ℕ → List ℕ → α) :
    ∃ r : List ℕ, numList key k = k (keyFirst key) r ∧ ∀ i, i < 622 → r.getD i 0 = numSeq key (i + 1) := by
  unfold numList
  have hl : ((Mt.seed 19650218).words.drop 1).length = 623 := by
    rw [List.length_drop, (seed_words 19650218).1]
  have h0 : 19650218 = chainRec (keyMix key) (fun p => (Mt.seed 19650218).words.getD p 0) 0 := by
    rw [chainRec]
    unfold Mt.seed
    rw [List.getD_cons_zero]
    norm_num
  have hg : ∀ i, i < 623 → (chainList (keyMix key) ((Mt.seed 19650218).words.drop 1) 0 19650218).getD i 0 = keySeq key (i + 1) := by
    intro i hi
    have := chainList_get (keyMix key) (fun p => (Mt.seed 19650218).words.getD p 0) ((Mt.seed 19650218).words.drop 1) 0 (fun j hj => by
      rw [List.getD_eq_getElem?_getD, List.getElem?_drop, ← List.getD_eq_getElem?_getD]) i (by rw [hl]; exact hi)
    rw [← h0] at this
    rw [this, keySeq]
    congr 1
    omega
  have hll := chainList_length (keyMix key) ((Mt.seed 19650218).words.drop 1) 0 19650218
  rw [hl] at hll
  generalize chainList (keyMix key) ((Mt.seed 19650218).words.drop 1) 0 19650218 = l at hg hll ⊢
  rw [forceList_eq, forceNat_eq, hg 0 (by norm_num), hg 622 (by norm_num), forceList_eq]
  refine ⟨_, by rw [keyFirst], fun i hi => ?_⟩
  have e : keyMix key 623 (keySeq key (0 + 1)) (keySeq key (622 + 1)) = chainRec numMix (fun q => if q = 0 then keyFirst key else keySeq key (q + 1)) 0 := by
    rw [chainRec, if_pos rfl, keyFirst]
  rw [e, chainList_get numMix _ (l.drop 1) 0 (fun j hj => by
    rw [List.length_drop, hll] at hj
    rw [List.getD_eq_getElem?_getD, List.getElem?_drop, ← List.getD_eq_getElem?_getD, hg _ (by omega), if_neg (by omega)]) i (by rw [List.length_drop, hll]; exact hi), numSeq]
  congr 1
  omega

end TNCO
