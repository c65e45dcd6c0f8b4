import Verif.Lemmas.Blocks
import Verif.Props.Bitset

/-!
# Property C91: the blocks of a bitset, and the bitset as Python sees it
-/

namespace TNCO
namespace DBits

variable {w : ℕ}

theorem bit_ok {b : DBits} (hb : Ok w b) (i : ℕ) : (toBits w b).bit i = bitAt w b i :=
  bit_toBits_ok hb i

theorem first_findFrom {b : DBits} (hb : Ok w b) (i : ℕ) :
    IsFirst w b i (Bits.findFrom (toBits w b) i) := by
  have h := Bits.findFrom_spec (toBits w b) i
  cases hr : Bits.findFrom (toBits w b) i with
  | none => intro q hq; rw [← bit_ok hb]; exact h.2 hr q hq
  | some p =>
    obtain ⟨h1, h2, h3⟩ := h.1 p hr
    refine ⟨h1, by rw [← bit_ok hb]; exact h2, fun q hq hq' => ?_⟩
    rw [← bit_ok hb]; exact h3 q hq hq'

theorem findFirst_eq (hw : 0 < w) {b : DBits} (hb : Ok w b) :
    findFirst w b = Bits.findFrom (toBits w b) 0 := by
  have := findFrom_first hw hb.toShape 0
  rw [Nat.zero_mul] at this
  exact isFirst_unique this (first_findFrom hb 0)

theorem findNext_eq (hw : 0 < w) {b : DBits} (hb : Ok w b) (p : ℕ) :
    findNext w b p = some (Bits.findFrom (toBits w b) (p + 1)) := by
  obtain ⟨r, h1, h2⟩ := findNext_first hw hb p
  rw [h1, isFirst_unique h2 (first_findFrom hb (p + 1))]

theorem visitLoop_eq (hw : 0 < w) {b : DBits} (hb : Ok w b) (fuel : ℕ) (r : Option ℕ)
    (out : List ℕ) : visitLoop w b fuel r out = Bits.visitLoop (toBits w b) fuel r out := by
  induction fuel generalizing r out with
  | zero => cases r <;> rfl
  | succ fuel ih =>
    cases r with
    | none => rfl
    | some p =>
      rw [visitLoop, findNext_eq hw hb, Option.bind_some, ih]
      rfl

theorem visitLoop_mono (b : Bits) (fuel k : ℕ) (r : Option ℕ) (out l : List ℕ)
    (h : Bits.visitLoop b fuel r out = some l) : Bits.visitLoop b (fuel + k) r out = some l := by
  induction fuel generalizing r out with
  | zero =>
    cases r with
    | none => rw [← h, Bits.visitLoop, Bits.visitLoop]
    | some p => simp [Bits.visitLoop] at h
  | succ fuel ih =>
    cases r with
    | none => rw [← h, Bits.visitLoop, Bits.visitLoop]
    | some p =>
      rw [Nat.add_right_comm]
      rw [Bits.visitLoop] at h ⊢
      exact ih _ _ h

/-- C91: the constructors, for every block size, text, list of positions and size. A text is
taken for the bits that are `1`, whatever the other characters are. Positions are rejected exactly
when the list of bits rejects them. The result has its unused bits zero, and no access is outside of
the blocks. -/
theorem C91_make (hw : 0 < w) :
    (∀ s : List Char, ∃ b, ofString w s = some b ∧ Ok w b ∧ toBits w b = s.map (· == '1')) ∧
    (∀ (pos : List ℕ) (n : ℕ), match Bits.ofPositions pos n with
      | some l => ∃ b, ofPositions w pos n = some (.inr b) ∧ Ok w b ∧ toBits w b = l
      | none => ∃ e, ofPositions w pos n = some (.inl e)) := by
  constructor
  · intro s
    have key : ∀ m, m ≤ s.reverse.length → ∃ b, (List.range m).foldl
        (fun b i => b.bind fun b => if s.reverse.getD (s.reverse.length - 1 - i) '0' = '1'
          then setBit w b i else some b) (some (ofSize w s.reverse.length)) = some b ∧ Ok w b ∧
        b.size = s.length ∧
        ∀ i, bitAt w b i = (decide (i < m) && decide (s.getD i '0' = '1')) := by
      intro m
      induction m with
      | zero =>
        intro _
        exact ⟨ofSize w s.reverse.length, rfl, ofSize_ok _, by simp [ofSize], by
          intro i; rw [bitAt_ofSize]; simp⟩
      | succ m ih =>
        intro hm
        obtain ⟨b, h1, h2, h3, h4⟩ := ih (by omega)
        rw [List.length_reverse] at hm
        have hc : s.reverse.getD (s.reverse.length - 1 - m) '0' = s.getD m '0' := by
          rw [List.getD_eq_getElem _ _ (by simp; omega), List.getD_eq_getElem _ _ (by omega),
            List.getElem_reverse]
          congr 1
          simp; omega
        rw [List.range_succ, List.foldl_append, h1, List.foldl_cons, List.foldl_nil,
          Option.bind_some, hc]
        by_cases h : s.getD m '0' = '1'
        · rw [if_pos h]
          obtain ⟨c, c1, c2, c3, c4⟩ := setBit_spec hw h2 (i := m) (by omega)
          refine ⟨c, c1, c2, by omega, fun i => ?_⟩
          rw [c4, h4]
          rcases Nat.lt_trichotomy i m with hi | rfl | hi
          · simp [hi, hi.ne, show i < m + 1 by omega]
          · rw [h]; simp
          · simp [show ¬ i < m by omega, show i ≠ m by omega, show ¬ i < m + 1 by omega]
        · rw [if_neg h]
          refine ⟨b, rfl, h2, h3, fun i => ?_⟩
          rw [h4]
          rcases Nat.lt_trichotomy i m with hi | rfl | hi
          · simp [hi, show i < m + 1 by omega]
          · rw [decide_eq_false h]; simp
          · simp [show ¬ i < m by omega, show ¬ i < m + 1 by omega]
    obtain ⟨b, h1, h2, h3, h4⟩ := key _ le_rfl
    refine ⟨b, h1, h2, toBits_eq (by simp [h3]) fun i hi => ?_⟩
    rw [h4, List.getD_eq_getElem _ _ (by simp; omega), List.getElem_map,
      List.getD_eq_getElem _ _ (by omega)]
    rw [Bool.eq_iff_iff]
    simp; omega
  · intro pos n
    have hstuck : ∀ (pos : List ℕ) (e : String), pos.foldl (fun (b : Option (String ⊕ DBits)) x =>
        b.bind fun
        | .inl e => some (.inl e)
        | .inr b => if n ≤ x then some (.inl "'size' is too small.") else (setBit w b x).map .inr)
        (some (.inl e)) = some (.inl e) := by
      intro pos e
      induction pos with
      | nil => rfl
      | cons x pos ih => rw [List.foldl_cons, Option.bind_some]; exact ih
    have hnone : ∀ pos : List ℕ, pos.foldl (fun (b : Option Bits) x => b.bind fun b =>
        if n ≤ x then none else some (b.set x true)) none = none := by
      intro pos
      induction pos with
      | nil => rfl
      | cons x pos ih => rw [List.foldl_cons, Option.bind_none]; exact ih
    have key : ∀ (pos : List ℕ) (b : DBits), Ok w b → b.size = n →
        match pos.foldl (fun (b : Option Bits) x => b.bind fun b =>
          if n ≤ x then none else some (b.set x true)) (some (toBits w b)) with
        | some l => ∃ c, pos.foldl (fun (b : Option (String ⊕ DBits)) x => b.bind fun
            | .inl e => some (.inl e)
            | .inr b => if n ≤ x then some (.inl "'size' is too small.")
              else (setBit w b x).map .inr) (some (.inr b)) = some (.inr c) ∧ Ok w c ∧ toBits w c = l
        | none => ∃ e, pos.foldl (fun (b : Option (String ⊕ DBits)) x => b.bind fun
            | .inl e => some (.inl e)
            | .inr b => if n ≤ x then some (.inl "'size' is too small.")
              else (setBit w b x).map .inr) (some (.inr b)) = some (.inl e) := by
      intro pos
      induction pos with
      | nil => intro b hb _; exact ⟨b, rfl, hb, rfl⟩
      | cons x pos ih =>
        intro b hb hs
        simp only [List.foldl_cons, Option.bind_some]
        by_cases hx : n ≤ x
        · simp only [if_pos hx, hnone]
          exact ⟨_, hstuck _ _⟩
        · obtain ⟨c, c1, c2, c3, c4⟩ := setBit_spec hw hb (i := x) (by omega)
          have hc : (toBits w b).set x true = toBits w c := by
            refine (toBits_eq (by simp [length_toBits, c3]) fun i hi => ?_).symm
            rw [c4, List.getD_eq_getElem _ _ (by simp [length_toBits]; omega), List.getElem_set]
            by_cases hix : x = i
            · simp [hix]
            · simp [hix, Ne.symm hix, toBits]
          simp only [if_neg hx, c1, Option.map_some, hc]
          exact ih c c2 (by omega)
    have := key pos (ofSize w n) (ofSize_ok n) rfl
    have hz : toBits w (ofSize w n) = List.replicate n false := by
      refine toBits_eq (by simp [ofSize]) fun i hi => ?_
      rw [bitAt_ofSize, List.getD_eq_getElem _ _ (by simpa [ofSize] using hi)]
      simp
    rw [hz] at this
    exact this

example : ofString 2 ['1', 'x', '1'] = some ⟨[1, 1], 3⟩ ∧ ofPositions 2 [2, 0] 3 = some (.inr ⟨[1, 1], 3⟩) ∧
    ofPositions 2 [3] 3 = some (.inl "'size' is too small.") := ⟨by decide, by decide, by decide⟩

/-- C91: the operators on bitsets of the same size are those on lists of bits, for every block size:
the result is the one of Model/Bitset, its unused bits are zero, and no access is outside of the
blocks. -/
theorem C91_operations (hw : 0 < w) {a b : DBits} (ha : Ok w a) (hb : Ok w b)
    (h : a.size = b.size) :
    (∃ c, and a b = some c ∧ Ok w c ∧ toBits w c = Bits.and (toBits w a) (toBits w b)) ∧
    (∃ c, or a b = some c ∧ Ok w c ∧ toBits w c = Bits.or (toBits w a) (toBits w b)) ∧
    (∃ c, xor a b = some c ∧ Ok w c ∧ toBits w c = Bits.xor (toBits w a) (toBits w b)) ∧
    (∃ c, sub w a b = some c ∧ Ok w c ∧ toBits w c = Bits.sub (toBits w a) (toBits w b)) ∧
    (∃ c, inv w a = some c ∧ Ok w c ∧ toBits w c = Bits.inv (toBits w a)) := by
  refine ⟨?_, ?_, ?_, ?_, inv_spec hw ha⟩
  · exact zip_spec hw (fun x y j _ => Nat.testBit_and x y j)
      (fun x y hx _ => Nat.lt_of_le_of_lt Nat.and_le_left hx) rfl ha hb h
  · exact zip_spec hw (fun x y j _ => Nat.testBit_or x y j)
      (fun x y hx hy => Nat.or_lt_two_pow hx hy) rfl ha hb h
  · refine zip_spec hw (fun x y j _ => ?_) (fun x y hx hy => Nat.xor_lt_two_pow hx hy) rfl ha hb h
    rw [Nat.testBit_xor]
  · refine zip_spec hw (fun x y j hj => ?_)
      (fun x y hx _ => Nat.lt_of_le_of_lt Nat.and_le_left hx) rfl ha hb h
    rw [Nat.testBit_and, testBit_neg _ _ hj]

/-- C91: what is asked of a bitset, or of two of the same size, is answered as for the lists of
bits. -/
theorem C91_queries (hw : 0 < w) {a b : DBits} (ha : Ok w a) (hb : Ok w b) (h : a.size = b.size) :
    isSubset w a b = some (Bits.isSubset (toBits w a) (toBits w b)) ∧
    isProperSubset w a b = some (Bits.isProperSubset (toBits w a) (toBits w b) false) ∧
    intersects a b = Bits.intersects (toBits w a) (toBits w b) ∧
    (a = b ↔ toBits w a = toBits w b) ∧
    count w a = (toBits w a).count ∧
    positions w a = (toBits w a).positions ∧
    toStr w a = some (toBits w a).toStr ∧
    (∀ i, i < a.size → test w a i = (toBits w a).getItem i) := by
  have hl : a.blocks.length = b.blocks.length := by rw [ha.len, hb.len, h]
  have hlen : (toBits w a).length = (toBits w b).length := by
    rw [length_toBits, length_toBits, h]
  have hmem : ∀ {b : DBits} (_ : Ok w b) i, i ∈ (toBits w b).posSet ↔ bitAt w b i = true :=
    fun hb i => by rw [Bits.mem_posSet, bit_ok hb]
  obtain ⟨q1, q2, q3, -⟩ := C02_comparisons _ _ hlen
  have htest : ∀ i, i < a.size → test w a i = some (bitAt w a i) := by
    intro i hi
    exact test_eq _ _ (by rw [ha.len]; exact numBlocks_lt hw hi)
  refine ⟨?_, ?_, ?_, ?_, count_spec hw ha, ?_, ?_, ?_⟩
  · obtain ⟨r, h1, h2⟩ := isSubset_bits hw ha.toShape hl.le
    rw [h1]
    congr 1
    rw [Bool.eq_iff_iff, h2, q1, Finset.subset_iff]
    simp only [hmem ha, hmem hb]
  · obtain ⟨r, h1, h2⟩ := isProperSubset_bits hw ha.toShape hb.toShape hl
    rw [h1]
    congr 1
    rw [Bool.eq_iff_iff, h2, q2, Finset.ssubset_def, Finset.subset_iff, Finset.subset_iff]
    simp only [hmem ha, hmem hb]
  · rw [Bool.eq_iff_iff, intersects_bits hw ha.toShape]
    rw [← not_iff_not, Bool.not_eq_true, q3, Finset.disjoint_left]
    simp only [hmem ha, hmem hb]
    push Not
    rfl
  · exact ⟨fun e => by rw [e], toBits_inj ha hb⟩
  · obtain ⟨l, h1, -⟩ := Bits.positions_spec (toBits w a)
    unfold positions
    rw [visitLoop_eq hw ha, findFirst_eq hw ha, h1]
    unfold Bits.positions at h1
    rw [length_toBits] at h1
    have hle := size_le hw a.size
    rw [← ha.len] at hle
    obtain ⟨k, hk⟩ := Nat.exists_eq_add_of_le hle
    rw [hk]
    exact visitLoop_mono _ _ _ _ _ _ h1
  · unfold toStr Bits.toStr
    rw [length_toBits]
    have : ∀ m, m ≤ a.size → (List.range m).foldl (fun s i => s.bind fun s =>
        (test w a i).map fun x => s ++ [if x then '1' else '0']) (some []) =
        some ((List.range m).foldl (fun s i => s ++ [if (toBits w a).getD i false then '1' else '0'])
          []) := by
      intro m
      induction m with
      | zero => intro _; rfl
      | succ m ih =>
        intro hm
        rw [List.range_succ, List.foldl_append, List.foldl_append, ih (by omega)]
        simp only [List.foldl_cons, List.foldl_nil, Option.bind_some]
        rw [htest m (by omega), Option.map_some, bit_toBits_ok ha]
    exact this _ le_rfl
  · intro i hi
    rw [htest i hi]
    unfold Bits.getItem
    rw [if_neg (by rw [length_toBits]; omega), bit_toBits_ok ha]

/-- Two blocks of two bits each, of which three bits are used. -/
theorem Ok_example : Ok 2 ⟨[1, 1], 3⟩ ∧ Ok 2 ⟨[3, 0], 3⟩ := by
  obtain ⟨b, h1, h2, -⟩ := (C91_make (w := 2) (by decide)).1 ['1', '0', '1']
  obtain ⟨c, h3, h4, -⟩ := (C91_make (w := 2) (by decide)).1 ['1', '1', '0']
  have e1 : ofString 2 ['1', '0', '1'] = some ⟨[1, 1], 3⟩ := by decide
  have e2 : ofString 2 ['1', '1', '0'] = some ⟨[3, 0], 3⟩ := by decide
  rw [e1] at h1
  rw [e2] at h3
  cases h1; cases h3
  exact ⟨h2, h4⟩

example : or ⟨[1, 1], 3⟩ ⟨[3, 0], 3⟩ = some ⟨[3, 1], 3⟩ ∧ inv 2 ⟨[1, 1], 3⟩ = some ⟨[2, 0], 3⟩ ∧
    count 2 ⟨[3, 1], 3⟩ = 3 ∧ positions 2 ⟨[1, 1], 3⟩ = some [0, 2] := by decide

example : toBits 2 ⟨[1, 1], 3⟩ = [true, false, true] ∧
    isSubset 2 ⟨[1, 1], 3⟩ ⟨[3, 0], 3⟩ = some false :=
  ⟨by decide, by decide⟩

/-- C91, operands of different sizes: Boost walks over the blocks of the left operand. If the right
one has fewer blocks, `&`, `|`, `^` and `-` access memory outside of it. Otherwise the result has
the size of the left operand, and below it the bits are those of the operation with missing bits
taken as zeros. The result of `&` and `-` is well-formed; that of `|` and `^` exactly if the right
operand has no bits beyond the left one in the last block of the left one. -/
theorem C91_sizes (hw : 0 < w) {a b : DBits} (ha : Ok w a) (hb : Ok w b) :
    (numBlocks w b.size < numBlocks w a.size →
      and a b = none ∧ or a b = none ∧ xor a b = none ∧ sub w a b = none) ∧
    (numBlocks w a.size ≤ numBlocks w b.size →
      (∃ c, and a b = some c ∧ Ok w c ∧ c.size = a.size ∧
        ∀ i, i < a.size → bitAt w c i = (bitAt w a i && bitAt w b i)) ∧
      (∃ c, sub w a b = some c ∧ Ok w c ∧ c.size = a.size ∧
        ∀ i, i < a.size → bitAt w c i = (bitAt w a i && !bitAt w b i)) ∧
      (∃ c, or a b = some c ∧ c.size = a.size ∧
        (∀ i, i < a.size → bitAt w c i = (bitAt w a i || bitAt w b i)) ∧
        (Ok w c ↔ ∀ i, a.size ≤ i → i < numBlocks w a.size * w → bitAt w b i = false)) ∧
      (∃ c, xor a b = some c ∧ c.size = a.size ∧
        (∀ i, i < a.size → bitAt w c i = (bitAt w a i != bitAt w b i)) ∧
        (Ok w c ↔ ∀ i, a.size ≤ i → i < numBlocks w a.size * w → bitAt w b i = false))) := by
  constructor
  · intro h
    have hl : b.blocks.length < a.blocks.length := by rw [ha.len, hb.len]; exact h
    exact ⟨zip_none _ _ _ hl, zip_none _ _ _ hl, zip_none _ _ _ hl, zip_none _ _ _ hl⟩
  · intro h
    have hl : a.blocks.length ≤ b.blocks.length := by rw [ha.len, hb.len]; exact h
    have hin : ∀ i, i < a.size → i / w < a.blocks.length := fun i hi => by
      rw [ha.len]; exact numBlocks_lt hw hi
    refine ⟨?_, ?_, ?_, ?_⟩
    · obtain ⟨c, h1, h2, h3, h4⟩ := zip_general (g := fun x y => x && y) hw
        (fun x y j _ => Nat.testBit_and x y j)
        (fun x y hx _ => Nat.lt_of_le_of_lt Nat.and_le_left hx) ha.toShape hb.toShape hl
      refine ⟨c, h1, ⟨h2, fun i hi => ?_⟩, h3, fun i hi => ?_⟩
      · rw [h4, ha.unused i (by omega)]; simp
      · rw [h4, if_pos (hin i hi)]
    · obtain ⟨c, h1, h2, h3, h4⟩ := zip_general (f := fun x y => x &&& neg w y)
        (g := fun x y => x && !y) hw
        (fun x y j hj => by rw [Nat.testBit_and, testBit_neg _ _ hj])
        (fun x y hx _ => Nat.lt_of_le_of_lt Nat.and_le_left hx) ha.toShape hb.toShape hl
      refine ⟨c, h1, ⟨h2, fun i hi => ?_⟩, h3, fun i hi => ?_⟩
      · rw [h4, ha.unused i (by omega)]; simp
      · rw [h4, if_pos (hin i hi)]
    · obtain ⟨c, h1, h2, h3, h4⟩ := zip_general (g := fun x y => x || y) hw
        (fun x y j _ => Nat.testBit_or x y j)
        (fun x y hx hy => Nat.or_lt_two_pow hx hy) ha.toShape hb.toShape hl
      refine ⟨c, h1, h3, fun i hi => ?_, fun hc i hi hi' => ?_, fun hz => ⟨h2, fun i hi => ?_⟩⟩
      · rw [h4, if_pos (hin i hi)]
      · have := hc.unused i (by omega)
        rw [h4, if_pos (by rw [ha.len]; exact (Nat.div_lt_iff_lt_mul hw).2 hi'),
          ha.unused i hi, Bool.false_or] at this
        exact this
      · rw [h4]
        split
        · next hk =>
          rw [ha.len, Nat.div_lt_iff_lt_mul hw] at hk
          rw [ha.unused i (by omega), hz i (by omega) hk]; rfl
        · rfl
    · obtain ⟨c, h1, h2, h3, h4⟩ := zip_general (f := fun x y => x ^^^ y)
        (g := fun x y => x != y) hw
        (fun x y j _ => by rw [Nat.testBit_xor])
        (fun x y hx hy => Nat.xor_lt_two_pow hx hy) ha.toShape hb.toShape hl
      refine ⟨c, h1, h3, fun i hi => ?_, fun hc i hi hi' => ?_, fun hz => ⟨h2, fun i hi => ?_⟩⟩
      · rw [h4, if_pos (hin i hi)]
      · have := hc.unused i (by omega)
        rw [h4, if_pos (by rw [ha.len]; exact (Nat.div_lt_iff_lt_mul hw).2 hi'),
          ha.unused i hi] at this
        simpa using this
      · rw [h4]
        split
        · next hk =>
          rw [ha.len, Nat.div_lt_iff_lt_mul hw] at hk
          rw [ha.unused i (by omega), hz i (by omega) hk]; rfl
        · rfl

/-- C91: comparisons of bitsets of different sizes that do not go wrong. `isdisjoint` is right for
all sizes, `==` is then `False`, and `a <= b` is right if `b` has at least as many blocks. -/
theorem C91_sizes_compare (hw : 0 < w) {a b : DBits} (ha : Ok w a) :
    (intersects a b = true ↔ ∃ i, bitAt w a i = true ∧ bitAt w b i = true) ∧
    (a.size ≠ b.size → a ≠ b) ∧
    (a.blocks.length ≤ b.blocks.length → ∃ r, isSubset w a b = some r ∧
      (r = true ↔ ∀ i, bitAt w a i = true → bitAt w b i = true)) :=
  ⟨intersects_bits hw ha.toShape, fun h e => h (by rw [e]), isSubset_bits hw ha.toShape⟩

/-- C91 is violated: operands of different sizes are neither rejected nor padded. With blocks of 64
bits, `Bitset('0') | Bitset('01')` prints as `0` but counts one bit, reports position 1 of a bitset
of length 1, and differs from `Bitset('0')`. -/
theorem C91_violated_or : ∃ a b z c, ofString 64 ['0'] = some a ∧ ofString 64 ['0', '1'] = some b ∧
    or a b = some c ∧ ofString 64 ['0'] = some z ∧ c.size = 1 ∧ toStr 64 c = some ['0'] ∧
    count 64 c = 1 ∧ positions 64 c = some [1] ∧ c ≠ z ∧ ¬ Ok 64 c := by
  refine ⟨⟨[0], 1⟩, ⟨[2], 2⟩, ⟨[0], 1⟩, ⟨[2], 1⟩, by decide, by decide, by decide, by decide, rfl,
    by decide, by decide, by decide, by decide, fun h => ?_⟩
  have := h.unused 1 le_rfl
  revert this
  decide

/-- C91 is violated: with blocks of 64 bits, `&` and `<=` of a bitset of 65 ones and one of a single
one access memory outside of the second; and `<` denies that `{0}` of size 1 is a proper subset of
`{0, 64}` of size 65. -/
theorem C91_violated_blocks : ∃ a b p, ofString 64 (List.replicate 65 '1') = some a ∧
    ofString 64 ['1'] = some b ∧ ofPositions 64 [0, 64] 65 = some (.inr p) ∧
    and a b = none ∧ isSubset 64 b a = some true ∧
    isSubset 64 p b = none ∧
    isProperSubset 64 b p = some false ∧ (∀ i, bitAt 64 b i = true → bitAt 64 p i = true) ∧
    bitAt 64 p 64 = true ∧ bitAt 64 b 64 = false := by
  have ha : ofString 64 (List.replicate 65 '1') = some ⟨[2 ^ 64 - 1, 1], 65⟩ := by decide +kernel
  have hb : ofString 64 ['1'] = some ⟨[1], 1⟩ := by decide
  have hp : ofPositions 64 [0, 64] 65 = some (.inr ⟨[1, 1], 65⟩) := by decide
  refine ⟨_, _, _, ha, hb, hp, by decide, by decide, by decide, by decide, fun i hi => ?_,
    by decide, by decide⟩
  by_cases h : i / 64 = 0
  · revert hi; unfold bitAt; simp only [h]; exact id
  · exfalso
    revert hi
    unfold bitAt
    rw [List.getD_eq_default _ _ (by simp; omega)]
    simp

end DBits

open Bits

theorem pyIterFrom_eq (b : Bits) (hb : b.length < 2 ^ 64) (fuel i : ℕ) (h : b.length < i + fuel)
    (hi : i ≤ b.length) : b.pyIterFrom fuel i = some (.ok (b.drop i)) := by
  induction fuel generalizing i with
  | zero => omega
  | succ fuel ih =>
    have hlt : ¬ ((i : ℤ) < 0 ∨ (2 : ℤ) ^ 64 ≤ i) := by
      have : (b.length : ℤ) < 2 ^ 64 := by exact_mod_cast hb
      omega
    unfold pyIterFrom pyGetItem getItem
    rw [if_neg hlt, Int.toNat_natCast]
    by_cases hl : b.length ≤ i
    · rw [if_pos hl]
      simp [List.drop_eq_nil_of_le hl]
    · rw [if_neg hl]
      simp only
      rw [ih (i + 1) (by omega) (by omega), Option.map_some]
      rw [List.getD_eq_getElem _ _ (by omega), List.drop_eq_getElem_cons (i := i) (by omega)]
      rfl

/-- C91, Python: `list(b)` is the list of the bits (not of the positions), for every bitset that
memory can hold; `x in b` says whether `x` is 1 and there is a bit set, or `x` is 0 and there is one
that is not; `bool(b)` says whether the length is not zero. -/
theorem C91_python (b : Bits) (hb : b.length < 2 ^ 64) :
    b.pyIter = some (.ok b) ∧
    (∀ x : ℤ, ∃ r, b.pyContains x = some (.ok r) ∧
      (r = true ↔ (x = 1 ∧ b.posSet.Nonempty) ∨ (x = 0 ∧ b.posSet ≠ Finset.range b.length))) ∧
    (b.pyBool = true ↔ b ≠ []) := by
  have h0 : b.pyIter = some (.ok b) := by
    unfold pyIter
    rw [pyIterFrom_eq b hb _ 0 (by omega) (by omega), List.drop_zero]
  have hbit : ∀ i (h : i < b.length), b[i] = b.bit i := fun i h => by
    unfold Bits.bit; rw [List.getD_eq_getElem _ _ h]
  refine ⟨h0, fun x => ?_, ?_⟩
  · unfold pyContains
    rw [h0]
    refine ⟨_, rfl, ?_⟩
    rw [List.any_eq_true]
    constructor
    · rintro ⟨y, hy, hx⟩
      obtain ⟨i, hi, rfl⟩ := List.getElem_of_mem hy
      have hx' := of_decide_eq_true hx
      cases h : b[i] with
      | true =>
        rw [h] at hx'
        exact Or.inl ⟨by simpa using hx'.symm, i, by rw [mem_posSet, ← hbit i hi, h]⟩
      | false =>
        rw [h] at hx'
        refine Or.inr ⟨by simpa using hx'.symm, fun e => ?_⟩
        have : i ∈ b.posSet := by rw [e]; simpa using hi
        rw [mem_posSet, ← hbit i hi, h] at this
        simp at this
    · rintro (⟨rfl, i, hi⟩ | ⟨rfl, hne⟩)
      · rw [mem_posSet] at hi
        have hl := bit_lt hi
        exact ⟨b[i], List.getElem_mem hl, by rw [hbit i hl, hi]; rfl⟩
      · have : ∃ i, i < b.length ∧ b.bit i = false := by
          by_contra hn
          refine hne ?_
          ext i
          rw [mem_posSet, Finset.mem_range]
          refine ⟨fun h => bit_lt h, fun h => ?_⟩
          by_contra hc
          exact hn ⟨i, h, by simpa using hc⟩
        obtain ⟨i, hl, hi⟩ := this
        exact ⟨b[i], List.getElem_mem hl, by rw [hbit i hl, hi]; rfl⟩
  · unfold pyBool
    rw [decide_eq_true_eq, ne_eq, List.length_eq_zero_iff]

example : pyContains [true, false, true] 2 = some (.ok false) ∧
    pyContains [true, false, true] 1 = some (.ok true) ∧ pyBool [false, false] = true := ⟨rfl, rfl, rfl⟩

/-- C91 is violated: `p in b` is not whether the bit at position `p` is set: position 2 is set and
denied, position 1 is not set and affirmed. -/
theorem C91_violated_contains : ∃ b, Bitset.make (.list [0, 2]) (some 3) = .ok b ∧
    b.positions = some [0, 2] ∧ b.pyContains 2 = some (.ok false) ∧
    b.pyContains 1 = some (.ok true) :=
  ⟨[true, false, true], rfl, by decide, rfl, rfl⟩

/-- C91, Python: `b[i]` is the bit at `i`; a negative index, or one beyond 64 bits, is a `TypeError`,
any other outside of the bitset an `IndexError`. -/
theorem C91_getitem (b : Bits) (i : ℤ) :
    b.pyGetItem i = if i < 0 ∨ 2 ^ 64 ≤ i then .error "TypeError"
      else if i < b.length then .ok (decide (i.toNat ∈ b.posSet)) else .error "IndexError" := by
  unfold pyGetItem
  by_cases h : i < 0 ∨ 2 ^ 64 ≤ i
  · rw [if_pos h, if_pos h]
  · rw [if_neg h, if_neg h, (C02_count_getitem b i.toNat).2]
    by_cases hl : i < b.length
    · rw [if_pos hl, if_pos (by omega)]
    · rw [if_neg hl, if_neg (by omega)]

example : pyGetItem [true, false] (-1) = .error "TypeError" ∧
    pyGetItem [true, false] 0 = .ok true ∧ pyGetItem [true, false] 2 = .error "IndexError" := ⟨rfl, rfl, rfl⟩

end TNCO
