import Verif.Model.Buffer
import Mathlib.Data.List.Basic
import Mathlib.Tactic.Ring
import Mathlib.Tactic.Linarith

/-! # Lemmas about shared-memory buffers -/

namespace TNCO

/-- `struct` encodes a value of format `c` in `calcsize(c)` bytes. -/
structure Codec.Ok {V : Type} (cd : Codec V) : Prop where
  length : ∀ {c v ys w}, calcsize c = some w → cd.enc c v = .ok ys → ys.length = w

theorem writeAt_length {bs ys : List UInt8} {off : Nat} (h : off + ys.length ≤ bs.length) : (writeAt bs off ys).length = bs.length := by
  simp only [writeAt, List.length_append, List.length_take, List.length_drop]; omega

theorem writeAt_same {bs ys : List UInt8} {off : Nat} (h : off + ys.length ≤ bs.length) : ((writeAt bs off ys).drop off).take ys.length = ys := by
  have h1 : (bs.take off).length = off := by rw [List.length_take]; omega
  rw [writeAt, List.append_assoc, List.drop_append_of_le_length (by omega), List.drop_of_length_le (by omega), List.nil_append,
    List.take_append_of_le_length (by omega), List.take_length]

theorem writeAt_other {bs ys : List UInt8} {off o n : Nat} (h : off + ys.length ≤ bs.length) (hd : o + n ≤ off ∨ off + ys.length ≤ o) :
    ((writeAt bs off ys).drop o).take n = (bs.drop o).take n := by
  apply List.ext_getElem?
  intro i
  simp only [List.getElem?_take]
  split
  · next hi =>
    simp only [List.getElem?_drop, writeAt, List.getElem?_append, List.length_append, List.length_take, List.getElem?_take]
    rcases hd with hd | hd
    · rw [if_pos (by omega), if_pos (by omega), if_pos (by omega)]
    · rw [if_neg (by omega)]
      congr 1; omega
  · rfl

theorem packAll_ok {V : Type} {cd : Codec V} (hc : cd.Ok) {c : Char} {w : Nat} (hw : calcsize c = some w) :
    ∀ {vs : List V} {ys : List UInt8}, packAll cd c vs = .ok ys →
      ys.length = vs.length * w ∧ ∀ i (hi : i < vs.length), cd.enc c vs[i] = .ok ((ys.drop (i * w)).take w)
  | [], ys, h => by
    cases h; exact ⟨by simp, fun i hi => absurd hi (by simp)⟩
  | v :: vs, ys, h => by
    unfold packAll at h
    split at h
    · cases h
    · split at h
      · cases h
      · next ys' hv =>
        split at h
        · cases h
        · next zs hz =>
          cases h
          obtain ⟨hl, hi⟩ := packAll_ok hc hw hz
          have hlen := hc.length hw hv
          refine ⟨by simp [hl, hlen]; ring, fun i hi' => ?_⟩
          cases i with
          | zero =>
            simp only [List.getElem_cons_zero, Nat.zero_mul, List.drop_zero]
            rw [List.take_append_of_le_length (by omega), List.take_of_length_le (by omega)]
            exact hv
          | succ i =>
            simp only [List.getElem_cons_succ]
            rw [hi i (by simpa using hi')]
            congr 2
            rw [Nat.succ_mul, Nat.add_comm (i * w), ← hlen, ← List.drop_drop, List.drop_left]

theorem packAll_x {V : Type} {cd : Codec V} {vs : List V} {ys : List UInt8} (h : packAll cd 'x' vs = .ok ys) : vs = [] := by
  cases vs with
  | nil => rfl
  | cons v vs => simp [packAll] at h

/-- A buffer with slots of positive size: what `mkBuffer` builds. -/
structure Buffer.Valid (b : Buffer) : Prop where
  size : 0 < b.slot
  code : calcsize b.dtype = some b.slot

theorem Buffer.len_le (b : Buffer) : b.len * b.slot ≤ b.bytes.length := Nat.div_mul_le_self _ _

theorem Buffer.offset_nonneg {b : Buffer} {i : Nat} (hi : i < b.len) : b.offset i = .ok (i * b.slot) := by
  unfold Buffer.offset
  rw [if_neg (by omega)]
  have : (i : Int) * b.slot = ((i * b.slot : Nat) : Int) := by push_cast; rfl
  rw [this, if_pos (by omega), Int.toNat_natCast]

theorem Buffer.offset_past {b : Buffer} {p : Int} (h : (b.len : Int) ≤ p) : b.offset p = .error .indexError := by
  unfold Buffer.offset
  rw [if_pos h]

theorem Buffer.offset_neg {b : Buffer} (hb : b.Valid) (hex : b.len * b.slot = b.bytes.length) {p : Int} (hp : p < 0) :
    b.offset p = if p + b.len < 0 then .error .structError else .ok ((p + b.len).toNat * b.slot) := by
  unfold Buffer.offset
  have hs := hb.size
  have h0 : p * b.slot < 0 := Int.mul_neg_of_neg_of_pos hp (by omega)
  rw [if_neg (by omega), if_neg (by omega)]
  have : p * b.slot + b.bytes.length = (p + b.len) * b.slot := by rw [← hex]; push_cast; ring
  rw [this]
  by_cases h : p + b.len < 0
  · rw [if_pos h, if_pos (Int.mul_neg_of_neg_of_pos h (by omega))]
  · rw [if_neg h, if_neg (by have : 0 ≤ (p + b.len) * b.slot := Int.mul_nonneg (by omega) (by omega); omega)]
    obtain ⟨k, hk⟩ := Int.eq_ofNat_of_zero_le (not_lt.1 h)
    rw [hk]
    congr 1

theorem slots_disjoint {i j w : Nat} (h : i ≠ j) : i * w + w ≤ j * w ∨ j * w + w ≤ i * w := by
  rcases Nat.lt_or_gt_of_ne h with h | h
  · left; calc i * w + w = (i + 1) * w := by ring
      _ ≤ _ := Nat.mul_le_mul_right _ h
  · right; calc j * w + w = (j + 1) * w := by ring
      _ ≤ _ := Nat.mul_le_mul_right _ h

theorem slot_in {b : Buffer} {i : Nat} (h : i < b.len) : i * b.slot + b.slot ≤ b.bytes.length := by
  calc i * b.slot + b.slot = (i + 1) * b.slot := by ring
    _ ≤ b.len * b.slot := Nat.mul_le_mul_right _ h
    _ ≤ _ := b.len_le

end TNCO
