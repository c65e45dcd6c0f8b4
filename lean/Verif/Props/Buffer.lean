import Verif.Lemmas.Buffer

/-! # C53: a shared-memory buffer is a fixed-length list -/

namespace TNCO
variable {V : Type}

/-- What `mkBuffer` builds is valid. -/
theorem mkBuffer_valid {cd : Codec V} {alloc : Nat → Nat} {x : List V ⊕ Int} {dtype : List Char} {b : Buffer} (h : mkBuffer cd alloc x dtype = .ok b) :
    b.Valid ∧ dtype = [b.dtype] := by
  unfold mkBuffer at h
  split at h
  · next c =>
    split at h
    · cases h
    · next w hw =>
      have key : ∀ (n : Int) (bs : List UInt8), sharedMemory alloc (n * w) = .ok bs → 0 < w := by
        intro n bs hs
        unfold sharedMemory at hs
        split at hs
        · cases hs
        · next h0 => rcases Nat.eq_zero_or_pos w with rfl | h
                     · simp at h0
                     · exact h
      split at h
      · split at h
        · cases h
        · next hs => cases h; exact ⟨⟨by simp [Buffer.slot, hw, key _ _ hs], by simp [Buffer.slot, hw]⟩, rfl⟩
      · split at h
        · cases h
        · next hs =>
          split at h
          · cases h
          · cases h; exact ⟨⟨by simp [Buffer.slot, hw, key _ _ hs], by simp [Buffer.slot, hw]⟩, rfl⟩
  · cases h

/-- C53, creation: a buffer made of a sequence holds this sequence. Its length is that of the sequence if the operating system gives as many bytes as
asked for. -/
theorem C53_create {cd : Codec V} (hc : cd.Ok) {alloc : Nat → Nat} (ha : ∀ n, n ≤ alloc n) {vs : List V} {dtype : List Char} {b : Buffer}
    (h : mkBuffer cd alloc (.inl vs) dtype = .ok b) :
    vs.length ≤ b.len ∧ (alloc (vs.length * b.slot) = vs.length * b.slot → b.len = vs.length) ∧
      ∀ i (hi : i < vs.length), ∃ ys, cd.enc b.dtype vs[i] = .ok ys ∧ b.get cd i = .ok (cd.dec b.dtype ys) := by
  have hv := (mkBuffer_valid h).1
  unfold mkBuffer at h
  split at h
  · next c =>
    split at h
    · cases h
    · next w hw =>
      dsimp only at h
      split at h
      · cases h
      · next bs hs =>
        split at h
        · cases h
        · next ys hp =>
          cases h
          obtain ⟨hl, hi⟩ := packAll_ok hc hw hp
          have hslot : (⟨c, writeAt bs 0 ys⟩ : Buffer).slot = w := by simp [Buffer.slot, hw]
          have hwpos : 0 < w := hslot ▸ hv.size
          unfold sharedMemory at hs
          split at hs
          · cases hs
          · cases hs
            have hn : ((vs.length : Int) * w).toNat = vs.length * w := by
              have : (vs.length : Int) * w = ((vs.length * w : Nat) : Int) := by push_cast; rfl
              rw [this, Int.toNat_natCast]
            rw [hn] at hv hslot ⊢
            have hle : 0 + ys.length ≤ (List.replicate (alloc (vs.length * w)) (0 : UInt8)).length := by
              rw [List.length_replicate]; have := ha (vs.length * w); omega
            have hbl := writeAt_length hle
            rw [List.length_replicate] at hbl
            have hlen : (⟨c, writeAt (List.replicate (alloc (vs.length * w)) 0) 0 ys⟩ : Buffer).len = alloc (vs.length * w) / w := by
              rw [Buffer.len, hslot, hbl]
            have hge : vs.length ≤ alloc (vs.length * w) / w := (Nat.le_div_iff_mul_le hwpos).2 (ha _)
            refine ⟨hlen ▸ hge, fun e => ?_, fun i hi' => ⟨_, hi i hi', ?_⟩⟩
            · rw [hslot] at e; rw [hlen, e, Nat.mul_div_cancel _ hwpos]
            · unfold Buffer.get
              rw [Buffer.offset_nonneg (by rw [hlen]; omega)]
              dsimp only
              rw [if_neg, hslot]
              · congr 2
                have hs : (writeAt (List.replicate (alloc (vs.length * w)) 0) 0 ys) = ys ++ (List.replicate (alloc (vs.length * w)) (0 : UInt8)).drop ys.length := by
                  simp [writeAt]
                have hin : i * w + w ≤ ys.length := by
                  rw [hl]; calc i * w + w = (i + 1) * w := by ring
                    _ ≤ _ := Nat.mul_le_mul_right _ hi'
                rw [hs, List.drop_append_of_le_length (by omega), List.take_append_of_le_length (by rw [List.length_drop]; omega)]
              · rintro rfl
                have := packAll_x hp
                subst this; exact absurd hi' (by simp)
  · cases h

/-- C53, writing: a successful write changes the slot that it is addressed to and no other, and keeps the length. -/
theorem C53_set {cd : Codec V} (hc : cd.Ok) {b b' : Buffer} (hb : b.Valid) {i : Nat} {v : V} (hi : i < b.len) (h : b.set cd i v = .ok b') :
    b'.len = b.len ∧ b'.dtype = b.dtype ∧ (∃ ys, cd.enc b.dtype v = .ok ys ∧ b'.get cd i = .ok (cd.dec b.dtype ys)) ∧
      ∀ j : Nat, j ≠ i → b'.get cd j = b.get cd j := by
  unfold Buffer.set at h
  rw [Buffer.offset_nonneg hi] at h
  dsimp only at h
  split at h
  · cases h
  · next hx =>
    split at h
    · cases h
    · next ys hy =>
      cases h
      have hl := hc.length hb.code hy
      have hin := slot_in hi
      have hbl := writeAt_length (bs := b.bytes) (off := i * b.slot) (ys := ys) (by omega)
      have hslot : (⟨b.dtype, writeAt b.bytes (i * b.slot) ys⟩ : Buffer).slot = b.slot := rfl
      have hlen : (⟨b.dtype, writeAt b.bytes (i * b.slot) ys⟩ : Buffer).len = b.len := by
        rw [Buffer.len, hslot, hbl]; rfl
      refine ⟨hlen, rfl, ⟨ys, hy, ?_⟩, fun j hj => ?_⟩
      · unfold Buffer.get
        rw [Buffer.offset_nonneg (by rw [hlen]; exact hi)]
        dsimp only
        have := writeAt_same (bs := b.bytes) (off := i * b.slot) (ys := ys) (by omega)
        rw [hl] at this
        rw [if_neg hx, hslot, this]
      · by_cases hjl : j < b.len
        · unfold Buffer.get
          rw [Buffer.offset_nonneg (by rw [hlen]; exact hjl), Buffer.offset_nonneg hjl]
          dsimp only
          rw [hslot, writeAt_other (by omega)]
          rw [hl]
          exact slots_disjoint hj
        · unfold Buffer.get
          rw [Buffer.offset_past (by rw [hlen]; omega), Buffer.offset_past (by omega)]

/-- C53, a write to an existing slot succeeds if the value can be encoded. -/
theorem C53_set_succeeds {cd : Codec V} {b : Buffer} {i : Nat} {v : V} {ys : List UInt8} (hi : i < b.len) (hx : b.dtype ≠ 'x')
    (hy : cd.enc b.dtype v = .ok ys) : ∃ b', b.set cd i v = .ok b' := by
  unfold Buffer.set
  rw [Buffer.offset_nonneg hi]
  dsimp only
  rw [if_neg hx, hy]
  exact ⟨_, rfl⟩

/-- C53, bounds: positions past the end are refused with `IndexError`, on reading and on writing. -/
theorem C53_past {cd : Codec V} {b : Buffer} {p : Int} (h : (b.len : Int) ≤ p) (v : V) :
    b.get cd p = .error .indexError ∧ b.set cd p v = .error .indexError := by
  unfold Buffer.get Buffer.set
  rw [Buffer.offset_past h]
  exact ⟨rfl, rfl⟩

/-- C53, negative positions: if the block holds a whole number of slots, they count from the end as in a list. Before the beginning, the exception
is `struct.error`, and not the `IndexError` of a list. -/
theorem C53_negative {cd : Codec V} {b : Buffer} (hb : b.Valid) (hex : b.len * b.slot = b.bytes.length) (k : Nat) (hk : 0 < k) (v : V) :
    (k ≤ b.len → b.get cd (-k) = b.get cd (b.len - k : Nat) ∧ b.set cd (-k) v = b.set cd (b.len - k : Nat) v) ∧
      (b.len < k → b.get cd (-k) = .error .structError ∧ b.set cd (-k) v = .error .structError) := by
  unfold Buffer.get Buffer.set
  rw [Buffer.offset_neg hb hex (by omega)]
  refine ⟨fun h => ?_, fun h => ?_⟩
  · rw [if_neg (by omega), Buffer.offset_nonneg (by omega)]
    have : (-(k : Int) + b.len).toNat = b.len - k := by omega
    rw [this]
    exact ⟨rfl, rfl⟩
  · rw [if_pos (by omega)]
    exact ⟨rfl, rfl⟩

/-- C53, `list(b)`: iterating over a buffer yields its slots in order. -/
theorem C53_list {cd : Codec V} {b : Buffer} {vs : List V} (hl : vs.length = b.len) (h : ∀ i (hi : i < vs.length), b.get cd i = .ok vs[i]) :
    b.toList cd = .ok vs := by
  have key : ∀ (n : Nat) (hn : n ≤ vs.length), (List.range n).mapM (fun i : Nat => b.get cd i) = .ok (vs.take n) := by
    intro n
    induction n with
    | zero => intro _; rfl
    | succ n ih =>
      intro hn
      rw [List.range_succ, List.mapM_append, ih (by omega)]
      simp only [List.mapM_cons, List.mapM_nil, h n (by omega)]
      change Except.ok (vs.take n ++ [vs[n]]) = _
      rw [List.take_succ_eq_append_getElem (by omega)]
  unfold Buffer.toList
  rw [← hl, key _ le_rfl, List.take_length]

/-- C53, rejected arguments: formats of more than one character, unknown ones, those of size zero, and empty sequences are `ValueError`s. -/
theorem C53_rejects (cd : Codec V) (alloc : Nat → Nat) :
    (∀ x dtype, dtype.length ≠ 1 → mkBuffer cd alloc x dtype = .error .valueError) ∧
      (∀ x c, calcsize c = none ∨ calcsize c = some 0 → mkBuffer cd alloc x [c] = .error .valueError) ∧
      (∀ dtype, mkBuffer cd alloc (.inl []) dtype = .error .valueError) ∧
      (∀ (n : Int) dtype, n ≤ 0 → mkBuffer cd alloc (.inr n) dtype = .error .valueError) := by
  refine ⟨fun x dtype h => ?_, fun x c h => ?_, fun dtype => ?_, fun n dtype hn => ?_⟩
  · unfold mkBuffer
    split
    · simp at h
    · rfl
  · unfold mkBuffer
    dsimp only
    rcases h with h | h
    · rw [h]
    · rw [h]; cases x <;> simp [sharedMemory]
  · unfold mkBuffer
    split
    · split
      · rfl
      · simp [sharedMemory]
    · rfl
  · unfold mkBuffer
    split
    · split
      · rfl
      · next w hw =>
        dsimp only
        have : n * w ≤ 0 := Int.mul_nonpos_of_nonpos_of_nonneg hn (by omega)
        simp [sharedMemory, this]
    · rfl

/-- The bytes of small numbers, for the examples. -/
def byteCodec : Codec Nat where
  enc c v := if v < 256 then .ok ((UInt8.ofNat v :: List.replicate ((calcsize c).getD 0) 0).take ((calcsize c).getD 0)) else .error .structError
  dec _ ys := (ys.headD 0).toNat

theorem byteCodec_ok : byteCodec.Ok where
  length {c v ys w} hw h := by
    dsimp only [byteCodec] at h
    split at h
    · cases h
      simp [hw]
    · cases h

/-- C53, rounding: a system that hands out whole pages breaks the documented `len(Buffer([1, 2, 3], 'i')) == 3`. The extra slots hold zeros, so that
the loop `while any(not c for c in completed)` of the progress bar (parallel.py:290) then never ends. -/
theorem C53_rounded_violated :
    ∃ (alloc : Nat → Nat) (b : Buffer), (∀ n, n ≤ alloc n) ∧ mkBuffer byteCodec alloc (.inl [1, 2, 3]) ['i'] = .ok b ∧ b.len = 4 ∧
      b.get byteCodec 3 = .ok 0 := by
  refine ⟨fun n => (n + 15) / 16 * 16, ⟨'i', [1, 0, 0, 0, 2, 0, 0, 0, 3, 0, 0, 0, 0, 0, 0, 0]⟩, fun n => by dsimp only; omega, ?_, ?_, ?_⟩ <;>
    decide +kernel

/-! The hypotheses are met: a buffer of three `i`. -/

example : ∃ b, mkBuffer byteCodec id (.inl [1, 2, 3]) ['i'] = .ok b ∧ b.len = 3 ∧ b.toList byteCodec = .ok [1, 2, 3] ∧
    b.get byteCodec (-1) = .ok 3 ∧ b.get byteCodec (-4) = .error .structError ∧ b.get byteCodec 3 = .error .indexError ∧
    (b.set byteCodec 1 7).toOption.map (fun b => (b.toList byteCodec).toOption) = some (some [1, 7, 3]) := by
  refine ⟨⟨'i', [1, 0, 0, 0, 2, 0, 0, 0, 3, 0, 0, 0]⟩, ?_⟩
  decide +kernel

end TNCO
