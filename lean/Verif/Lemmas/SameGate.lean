import Verif.Lemmas.Commute

/-! The comparison of gates, adjoints. -/

namespace TNCO
variable {Q K : Type} [DecidableEq Q] [Field K] [StarRing K] [DecidableEq K]

theorem idxOf_map_inj {ι κ : Type} [DecidableEq ι] [DecidableEq κ] {e : ι → κ} (he : Function.Injective e) (B : List ι) (q : ι) :
    (B.map e).idxOf (e q) = B.idxOf q := by
  induction B with
  | nil => rfl
  | cons b B ih =>
    rw [List.map_cons]
    by_cases h : b = q
    · subst h; rw [List.idxOf_cons_self, List.idxOf_cons_self]
    · rw [List.idxOf_cons_ne _ h, List.idxOf_cons_ne _ fun h' => h (he h'), ih]

/-- The transposition of a gate in `same`. -/
theorem sameOrder_spec {ι κ : Type} [DecidableEq ι] [DecidableEq κ] {e1 e2 : ι → κ} (h1 : Function.Injective e1) (h2 : Function.Injective e2)
    (h12 : ∀ p q, e1 p ≠ e2 q) {A B : List ι} (hA : A.Nodup) (hB : B.Nodup) (hp : A.Perm B) {b : NDArray K}
    (sb : b.shape = List.replicate (2 * B.length) 2) :
    ∃ b', b.transpose ((A.map fun q => B.idxOf q) ++ (A.map fun q => B.idxOf q).map (· + A.length)) = .ok b' ∧
      b'.shape = List.replicate (2 * A.length) 2 ∧
      ∀ x y : ι → ℕ, (∀ q, x q < 2) → (∀ q, y q < 2) → b'.get (A.map x ++ A.map y) = b.get (B.map x ++ B.map y) := by
  set xs := B.map e1 ++ B.map e2 with hxs
  set ys := A.map e1 ++ A.map e2 with hys
  have hlen := hp.length_eq
  have nxs : xs.Nodup := List.Nodup.append (hB.map h1) (hB.map h2) fun p p1 p2 => by
    obtain ⟨q, -, rfl⟩ := List.mem_map.1 p1
    obtain ⟨q', -, h3⟩ := List.mem_map.1 p2
    exact h12 q q' h3.symm
  have pp : ys.Perm xs := List.Perm.append (hp.map _) (hp.map _)
  have hord : (A.map fun q => B.idxOf q) ++ (A.map fun q => B.idxOf q).map (· + A.length) = ys.map fun x => xs.idxOf x := by
    rw [hys, List.map_append, List.map_map, List.map_map, List.map_map]
    congr 1
    · refine List.map_congr_left fun q hq => ?_
      rw [Function.comp_apply, hxs, List.idxOf_append_of_mem (List.mem_map.2 ⟨q, hp.mem_iff.1 hq, rfl⟩), idxOf_map_inj h1]
    · refine List.map_congr_left fun q hq => ?_
      rw [Function.comp_apply, Function.comp_apply, hxs, List.idxOf_append_of_notMem, idxOf_map_inj h2, List.length_map, hlen, add_comm]
      intro hm
      obtain ⟨q', -, h3⟩ := List.mem_map.1 hm
      exact h12 q' q h3
  obtain ⟨b', t1, t2, t3⟩ := transpose_named (d := fun _ => 2) (a := b) (xs := xs) (ys := ys)
    (by rw [sb, List.map_const', hxs]; congr 1; simp; omega) nxs pp
  refine ⟨b', by rw [hord]; exact t1, ?_, ?_⟩
  · rw [t2, List.map_const', hys]
    congr 1
    simp
    omega
  · intro x y hx hy
    classical
    set k : κ → ℕ := fun p => if h : ∃ q, e1 q = p then x h.choose else if h : ∃ q, e2 q = p then y h.choose else 0 with hk
    have k1 : ∀ q, k (e1 q) = x q := by
      intro q
      have h : ∃ q', e1 q' = e1 q := ⟨q, rfl⟩
      rw [hk]
      simp only [dif_pos h]
      rw [h1 h.choose_spec]
    have k2 : ∀ q, k (e2 q) = y q := by
      intro q
      have h : ∃ q', e2 q' = e2 q := ⟨q, rfl⟩
      rw [hk]
      simp only [dif_neg (show ¬ ∃ q', e1 q' = e2 q from fun ⟨q', h'⟩ => h12 q' q h'), dif_pos h]
      rw [h2 h.choose_spec]
    have hkb : ∀ p ∈ xs, k p < 2 := by
      intro p hp
      rcases List.mem_append.1 hp with h | h
      · obtain ⟨q, -, rfl⟩ := List.mem_map.1 h; rw [k1]; exact hx q
      · obtain ⟨q, -, rfl⟩ := List.mem_map.1 h; rw [k2]; exact hy q
    have := t3 k hkb
    rw [hxs, hys, List.map_append, List.map_append, List.map_map, List.map_map, List.map_map, List.map_map] at this
    rw [show k ∘ e1 = x from funext k1, show k ∘ e2 = y from funext k2] at this
    exact this

theorem same_not_perm {A B : Gate Q K} (hA : IsGate A) (hB : IsGate B) (h : ¬ A.2.Perm B.2) : same A B = .ok false := by
  unfold same
  rw [(isValidGate_iff A).2 hA, (isValidGate_iff B).2 hB]
  simp only [Bool.not_true, Bool.false_eq_true, if_false]
  rw [if_pos]
  by_contra hno
  rw [not_or, not_not, not_exists] at hno
  refine h (List.Perm.symm ?_)
  refine List.Subperm.perm_of_length_le (hB.nodup.subperm fun q hq => ?_) (by omega)
  by_contra hq'
  exact hno.2 q ⟨hq, hq'⟩

/-- The comparison is exact: proportional to each other. -/
theorem same_spec {A B : Gate Q K} (hA : IsGate A) (hB : IsGate B) (hp : A.2.Perm B.2) (h0 : ∃ x y, BitVals x ∧ BitVals y ∧ entry A x y ≠ 0) :
    ∃ r, same A B = .ok r ∧ (r = true ↔ ∃ c : K, c ≠ 0 ∧ ∀ x y, BitVals x → BitVals y → entry A x y = c * entry B x y) := by
  obtain ⟨b', t1, t2, t3⟩ := sameOrder_spec (K := K) (e1 := fun q : Q => (Sum.inl q : Q ⊕ Q)) (e2 := Sum.inr) Sum.inl_injective Sum.inr_injective
    (fun p q h => by cases h) hA.nodup hB.nodup hp (b := ⟨List.replicate (2 * B.2.length) 2, B.1.data⟩) rfl
  have hb : ∀ x y, BitVals x → BitVals y → b'.get (A.2.map x ++ A.2.map y) = entry B x y := by
    intro x y hx hy
    rw [t3 x y hx hy]
    exact entry_reshape hB (a := ⟨List.replicate (2 * B.2.length) 2, B.1.data⟩) rfl rfl
  have hprod : A.1.shape.prod = (List.replicate (2 * A.2.length) 2).prod := by
    rw [hA.shape, List.prod_replicate, two_mul, pow_add]; simp
  have hpos : ∀ k < A.1.shape.prod, ∃ x y, BitVals x ∧ BitVals y ∧ A.1.data k = entry A x y ∧ b'.data k = entry B x y := by
    intro k hk
    rw [hprod] at hk
    obtain ⟨x, y, hx, hy, he⟩ := exists_bits2 hA.nodup hk
    refine ⟨x, y, hx, hy, ?_, ?_⟩
    · rw [← entry_reshape hA (a := ⟨List.replicate (2 * A.2.length) 2, A.1.data⟩) rfl rfl]
      unfold NDArray.get
      rw [he]
    · rw [← hb x y hx hy]
      unfold NDArray.get
      rw [t2, he]
  have hpos' : ∀ x y, BitVals x → BitVals y → ∃ k < A.1.shape.prod, A.1.data k = entry A x y ∧ b'.data k = entry B x y := by
    intro x y hx hy
    refine ⟨ravel (List.replicate (2 * A.2.length) 2) (A.2.map x ++ A.2.map y), ?_, ?_, ?_⟩
    · rw [hprod]
      rw [show List.replicate (2 * A.2.length) 2 = (A.2.map fun _ => 2) ++ A.2.map fun _ => 2 by rw [List.map_const', two_mul, List.replicate_add]]
      exact ravel_lt (List.rel_append (forall2_map fun q _ => hx q) (forall2_map fun q _ => hy q))
    · rw [← entry_reshape hA (a := ⟨List.replicate (2 * A.2.length) 2, A.1.data⟩) rfl rfl]
      rfl
    · rw [← hb x y hx hy]
      unfold NDArray.get
      rw [t2]
  unfold same
  rw [(isValidGate_iff A).2 hA, (isValidGate_iff B).2 hB]
  simp only [Bool.not_true, Bool.false_eq_true, if_false]
  rw [if_neg, if_neg, reshape_gate hB]
  · simp only
    rw [t1]
    simp only
    by_cases hmis : ∃ k < A.1.shape.prod, ¬ (A.1.data k ≠ 0 ↔ b'.data k ≠ 0)
    · rw [if_pos hmis]
      refine ⟨false, rfl, ?_⟩
      simp only [Bool.false_eq_true, false_iff]
      rintro ⟨c, hc, he⟩
      obtain ⟨k, hk, hne⟩ := hmis
      obtain ⟨x, y, hx, hy, e1, e2⟩ := hpos k hk
      apply hne
      rw [e1, e2, he x y hx hy]
      constructor
      · intro h h'; exact h (by rw [h', mul_zero])
      · intro h; exact mul_ne_zero hc h
    · rw [if_neg hmis]
      have hm : ∀ k < A.1.shape.prod, A.1.data k ≠ 0 ↔ b'.data k ≠ 0 := fun k hk => by
        by_contra h; exact hmis ⟨k, hk, h⟩
      obtain ⟨x0, y0, hx0, hy0, hne⟩ := h0
      obtain ⟨k0, hk0, e0, -⟩ := hpos' x0 y0 hx0 hy0
      have hin : A.1.data k0 / b'.data k0 ∈ ((List.range A.1.shape.prod).filter fun k => A.1.data k ≠ 0).map fun k => A.1.data k / b'.data k :=
        List.mem_map.2 ⟨k0, List.mem_filter.2 ⟨List.mem_range.2 hk0, by rw [decide_eq_true_eq, e0]; exact hne⟩, rfl⟩
      split
      · rename_i hW
        rw [hW] at hin
        simp at hin
      · rename_i w rest hW
        refine ⟨_, rfl, ?_⟩
        rw [decide_eq_true_eq]
        have memW : ∀ v, v ∈ (((List.range A.1.shape.prod).filter fun k => A.1.data k ≠ 0).map fun k => A.1.data k / b'.data k) ↔
            ∃ k < A.1.shape.prod, A.1.data k ≠ 0 ∧ A.1.data k / b'.data k = v := by
          intro v
          simp only [List.mem_map, List.mem_filter, List.mem_range, decide_eq_true_eq, and_assoc]
        constructor
        · intro hall
          have hw : w ∈ (((List.range A.1.shape.prod).filter fun k => A.1.data k ≠ 0).map fun k => A.1.data k / b'.data k) := by
            rw [hW]; simp
          obtain ⟨k, hk, hka, hkw⟩ := (memW w).1 hw
          refine ⟨w, ?_, ?_⟩
          · rw [← hkw]
            exact div_ne_zero hka ((hm k hk).1 hka)
          · intro x y hx hy
            obtain ⟨k, hk, e1, e2⟩ := hpos' x y hx hy
            rw [← e1, ← e2]
            by_cases hz : A.1.data k = 0
            · have : b'.data k = 0 := by
                by_contra h; exact (hm k hk).2 h hz
              rw [hz, this, mul_zero]
            · have := hall _ ((memW _).2 ⟨k, hk, hz, rfl⟩)
              rw [← this, div_mul_cancel₀ _ ((hm k hk).1 hz)]
        · rintro ⟨c, -, he⟩ v hv
          have hw : w ∈ (((List.range A.1.shape.prod).filter fun k => A.1.data k ≠ 0).map fun k => A.1.data k / b'.data k) := by
            rw [hW]; simp
          have key : ∀ v, v ∈ (((List.range A.1.shape.prod).filter fun k => A.1.data k ≠ 0).map fun k => A.1.data k / b'.data k) → v = c := by
            intro v hv
            obtain ⟨k, hk, hka, hkw⟩ := (memW v).1 hv
            obtain ⟨x, y, hx, hy, e1, e2⟩ := hpos k hk
            rw [← hkw, e1, he x y hx hy, ← e2, mul_div_cancel_right₀ _ ((hm k hk).1 hka)]
          rw [key v hv, key w hw]
  · rintro ⟨q, h1, h2⟩
    exact h2 (hp.mem_iff.1 h1)
  · rintro (h | ⟨q, h1, h2⟩)
    · exact h hp.length_eq
    · exact h2 (hp.mem_iff.2 h1)

theorem applyGate_perm {A B : Gate Q K} (hA : A.2.Nodup) (hp : A.2.Perm B.2) {c : K}
    (h : ∀ x y, BitVals x → BitVals y → entry A x y = c * entry B x y) (ψ : (Q → ℕ) → K) {x : Q → ℕ} (hx : BitVals x) :
    applyGate A ψ x = c * applyGate B ψ x := by
  unfold applyGate
  rw [sumOver_perm hp hA, ← sumOver_mul_left (fun _ => c) _ fun _ _ => rfl]
  refine sumOver_congr fun y h1 h2 => ?_
  rw [h x y hx (bits_of hx h1 h2), mul_assoc]

/-- The adjoint of a gate. -/
theorem gateAdjoint_spec {g : Gate Q K} (hg : IsGate g) :
    ∃ adj, gateAdjoint g = .ok adj ∧ adj.2 = g.2 ∧ IsGate adj ∧
      ∀ x y, BitVals x → BitVals y → entry adj x y = star (entry g y x) := by
  set c : NDArray K := ⟨g.1.shape, fun k => star (g.1.data k)⟩ with hc
  set n := 2 ^ g.2.length with hn
  obtain ⟨b, h1, h2, h3⟩ := transpose_named (a := c) (xs := [0, 1]) (ys := [1, 0]) (d := fun _ : ℕ => n) (by rw [hc]; exact hg.shape) (by decide)
    (List.Perm.swap 0 1 [])
  refine ⟨(b, g.2), ?_, rfl, ⟨hg.nonempty, hg.nodup, h2⟩, ?_⟩
  · unfold gateAdjoint
    have : (List.range g.1.ndim).reverse = [1, 0].map fun x => [0, 1].idxOf x := by
      unfold NDArray.ndim
      rw [hg.shape]
      rfl
    rw [this, ← hc, h1]
  · intro x y hx hy
    have := h3 (fun k => if k = 0 then binVal (g.2.map y) else binVal (g.2.map x)) (by
      intro k _
      split
      · exact binVal_lt fun q _ => hy q
      · exact binVal_lt fun q _ => hx q)
    simp only [List.map_cons, List.map_nil, if_neg (show (1 : ℕ) ≠ 0 by decide), if_true] at this
    unfold entry
    change b.get [binVal (g.2.map x), binVal (g.2.map y)] = _
    rw [this, hc]
    rfl

end TNCO
