import Verif.Lemmas.SampleClassical
import Verif.Lemmas.SumFix
import Mathlib.Algebra.BigOperators.Fin
import Mathlib.Tactic.Ring
import Mathlib.Tactic.Linarith

/-! # One step of the sampler: classical operations -/

namespace TNCO
variable {Q K R : Type} [DecidableEq Q] [Field K] [StarRing K] [DecidableEq K] [Field R] [LinearOrder R] [IsStrictOrderedRing R]

omit [DecidableEq K] in
theorem monomial_unitary {g : NDArray K × List Q} (h : IsMonomial (2 ^ g.2.length) g.1) : IsUnitary g := by
  obtain ⟨⟨σ, hσ⟩, h1⟩ := h
  intro r hr c hc
  rw [Finset.sum_range fun k => star (g.1.get [k, r]) * g.1.get [k, c]]
  rw [Finset.sum_eq_single (σ ⟨c, hc⟩)]
  · split
    · rename_i e
      subst e
      exact h1 _ ⟨r, hr⟩ ((hσ _ ⟨r, hr⟩).2 rfl)
    · rename_i e
      have : g.1.get [((σ ⟨c, hc⟩ : Fin _) : ℕ), r] = 0 := by
        by_contra hne
        have := (hσ (σ ⟨c, hc⟩) ⟨r, hr⟩).1 hne
        exact e (Fin.mk.inj (σ.injective this)).symm
      rw [this, star_zero, zero_mul]
  · intro i _ hi
    have : g.1.get [(i : ℕ), c] = 0 := by
      by_contra hne
      exact hi ((hσ i ⟨c, hc⟩).1 hne)
    rw [this, mul_zero]
  · simp

theorem binVal_cons (b : ℕ) (l : List ℕ) : binVal (b :: l) = b * 2 ^ l.length + binVal l := by
  have key : ∀ (l : List ℕ) (n : ℕ), l.foldl (fun n b => 2 * n + b) n = n * 2 ^ l.length + binVal l := by
    intro l
    induction l with
    | nil => simp [binVal]
    | cons b l ih =>
      intro n
      simp only [List.foldl_cons, binVal, List.length_cons]
      rw [ih, ih]
      ring
  unfold binVal
  rw [List.foldl_cons, key]
  simp [binVal]

theorem bitList_succ (n k : ℕ) : bitList (n + 1) k = (k / 2 ^ n % 2) :: bitList n k := by
  unfold bitList
  rw [List.range_succ_eq_map, List.map_cons, List.map_map]
  congr 1
  refine List.map_congr_left fun i _ => ?_
  simp only [Function.comp, Nat.add_sub_cancel]
  rw [show n - (i + 1) = n - 1 - i by omega]

theorem bitList_length (n k : ℕ) : (bitList n k).length = n := by simp [bitList]

theorem bitList_lt {n k b : ℕ} (h : b ∈ bitList n k) : b < 2 := by
  obtain ⟨i, -, rfl⟩ := List.mem_map.1 h
  exact Nat.mod_lt _ (by omega)

theorem binVal_toBits (n k : ℕ) : binVal (bitList n k) = k % 2 ^ n := by
  induction n with
  | zero => simp [bitList, binVal, Nat.mod_one]
  | succ n ih =>
    rw [bitList_succ, binVal_cons, bitList_length, ih, Nat.mod_pow_succ]
    ring

/-- The assignment that gives the qubits `qs` the binary digits of `k`, and is `u` otherwise. -/
def digits (qs : List Q) (u : Q → ℕ) (k : ℕ) (q : Q) : ℕ := if q ∈ qs then (bitList qs.length k).getD (qs.idxOf q) 0 else u q

theorem digits_map {qs : List Q} (hn : qs.Nodup) (u : Q → ℕ) (k : ℕ) : qs.map (digits qs u k) = bitList qs.length k := by
  apply List.ext_getElem
  · simp [bitList_length]
  · intro i h1 h2
    rw [List.length_map] at h1
    rw [List.getElem_map]
    unfold digits
    rw [if_pos (List.getElem_mem _), hn.idxOf_getElem i h1, List.getD_eq_getElem _ _ h2]

theorem digits_binVal {qs : List Q} (hn : qs.Nodup) (u : Q → ℕ) {k : ℕ} (hk : k < 2 ^ qs.length) : binVal (qs.map (digits qs u k)) = k := by
  rw [digits_map hn, binVal_toBits, Nat.mod_eq_of_lt hk]

theorem digits_lt {qs : List Q} (u : Q → ℕ) (k : ℕ) : ∀ q ∈ qs, digits qs u k q < 2 := by
  intro q hq
  unfold digits
  rw [if_pos hq, List.getD_eq_getElem _ _ (by rw [bitList_length]; exact List.idxOf_lt_length_of_mem hq)]
  exact bitList_lt (List.getElem_mem _)

theorem digits_not {qs : List Q} {u : Q → ℕ} {k : ℕ} {q : Q} (h : q ∉ qs) : digits qs u k q = u q := if_neg h

theorem digits_bits {qs : List Q} {u : Q → ℕ} (hu : BitVals u) (k : ℕ) : BitVals (digits qs u k) := by
  intro q
  by_cases h : q ∈ qs
  · exact digits_lt u k q h
  · rw [digits_not h]; exact hu q

theorem eq_digits {qs : List Q} (hn : qs.Nodup) {u x : Q → ℕ} (h1 : ∀ q, q ∉ qs → x q = u q) (h2 : ∀ q ∈ qs, x q < 2) :
    x = digits qs u (binVal (qs.map x)) := by
  funext q
  by_cases h : q ∈ qs
  · exact binVal_inj h2 (digits_lt _ _) (digits_binVal hn u (binVal_lt h2)).symm q h
  · rw [digits_not h, h1 q h]

/-- Sums over the values of distinct qubits, as sums over numbers. -/
theorem sumOver_digits {qs : List Q} (hn : qs.Nodup) {A : Type} [CommRing A] (F : (Q → ℕ) → A) (u : Q → ℕ) :
    sumOver (fun _ => 2) qs F u = ∑ k : Fin (2 ^ qs.length), F (digits qs u k) := by
  rw [← Finset.sum_range fun k => F (digits qs u k), sum_binVal hn (fun k => F (digits qs u k)) u]
  exact sumOver_congr fun g h1 h2 => by rw [← eq_digits hn h1 h2]

theorem getD_idxOf {qubits : List Q} {q : Q} (hq : q ∈ qubits) (x : Q → ℕ) : (qubits.map x).getD (qubits.idxOf q) 0 = x q := by
  have h := List.idxOf_lt_length_of_mem hq
  rw [List.getD_eq_getElem _ _ (by simpa using h), List.getElem_map, List.getElem_idxOf h]

theorem set_idxOf {qubits : List Q} (hn : qubits.Nodup) (q : Q) (x : Q → ℕ) (v : ℕ) :
    (qubits.map x).set (qubits.idxOf q) v = qubits.map (Function.update x q v) := by
  induction qubits with
  | nil => rfl
  | cons p l ih =>
    have hp : p ∉ l := (List.nodup_cons.1 hn).1
    by_cases h : p = q
    · subst h
      simp only [List.idxOf_cons_self, List.map_cons, List.set_cons_zero, Function.update_self]
      congr 1
      exact (List.map_congr_left fun r hr => Function.update_of_ne (fun e : r = p => hp (e ▸ hr)) _ _).symm
    · rw [List.idxOf_cons_ne _ h, List.map_cons, List.set_cons_succ, ih (List.nodup_cons.1 hn).2, List.map_cons, Function.update_of_ne h]

theorem setBits_map {qubits : List Q} (hn : qubits.Nodup) (qs : List Q) (x y : Q → ℕ) :
    setBits (qubits.map x) (qs.map fun q => qubits.idxOf q) (qs.map y) = qubits.map fun q => if q ∈ qs then y q else x q := by
  induction qs generalizing x with
  | nil => simp [setBits]
  | cons p l ih =>
    simp only [List.map_cons, setBits]
    rw [set_idxOf hn, ih]
    refine List.map_congr_left fun q _ => ?_
    by_cases h1 : q ∈ l
    · simp [h1]
    · by_cases h2 : q = p
      · subst h2; simp [h1]
      · simp [h1, h2, Function.update_of_ne h2]

/-- A classical operation maps the bitstring as the permutation says. -/
theorem stepClassical_eq {g : NDArray K × List Q} (hg : IsGate g) {σ : Equiv.Perm (Fin (2 ^ g.2.length))}
    (hσ : ∀ i j : Fin (2 ^ g.2.length), g.1.get [(i : ℕ), j] ≠ 0 ↔ i = σ j) {qubits : List Q} (hn : qubits.Nodup) (hq : ∀ q ∈ g.2, q ∈ qubits)
    {x : Q → ℕ} (hx : ∀ q ∈ g.2, x q < 2) :
    stepClassical qubits ⟨g.1.shape, fun k => if g.1.data k ≠ 0 then 1 else 0⟩ g.2 (qubits.map x) =
      .ok (qubits.map (digits g.2 x (σ ⟨binVal (g.2.map x), binVal_lt hx⟩))) := by
  unfold stepClassical locate
  rw [if_pos hq]
  simp only [hg.shape, if_neg hg.nonempty, if_true]
  have hk : ((g.2.map fun q => qubits.idxOf q).map fun i => (qubits.map x).getD i 0) = g.2.map x := by
    rw [List.map_map]
    exact List.map_congr_left fun q h => getD_idxOf (hq q h) x
  rw [hk]
  set k : Fin (2 ^ g.2.length) := ⟨binVal (g.2.map x), binVal_lt hx⟩ with hkd
  have hget : ∀ i : ℕ, (NDArray.mk [2 ^ g.2.length, 2 ^ g.2.length] fun k => if g.1.data k ≠ 0 then 1 else 0 : NDArray ℕ).get [i, binVal (g.2.map x)] =
      if g.1.get [i, (k : ℕ)] ≠ 0 then 1 else 0 := by
    intro i
    unfold NDArray.get
    rw [hg.shape]
  have hfil : (List.range (2 ^ g.2.length)).filter (fun i => decide ((NDArray.mk [2 ^ g.2.length, 2 ^ g.2.length]
      fun k => if g.1.data k ≠ 0 then 1 else 0 : NDArray ℕ).get [i, binVal (g.2.map x)] % 2 ≠ 0)) = [((σ k : Fin _) : ℕ)] := by
    have hiff : ∀ i < 2 ^ g.2.length, (NDArray.mk [2 ^ g.2.length, 2 ^ g.2.length]
      fun k => if g.1.data k ≠ 0 then 1 else 0 : NDArray ℕ).get [i, binVal (g.2.map x)] % 2 ≠ 0 ↔ i = σ k := by
      intro i hi
      rw [hget]
      have := hσ ⟨i, hi⟩ k
      by_cases h : g.1.get [i, (k : ℕ)] ≠ 0
      · rw [if_pos h]
        have h' := this.1 h
        simp [← h']
      · rw [if_neg h]
        simp only [Nat.zero_mod, ne_eq, not_true_eq_false, false_iff]
        intro e
        exact h (this.2 (Fin.ext e))
    rw [List.filter_congr (q := fun i => decide (i = (σ k : ℕ)))]
    · have hnd := (List.nodup_range (n := 2 ^ g.2.length)).filter fun i => decide (i = (σ k : ℕ))
      refine List.perm_singleton.1 ((List.perm_ext_iff_of_nodup hnd (by simp)).2 fun i => ?_)
      simp only [List.mem_filter, List.mem_range, decide_eq_true_eq, List.mem_singleton]
      exact ⟨fun h => h.2, fun h => ⟨h ▸ (σ k).2, h⟩⟩
    · intro i hi
      rw [decide_eq_decide]
      exact hiff i (List.mem_range.1 hi)
  rw [hfil]
  simp only [Except.ok.injEq]
  rw [← digits_map hg.nodup x, setBits_map hn]
  refine List.map_congr_left fun q _ => ?_
  by_cases h : q ∈ g.2
  · rw [if_pos h]
  · rw [if_neg h, digits_not h]

/-- The probabilities after a classical operation. -/
theorem classical_born {sq : K → R} (A : IsAbsSq sq) {g : NDArray K × List Q} (hg : IsGate g) {σ : Equiv.Perm (Fin (2 ^ g.2.length))}
    (hσ : ∀ i j : Fin (2 ^ g.2.length), g.1.get [(i : ℕ), j] ≠ 0 ↔ i = σ j)
    (h1 : ∀ i j : Fin (2 ^ g.2.length), g.1.get [(i : ℕ), j] ≠ 0 → star (g.1.get [(i : ℕ), j]) * g.1.get [(i : ℕ), j] = 1)
    (ψ : (Q → ℕ) → K) (u : Q → ℕ) (k : Fin (2 ^ g.2.length)) :
    sq (applyGate g ψ (digits g.2 u (σ k))) = sq (ψ (digits g.2 u k)) := by
  have hdd : ∀ a b : ℕ, digits g.2 (digits g.2 u a) b = digits g.2 u b := by
    intro a b
    funext q
    by_cases h : q ∈ g.2
    · unfold digits; rw [if_pos h, if_pos h]
    · rw [digits_not h, digits_not h, digits_not h]
  have : applyGate g ψ (digits g.2 u (σ k)) = g.1.get [((σ k : Fin _) : ℕ), (k : ℕ)] * ψ (digits g.2 u k) := by
    unfold applyGate
    rw [sumOver_digits hg.nodup]
    simp only [hdd]
    unfold entry
    rw [digits_binVal hg.nodup u (σ k).2, Finset.sum_eq_single k]
    · rw [digits_binVal hg.nodup u k.2]
    · intro j _ hj
      rw [digits_binVal hg.nodup u j.2]
      have : g.1.get [((σ k : Fin _) : ℕ), (j : ℕ)] = 0 := by
        by_contra hne
        exact hj (σ.injective ((hσ _ _).1 hne)).symm
      rw [this, zero_mul]
    · simp
  rw [this, A.mul, A.eq_one.2 (h1 _ _ ((hσ _ _).2 rfl)), one_mul]

/-- The distribution after a classical operation. -/
theorem classical_step {sq : K → R} (A : IsAbsSq sq) {g : NDArray K × List Q} (hg : IsGate g) (hm : IsMonomial (2 ^ g.2.length) g.1)
    {qubits : List Q} (hn : qubits.Nodup) (hq : ∀ q ∈ g.2, q ∈ qubits) (ψ : (Q → ℕ) → K) (h : Except PyErr (List ℕ) → R) :
    sumOver (fun _ => 2) qubits (fun x => sq (ψ x) * h (stepClassical qubits ⟨g.1.shape, fun k => if g.1.data k ≠ 0 then 1 else 0⟩ g.2 (qubits.map x)))
      (fun _ => 0) = sumOver (fun _ => 2) qubits (fun x => sq (applyGate g ψ x) * h (.ok (qubits.map x))) fun _ => 0 := by
  obtain ⟨⟨σ, hσ⟩, h1⟩ := hm
  have hp : qubits.Perm ((qubits.filter fun q => q ∉ g.2) ++ g.2) := by
    refine (List.perm_ext_iff_of_nodup hn ?_).2 fun q => ?_
    · refine List.nodup_append'.2 ⟨hn.filter _, hg.nodup, fun q h1 h2 => ?_⟩
      have := (List.mem_filter.1 h1).2
      simp only [decide_eq_true_eq] at this
      exact this h2
    · simp only [List.mem_append, List.mem_filter, decide_eq_true_eq]
      by_cases h : q ∈ g.2
      · simp [h, hq q h]
      · simp [h]
  rw [sumOver_perm hp hn, sumOver_perm hp hn, sumOver_append, sumOver_append]
  refine sumOver_congr fun u _ _ => ?_
  rw [sumOver_digits hg.nodup, sumOver_digits hg.nodup,
    ← Equiv.sum_comp σ fun k => sq (applyGate g ψ (digits g.2 u k)) * h (.ok (qubits.map (digits g.2 u k)))]
  refine Finset.sum_congr rfl fun k _ => ?_
  rw [classical_born A hg hσ h1]
  congr 1
  rw [stepClassical_eq hg hσ hn hq (digits_lt u k)]
  have : (⟨binVal (g.2.map (digits g.2 u k)), binVal_lt (digits_lt u k)⟩ : Fin (2 ^ g.2.length)) = k := Fin.ext (digits_binVal hg.nodup u k.2)
  rw [this]
  congr 2
  refine List.map_congr_left fun q _ => ?_
  by_cases h : q ∈ g.2
  · unfold digits; rw [if_pos h, if_pos h]
  · rw [digits_not h, digits_not h, digits_not h]

end TNCO
