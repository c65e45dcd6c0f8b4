import Verif.Lemmas.SampleStep
import Mathlib.Tactic.LinearCombination
import Mathlib.Tactic.FieldSimp

/-! # One step of the sampler: one-qubit gates -/

namespace TNCO
variable {Q K R : Type} [DecidableEq Q] [Field K] [StarRing K] [DecidableEq K] [Field R] [LinearOrder R] [IsStrictOrderedRing R]

omit [StarRing K] [DecidableEq K] in
theorem applyGate_one {g : NDArray K × List Q} {q : Q} (hg : g.2 = [q]) (ψ : (Q → ℕ) → K) (x : Q → ℕ) :
    applyGate g ψ x = g.1.get [x q, 0] * ψ (Function.update x q 0) + g.1.get [x q, 1] * ψ (Function.update x q 1) := by
  unfold applyGate entry
  rw [hg]
  simp [sumOver, Finset.sum_range_succ, binVal]

/-- A unitary gate keeps the sum of the two probabilities of a qubit. -/
theorem unitary_pair {sq : K → R} (A : IsAbsSq sq) {g : NDArray K × List Q} {q : Q} (hg : g.2 = [q]) (hu : IsUnitary g) (ψ : (Q → ℕ) → K)
    (u : Q → ℕ) :
    sq (applyGate g ψ (Function.update u q 0)) + sq (applyGate g ψ (Function.update u q 1)) =
      sq (ψ (Function.update u q 0)) + sq (ψ (Function.update u q 1)) := by
  apply A.inj
  rw [map_add, map_add, A.emb_sq, A.emb_sq, A.emb_sq, A.emb_sq, applyGate_one hg, applyGate_one hg]
  simp only [Function.update_self, Function.update_idem]
  unfold IsUnitary at hu
  simp only [hg, List.length_singleton, pow_one, Finset.sum_range_succ, Finset.sum_range_zero, zero_add] at hu
  have h00 := hu 0 (by omega) 0 (by omega)
  have h01 := hu 0 (by omega) 1 (by omega)
  have h10 := hu 1 (by omega) 0 (by omega)
  have h11 := hu 1 (by omega) 1 (by omega)
  simp only [if_true, zero_ne_one, one_ne_zero, if_false] at h00 h01 h10 h11
  generalize ψ (Function.update u q 0) = a at *
  generalize ψ (Function.update u q 1) = b at *
  simp only [star_add, star_mul]
  linear_combination star a * a * h00 + star a * b * h01 + star b * a * h10 + star b * b * h11

/-- The distribution after a one-qubit gate: what the sampler does with the bit of the qubit. -/
theorem quantum_step {sq : K → R} (A : IsAbsSq sq) {g : NDArray K × List Q} {q : Q} (hg : g.2 = [q]) (hu : IsUnitary g)
    {qubits : List Q} (hn : qubits.Nodup) (hq : q ∈ qubits) (ψ : (Q → ℕ) → K) (h W : List ℕ → R)
    (hW : ∀ x, BitVals x → sq (ψ x) ≠ 0 →
      W (qubits.map x) = sq (applyGate g ψ (Function.update x q (1 - x q))) /
          (sq (applyGate g ψ x) + sq (applyGate g ψ (Function.update x q (1 - x q)))) * h (qubits.map (Function.update x q (1 - x q))) +
        (1 - sq (applyGate g ψ (Function.update x q (1 - x q))) /
          (sq (applyGate g ψ x) + sq (applyGate g ψ (Function.update x q (1 - x q))))) * h (qubits.map x)) :
    sumOver (fun _ => 2) qubits (fun x => sq (ψ x) * W (qubits.map x)) (fun _ => 0) =
      sumOver (fun _ => 2) qubits (fun x => sq (applyGate g ψ x) * h (qubits.map x)) fun _ => 0 := by
  have hp : qubits.Perm ((qubits.filter fun p => p ≠ q) ++ [q]) := by
    refine (List.perm_ext_iff_of_nodup hn ?_).2 fun p => ?_
    · refine List.nodup_append'.2 ⟨hn.filter _, by simp, fun p h1 h2 => ?_⟩
      have := (List.mem_filter.1 h1).2
      simp only [decide_eq_true_eq] at this
      exact this (List.mem_singleton.1 h2)
    · simp only [List.mem_append, List.mem_filter, decide_eq_true_eq, List.mem_singleton]
      by_cases h : p = q
      · simp [h, hq]
      · simp [h]
  rw [sumOver_perm hp hn, sumOver_perm hp hn, sumOver_append, sumOver_append]
  refine sumOver_congr fun u h1 h2 => ?_
  have hub : BitVals u := by
    intro p
    by_cases hm : p ∈ qubits.filter fun p => p ≠ q
    · exact h2 p hm
    · rw [h1 p hm]; omega
  simp only [sumOver, Finset.sum_range_succ, Finset.sum_range_zero, zero_add]
  have e := unitary_pair A hg hu ψ u
  have hbit : ∀ i < 2, BitVals (Function.update u q i) := by
    intro i hi p
    by_cases hp : p = q
    · subst hp; simpa using hi
    · rw [Function.update_of_ne hp]; exact hub p
  have w0 := hW _ (hbit 0 (by omega))
  have w1 := hW _ (hbit 1 (by omega))
  simp only [Function.update_self, Function.update_idem, Nat.sub_zero, Nat.sub_self] at w0 w1
  have n0 := A.nonneg (ψ (Function.update u q 0))
  have n1 := A.nonneg (ψ (Function.update u q 1))
  have m0 := A.nonneg (applyGate g ψ (Function.update u q 0))
  have m1 := A.nonneg (applyGate g ψ (Function.update u q 1))
  generalize sq (ψ (Function.update u q 0)) = a at *
  generalize sq (ψ (Function.update u q 1)) = b at *
  generalize sq (applyGate g ψ (Function.update u q 0)) = a' at *
  generalize sq (applyGate g ψ (Function.update u q 1)) = b' at *
  generalize W (qubits.map (Function.update u q 0)) = W0 at *
  generalize W (qubits.map (Function.update u q 1)) = W1 at *
  generalize h (qubits.map (Function.update u q 0)) = x0 at *
  generalize h (qubits.map (Function.update u q 1)) = x1 at *
  by_cases hs : a + b = 0
  · have ha : a = 0 := by linarith
    have hb : b = 0 := by linarith
    have ha' : a' = 0 := by linarith
    have hb' : b' = 0 := by linarith
    rw [ha, hb, ha', hb']
    ring
  · have hs' : a' + b' ≠ 0 := by rwa [e]
    have k0 : a * W0 = a * ((a' * x0 + b' * x1) / (a' + b')) := by
      by_cases ha : a = 0
      · rw [ha, zero_mul, zero_mul]
      · rw [w0 ha]
        congr 1
        field_simp
        ring
    have k1 : b * W1 = b * ((a' * x0 + b' * x1) / (a' + b')) := by
      by_cases hb : b = 0
      · rw [hb, zero_mul, zero_mul]
      · rw [w1 hb]
        congr 1
        rw [add_comm b' a']
        field_simp
        ring
    rw [k0, k1, ← add_mul, ← e]
    field_simp

omit [StarRing K] [DecidableEq K] in
/-- Factors which do not depend on the qubits of the gates can be taken out. -/
theorem run_factor (gates : List (NDArray K × List Q)) (f φ : (Q → ℕ) → K)
    (hf : ∀ x y, (∀ q, q ∉ gates.flatMap Prod.snd → x q = y q) → f x = f y) :
    runCircuit gates (fun x => f x * φ x) = fun x => f x * runCircuit gates φ x := by
  induction gates generalizing φ with
  | nil => rfl
  | cons g gs ih =>
    change runCircuit gs (applyGate g fun x => f x * φ x) = fun x => f x * runCircuit gs (applyGate g φ) x
    have : applyGate g (fun x => f x * φ x) = fun x => f x * applyGate g φ x := by
      funext x
      unfold applyGate
      rw [← sumOver_mul_left f _ fun y hy => hf y x fun q hq => hy q fun hm => hq (by simp [hm])]
      exact sumOver_congr fun y _ _ => by ring
    rw [this]
    exact ih _ fun x y h => hf x y fun q hq => h q fun hm => hq (by
      rw [List.flatMap_cons, List.mem_append]; exact Or.inr hm)

omit [StarRing K] [DecidableEq K] in
/-- The state depends only on the qubits that its initial value depends on, and on those of the gates. -/
theorem run_depends (gates : List (NDArray K × List Q)) (T : List Q) (hn : ∀ g ∈ gates, g.2.Nodup) (hT : ∀ q ∈ gates.flatMap Prod.snd, q ∈ T)
    (φ : (Q → ℕ) → K) (hφ : ∀ x y, (∀ q ∈ T, x q = y q) → φ x = φ y) :
    ∀ x y, (∀ q ∈ T, x q = y q) → runCircuit gates φ x = runCircuit gates φ y := by
  induction gates generalizing φ with
  | nil => exact hφ
  | cons g gs ih =>
    have hgT : ∀ q ∈ g.2, q ∈ T := fun q hq => hT q (by rw [List.flatMap_cons, List.mem_append]; exact Or.inl hq)
    refine ih (fun g hg => hn g (by simp [hg])) (fun q hq => hT q (by rw [List.flatMap_cons, List.mem_append]; exact Or.inr hq)) (applyGate g φ)
      fun x y h => ?_
    unfold applyGate
    refine sumOver_congr_base fun z z' h1 h2 h3 => ?_
    have hz : ∀ q ∈ T, z q = z' q := by
      intro q hq
      by_cases hm : q ∈ g.2
      · exact (h3 q hm).2
      · rw [h1 q hm, h2 q hm, h q hq]
    rw [entry_congr (fun q hq => h q (hgT q hq)) (fun q hq => hz q (hgT q hq)), hφ z z' hz]

omit [StarRing K] [DecidableEq K] in
/-- Qubits that no gate acts on can be left out of the state. -/
theorem run_zero (gates : List (NDArray K × List Q)) (qubits T : List Q) (hT : ∀ q, q ∈ T ↔ q ∈ gates.flatMap Prod.snd) (hq : ∀ q ∈ T, q ∈ qubits)
    (x : Q → ℕ) : runCircuit gates (zeroState qubits) x =
      (if ∀ q ∈ qubits, q ∉ gates.flatMap Prod.snd → x q = 0 then 1 else 0) * runCircuit gates (zeroState T) x := by
  have := run_factor gates (fun x => if ∀ q ∈ qubits, q ∉ gates.flatMap Prod.snd → x q = 0 then 1 else 0) (zeroState T : (Q → ℕ) → K) (by
    intro x y h
    have : (∀ q ∈ qubits, q ∉ gates.flatMap Prod.snd → x q = 0) ↔ ∀ q ∈ qubits, q ∉ gates.flatMap Prod.snd → y q = 0 :=
      ⟨fun h' q h1 h2 => (h q h2).symm.trans (h' q h1 h2), fun h' q h1 h2 => (h q h2).trans (h' q h1 h2)⟩
    simp only [this])
  rw [← congrFun this x]
  congr 1
  funext y
  unfold zeroState
  rw [ite_mul, one_mul, zero_mul, ← ite_and]
  congr 1
  rw [eq_iff_iff]
  refine ⟨fun h => ⟨fun q h1 _ => h q h1, fun q h1 => h q (hq q h1)⟩, fun h q h1 => ?_⟩
  by_cases hm : q ∈ gates.flatMap Prod.snd
  · exact h.2 q ((hT q).2 hm)
  · exact h.1 q h1 hm

end TNCO
