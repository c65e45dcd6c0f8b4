import Verif.Lemmas.Simplify
import Mathlib.Algebra.Star.Rat

/-!
# C37: simplifying a circuit
-/

namespace TNCO
variable {Q K : Type} [DecidableEq Q] [Field K] [StarRing K] [DecidableEq K]

/-- C37: for every circuit of unitary gates, simplification terminates without error; what is left is a subsequence of the circuit, an even number of
gates was removed, a further pass changes nothing, and the circuit does the same to every state up to one global phase `c`. -/
theorem C37_simplify {σ : Type} (reseed : σ → σ) (useMatrix : Bool) (s : σ) (circuit : List (Gate Q K))
    (hv : ∀ g ∈ circuit, IsGate g ∧ IsUnitary g) (fuel : ℕ) (hf : circuit.length < fuel) :
    ∃ gates s', simplifyAll reseed useMatrix fuel s circuit = some (.ok (gates, s')) ∧ gates.Sublist circuit ∧
      (∃ n, gates.length + 2 * n = circuit.length) ∧ simplifyPass useMatrix gates [] false = .ok (gates, false) ∧
      ∃ c : K, star c * c = 1 ∧ ∀ (ψ : (Q → ℕ) → K) (x : Q → ℕ), BitVals x → runCircuit circuit ψ x = c * runCircuit gates ψ x := by
  induction fuel generalizing s circuit with
  | zero => omega
  | succ fuel ih =>
    obtain ⟨all, ch, h1, h2, h3, ⟨n, h4⟩, h5, h6⟩ := simplifyPass_spec useMatrix circuit [] false (by simpa using hv)
    rw [List.nil_append] at h2 h3 h4 h5 h6
    unfold simplifyAll
    rw [h1]
    cases ch with
    | false =>
      obtain ⟨-, rfl⟩ := h5 rfl
      exact ⟨all, s, rfl, h2, ⟨n, h4⟩, h1, h3⟩
    | true =>
      have hlt := (h6 rfl).resolve_left (by simp)
      obtain ⟨gates, s', g1, g2, ⟨m, g3⟩, g4, g5⟩ := ih (reseed s) all (fun g hg => hv g (h2.subset hg)) (by omega)
      exact ⟨gates, s', g1, g2.trans h2, ⟨n + m, by omega⟩, g4, h3.trans g5⟩

/-- C37: the matrix test for commutation is exact. -/
theorem C37_commute (A B : Gate Q K) (hA : IsGate A) (hB : IsGate B) : ∃ r, commute true A B = .ok r ∧
    (r = true ↔ ∀ (ψ : (Q → ℕ) → K) (x : Q → ℕ), BitVals x → applyGate A (applyGate B ψ) x = applyGate B (applyGate A ψ) x) :=
  commute_true hA hB

/-- C37: without matrices, gates commute exactly if they have no common qubit. -/
theorem C37_commute_qubits (A B : Gate Q K) (hA : IsGate A) (hB : IsGate B) :
    commute false A B = .ok (decide (∀ q ∈ A.2, q ∉ B.2)) ∧ ((∀ q ∈ A.2, q ∉ B.2) → ∀ (ψ : (Q → ℕ) → K) (x : Q → ℕ), BitVals x →
      applyGate A (applyGate B ψ) x = applyGate B (applyGate A ψ) x) := by
  have h := commute_false hA hB
  exact ⟨h, fun h' => commute_sound (u := false) hA hB (by rw [h, decide_eq_true h'])⟩

/-- C37: `same` is true exactly for gates on the same qubits (in any order) whose matrices are proportional. -/
theorem C37_same (A B : Gate Q K) (hA : IsGate A) (hB : IsGate B) (h0 : ∃ x y, BitVals x ∧ BitVals y ∧ entry A x y ≠ 0) :
    ∃ r, same A B = .ok r ∧ (r = true ↔ A.2.Perm B.2 ∧ ∃ c : K, c ≠ 0 ∧ ∀ x y, BitVals x → BitVals y → entry A x y = c * entry B x y) := by
  by_cases hp : A.2.Perm B.2
  · obtain ⟨r, h1, h2⟩ := same_spec hA hB hp h0
    exact ⟨r, h1, h2.trans ⟨fun h => ⟨hp, h⟩, fun h => h.2⟩⟩
  · exact ⟨false, same_not_perm hA hB hp, by simp [hp]⟩

/-- C37: gates that are not valid are rejected by both tests. -/
theorem C37_rejects (useMatrix : Bool) (A B : Gate Q K) (h : ¬ IsGate A ∨ ¬ IsGate B) :
    commute useMatrix A B = .error .valueError ∧ same A B = .error .valueError := by
  unfold commute same
  by_cases hA : IsGate A
  · have hB := h.resolve_left (not_not.2 hA)
    rw [(isValidGate_iff A).2 hA, Bool.eq_false_iff.2 fun h => hB ((isValidGate_iff B).1 h)]
    exact ⟨rfl, rfl⟩
  · rw [Bool.eq_false_iff.2 fun h => hA ((isValidGate_iff A).1 h)]
    exact ⟨rfl, rfl⟩

/-- Matrices for the examples. -/
def matX : NDArray ℚ := ⟨[2, 2], fun k => if k = 1 ∨ k = 2 then 1 else 0⟩
def matZ : NDArray ℚ := ⟨[2, 2], fun k => if k = 0 then 1 else if k = 3 then -1 else 0⟩
def matP : NDArray ℚ := ⟨[2, 2], fun k => if k = 0 then 1 else 0⟩

/-- C37 fails for matrices that are not unitary, which `load` does not exclude: two projections are removed, but their product is not the identity,
nor proportional to it. -/
theorem C37_violated : ∃ s', simplifyAll (Q := ℕ) (K := ℚ) id true 5 () [(matP, [0]), (matP, [0])] = some (.ok ([], s')) ∧
    ¬ ∃ c : ℚ, c ≠ 0 ∧ ∀ (ψ : (ℕ → ℕ) → ℚ) (x : ℕ → ℕ), BitVals x → runCircuit [(matP, [0]), (matP, [0])] ψ x = c * runCircuit [] ψ x := by
  refine ⟨(), ?_, ?_⟩
  · have h : ∀ r : Option (Except PyErr (List (Gate ℕ ℚ) × Unit)), (match r with | some (.ok ([], _)) => true | _ => false) = true → r = some (.ok ([], ())) := by
      intro r hr
      split at hr
      · rfl
      · cases hr
    exact h _ (by decide +kernel)
  · rintro ⟨c, hc, h⟩
    have := h (fun _ => 1) (fun _ => 1) (fun _ => by norm_num)
    rw [show runCircuit [(matP, [0]), (matP, [0])] (fun _ => 1) (fun _ => 1) = 0 by decide +kernel] at this
    change 0 = c * 1 at this
    exact hc (by rw [this, mul_one])

/-- X on qubit 0, Z on qubit 1, X on qubit 0: only Z is left, although it stands between the two. -/
example : (∀ g ∈ ([(matX, [0]), (matZ, [1]), (matX, [0])] : List (Gate ℕ ℚ)), IsGate g ∧ IsUnitary g) ∧
    ∃ gates, simplifyAll (Q := ℕ) (K := ℚ) id true 5 () [(matX, [0]), (matZ, [1]), (matX, [0])] = some (.ok (gates, ())) ∧ gates.map Prod.snd = [[1]] := by
  have h1 : ∀ g ∈ ([(matX, [0]), (matZ, [1]), (matX, [0])] : List (Gate ℕ ℚ)), IsGate g ∧ IsUnitary g := by
    have hX : ∀ q : ℕ, IsGate (matX, [q]) ∧ IsUnitary (matX, [q]) :=
      fun q => ⟨⟨by simp, by simp, rfl⟩, by unfold IsUnitary; simp only [List.length_singleton]; decide +kernel⟩
    have hZ : ∀ q : ℕ, IsGate (matZ, [q]) ∧ IsUnitary (matZ, [q]) :=
      fun q => ⟨⟨by simp, by simp, rfl⟩, by unfold IsUnitary; simp only [List.length_singleton]; decide +kernel⟩
    intro g hg
    simp only [List.mem_cons, List.not_mem_nil, or_false] at hg
    rcases hg with rfl | rfl | rfl
    · exact hX 0
    · exact hZ 1
    · exact hX 0
  refine ⟨h1, ?_⟩
  obtain ⟨gates, s', h2, -⟩ := C37_simplify (Q := ℕ) (K := ℚ) id true () _ h1 5 (by simp)
  refine ⟨gates, h2, ?_⟩
  have h3 : (match simplifyAll (Q := ℕ) (K := ℚ) id true 5 () [(matX, [0]), (matZ, [1]), (matX, [0])] with
    | some (.ok (gates, _)) => decide (gates.map Prod.snd = [[1]])
    | _ => false) = true := by decide +kernel
  rw [h2] at h3
  simpa using h3

end TNCO
