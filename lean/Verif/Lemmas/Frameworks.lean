import Verif.Spec.Frameworks
import Verif.Lemmas.CircuitLoad

/-! # Lemmas: circuits of `cirq` and `qiskit` -/

namespace TNCO
variable {Q K : Type} [DecidableEq Q] [Field K] [StarRing K]

theorem mem_qubits_gates {evs : List (QEvent Q K)} (h : ∀ qs, QEvent.measure qs ∉ evs) (q : Q) :
    q ∈ eventQubits evs ↔ q ∈ (eventGates evs).flatMap Prod.snd := by
  simp only [eventQubits, eventGates, List.mem_flatMap, List.mem_filterMap]
  constructor
  · rintro ⟨e, he, hq⟩
    cases e with
    | gate m qs => exact ⟨(m, qs), ⟨_, he, rfl⟩, hq⟩
    | measure qs => exact absurd he (h qs)
  · rintro ⟨g, ⟨e, he, hg⟩, hq⟩
    cases e with
    | gate m qs =>
      cases hg
      exact ⟨_, he, hq⟩
    | measure qs => cases hg

/-- What `cirq_to_arrays` makes of a circuit in which no operation has both gates and measurements. -/
theorem cirqToArrays_ok {ops : List (CirqOp Q K)} {evss : List (List (QEvent Q K))} (h : List.Forall₂ CirqOp.Is ops evss) (hs : Separate evss) :
    ∃ gates, cirqToArrays ops = .ok gates ∧ (∀ g ∈ gates, IsGate g ∧ IsUnitary g) ∧
      (∀ g ∈ gates, ∃ o ∈ ops, o.measurement = false ∧ o.unitary = some g.1 ∧ o.qubits = g.2) ∧
      (∀ q, q ∈ gates.flatMap Prod.snd ↔ q ∈ (eventGates evss.flatten).flatMap Prod.snd) ∧
      (gates.map fun g => g.2.length).sum ≤ (ops.map fun o => o.qubits.length).sum ∧
      ∀ ψ x, BitVals x → runCircuit gates ψ x = runCircuit (eventGates evss.flatten) ψ x := by
  induction h with
  | nil => exact ⟨[], rfl, by simp, by simp, by simp [eventGates], by simp, fun _ _ _ => rfl⟩
  | @cons o evs ops evss ho _ ih =>
    obtain ⟨gates, h1, h2, h3, h4, h5, h6⟩ := ih fun e he => hs e (List.mem_cons_of_mem _ he)
    have hsplit : eventGates (evs :: evss).flatten = eventGates evs ++ eventGates evss.flatten := by
      unfold eventGates
      rw [List.flatten_cons, List.filterMap_append]
    cases hm : o.measurement with
    | true =>
      have hnil := hs evs (by simp) (ho.measurement.1 hm)
      rw [hsplit, hnil, List.nil_append]
      refine ⟨gates, ?_, h2, fun g hg => ?_, h4, ?_, h6⟩
      · simp only [cirqToArrays, CirqOp.ignored, hm, if_true]
        exact h1
      · obtain ⟨o', ho', hh⟩ := h3 g hg
        exact ⟨o', List.mem_cons_of_mem _ ho', hh⟩
      · rw [List.map_cons, List.sum_cons]
        omega
    | false =>
      obtain ⟨u, hu, hg, hun, hact⟩ := ho.unitary hm
      have hno : ∀ qs, QEvent.measure qs ∉ evs := by
        intro qs hqs
        rw [ho.measurement.2 ⟨qs, hqs⟩] at hm
        cases hm
      rw [hsplit]
      refine ⟨(u, o.qubits) :: gates, ?_, fun g hgm => ?_, fun g hgm => ?_, fun q => ?_, ?_, fun ψ x hx => ?_⟩
      · simp [cirqToArrays, CirqOp.ignored, hm, hu, h1]
      · rcases List.mem_cons.1 hgm with rfl | hgm
        · exact ⟨hg, hun⟩
        · exact h2 g hgm
      · rcases List.mem_cons.1 hgm with rfl | hgm
        · exact ⟨o, by simp, hm, hu, rfl⟩
        · obtain ⟨o', ho', hh⟩ := h3 g hgm
          exact ⟨o', List.mem_cons_of_mem _ ho', hh⟩
      · rw [List.flatMap_cons, List.mem_append, List.flatMap_append, List.mem_append, h4, ho.qubits, mem_qubits_gates hno]
      · simp only [List.map_cons, List.sum_cons]
        omega
      · rw [runCircuit_append, show (u, o.qubits) :: gates = [(u, o.qubits)] ++ gates from rfl, runCircuit_append, h6 _ x hx]
        exact runCircuit_congr _ (fun y hy => hact ψ y hy) hx

omit [StarRing K] in
theorem productState_perm {l m : List Q} (h : l.Perm m) (v : Q → Option (ℕ → K)) (x0 x : Q → ℕ) : productState l v x0 x = productState m v x0 x := by
  unfold productState
  exact (h.map _).prod_eq

/-- The matrix element neither depends on the order of the qubits, nor on how the gates are written. -/
theorem amplitude_congr {gates gates' : List (NDArray K × List Q)} (h : ∀ ψ x, BitVals x → runCircuit gates ψ x = runCircuit gates' ψ x)
    {l m : List Q} (hp : l.Perm m) (hn : l.Nodup) (v w : Q → Option (ℕ → K)) (x0 x1 : Q → ℕ) :
    amplitude gates l v w x0 x1 = amplitude gates' m v w x0 x1 := by
  unfold amplitude
  rw [sumOver_perm hp hn]
  refine sumOver_congr fun x h1 h2 => ?_
  have hx : BitVals x := by
    intro q
    by_cases hq : q ∈ m
    · exact h2 q hq
    · rw [h1 q hq]
      omega
  rw [productState_perm hp, h _ x hx, show productState l v x0 = productState m v x0 from funext fun y => productState_perm hp v x0 y]

theorem leVal_eq (l : List ℕ) : leVal l = binVal l.reverse := by
  unfold binVal
  rw [List.foldl_reverse]
  induction l with
  | nil => rfl
  | cons b l ih =>
    rw [leVal, List.foldr_cons, ← ih]
    omega

theorem binVal_reverse (l : List ℕ) : binVal l = leVal l.reverse := by rw [leVal_eq, List.reverse_reverse]

omit [StarRing K] in
/-- Reading the first qubit as the most significant is reading the qubits in reverse. -/
theorem applyLE_reverse (g : NDArray K × List Q) (hn : g.2.Nodup) (ψ : (Q → ℕ) → K) (x : Q → ℕ) : applyLE (g.1, g.2.reverse) ψ x = applyGate g ψ x := by
  unfold applyLE applyGate
  simp only
  rw [sumOver_perm (List.reverse_perm g.2) (List.nodup_reverse.2 hn)]
  refine sumOver_congr fun y _ _ => ?_
  unfold entryLE entry
  simp only [List.map_reverse]
  rw [← binVal_reverse, ← binVal_reverse]

omit [StarRing K] in
theorem runLE_reverse (gates : List (NDArray K × List Q)) (hn : ∀ g ∈ gates, g.2.Nodup) (ψ : (Q → ℕ) → K) :
    runLE (gates.map fun g => (g.1, g.2.reverse)) ψ = runCircuit gates ψ := by
  induction gates generalizing ψ with
  | nil => rfl
  | cons g gates ih =>
    change runLE (gates.map fun g => (g.1, g.2.reverse)) (applyLE (g.1, g.2.reverse) ψ) = runCircuit gates (applyGate g ψ)
    rw [ih fun g hg => hn g (List.mem_cons_of_mem _ hg)]
    congr 1
    exact funext fun x => applyLE_reverse g (hn g (by simp)) ψ x

omit [StarRing K] in
theorem applyLE_palindromic {g : NDArray K × List Q} (hp : Palindromic g) {ψ φ : (Q → ℕ) → K} (h : ∀ x, BitVals x → ψ x = φ x) {x : Q → ℕ} (hx : BitVals x) :
    applyLE g ψ x = applyGate g φ x := by
  unfold applyLE applyGate
  refine sumOver_congr fun y h1 h2 => ?_
  have hy : BitVals y := by
    intro q
    by_cases hq : q ∈ g.2
    · exact h2 q hq
    · rw [h1 q hq]
      exact hx q
  unfold entryLE entry
  rw [hp _ _ (by simp) (by simp) (fun b hb => ?_) (fun b hb => ?_), h y hy]
  · obtain ⟨q, -, rfl⟩ := List.mem_map.1 hb
    exact hx q
  · obtain ⟨q, -, rfl⟩ := List.mem_map.1 hb
    exact hy q

omit [StarRing K] in
theorem runLE_palindromic (gates : List (NDArray K × List Q)) (hp : ∀ g ∈ gates, Palindromic g) {ψ φ : (Q → ℕ) → K} (h : ∀ x, BitVals x → ψ x = φ x)
    {x : Q → ℕ} (hx : BitVals x) : runLE gates ψ x = runCircuit gates φ x := by
  induction gates generalizing ψ φ with
  | nil => exact h x hx
  | cons g gates ih =>
    change runLE gates (applyLE g ψ) x = runCircuit gates (applyGate g φ) x
    exact ih (fun g hg => hp g (List.mem_cons_of_mem _ hg)) fun y hy => applyLE_palindromic (hp g (by simp)) h hy

theorem amplitudeLE_congr {gates gates' : List (NDArray K × List Q)} (h : ∀ ψ x, BitVals x → runCircuit gates ψ x = runLE gates' ψ x)
    {l m : List Q} (hp : l.Perm m) (hn : l.Nodup) (v w : Q → Option (ℕ → K)) (x0 x1 : Q → ℕ) :
    amplitude gates l v w x0 x1 = amplitudeLE gates' m v w x0 x1 := by
  unfold amplitude amplitudeLE
  rw [sumOver_perm hp hn]
  refine sumOver_congr fun x h1 h2 => ?_
  have hx : BitVals x := by
    intro q
    by_cases hq : q ∈ m
    · exact h2 q hq
    · rw [h1 q hq]
      omega
  rw [productState_perm hp, h _ x hx, show productState l v x0 = productState m v x0 from funext fun y => productState_perm hp v x0 y]

omit [DecidableEq Q] [StarRing K] [Field K] in
theorem matrices_some (gates : List (NDArray K × List Q)) : matrices (qiskitToArrays (gates.map fun g => ⟨some g.1, g.2⟩)) = some gates := by
  induction gates with
  | nil => rfl
  | cons g gates ih =>
    change (matrices (qiskitToArrays (gates.map fun g => ⟨some g.1, g.2⟩))).map _ = _
    rw [ih]
    rfl

omit [DecidableEq Q] [StarRing K] [Field K] in
theorem matrices_none {ops : List (QiskitOp Q K)} (h : ∃ o ∈ ops, o.matrix = none) : matrices (qiskitToArrays ops) = none := by
  induction ops with
  | nil => simp at h
  | cons o ops ih =>
    obtain ⟨m, qs⟩ := o
    cases m with
    | none => rfl
    | some m =>
      obtain ⟨o', ho', hm⟩ := h
      rcases List.mem_cons.1 ho' with rfl | ho'
      · cases hm
      · change (matrices (qiskitToArrays ops)).map _ = _
        rw [ih ⟨o', ho', hm⟩]
        rfl

omit [StarRing K] [Field K] [DecidableEq Q] in
theorem events_qubits {evs : List (QEvent Q K)} {gates : List (NDArray K × List Q)}
    (h : ∀ q, q ∈ gates.flatMap Prod.snd ↔ q ∈ (eventGates evs).flatMap Prod.snd) (hm : ∀ q ∈ eventQubits evs, q ∈ (eventGates evs).flatMap Prod.snd)
    (q : Q) : q ∈ eventQubits evs ↔ q ∈ gates.flatMap Prod.snd := by
  rw [h]
  refine ⟨hm q, fun hq => ?_⟩
  obtain ⟨g, hg, hqg⟩ := List.mem_flatMap.1 hq
  obtain ⟨e, hee, heg⟩ := List.mem_filterMap.1 hg
  cases e with
  | gate m qs =>
    cases heg
    exact List.mem_flatMap.2 ⟨_, hee, hqg⟩
  | measure qs => cases heg

end TNCO
