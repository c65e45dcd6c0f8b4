import Verif.Lemmas.Frameworks
import Verif.Props.Simulate
import Verif.Props.Sampling

/-! # C69: circuits of `cirq` and `qiskit` -/

namespace TNCO
variable {Q K S σ W : Type} [DecidableEq Q] [Field K] [StarRing K] [DecidableEq K] [Zero W] [Add W] [LT W] [DecidableLT W]

omit [DecidableEq K] in
theorem stateOk_congr {r : K} {l m : List Q} (h : ∀ q, q ∈ l ↔ q ∈ m) {s : PyState Q K} (hs : StateOk r l s) : StateOk r m s := by
  cases s with
  | dict d =>
    refine ⟨hs.1, fun e he => ?_⟩
    have := hs.2 e he
    obtain ⟨q, v⟩ := e
    cases v with
    | token s => exact this
    | vec a => exact fun hq => this ((h q).2 hq)
  | _ => exact hs

/-- What `load` is asked to return for a circuit whose qubits are `qubits` and whose matrix elements are `value`: a network whose open indices are
those of the open qubits, and whose value is the matrix element up to a phase. -/
def LoadsAs (A : LoadArgs Q K S σ W) (res : Option (Except PyErr (List (NDArray K) × List (List (Q × Stage)) × Finset (Q × Stage)))) (qubits : List Q)
    (init fin : PyState Q K) (value : (Q × Stage → ℕ) → K) : Prop :=
  ∃ arrs inds out, res = some (.ok (arrs, inds, out)) ∧ Consistent (fun _ => 2) arrs inds ∧ (∀ xs ∈ inds, xs.Nodup) ∧
    (∀ q t, (q, t) ∈ out ↔ q ∈ qubits ∧ ((t = .i ∧ stateOf A.r init q = none) ∨ (t = .f ∧ stateOf A.r fin q = none))) ∧
    (∀ x ∈ out, x ∈ inds.flatten) ∧ (∀ x ∈ inds.flatten, x ∉ out → 2 ≤ inds.flatten.count x) ∧
    ∃ c : K, star c * c = 1 ∧ (A.simplify = false → c = 1) ∧
      ∀ l : List (Q × Stage), l.Nodup → (∀ x, x ∈ l ↔ x ∈ inds.flatten ∧ x ∉ out) → ∀ f : Q × Stage → ℕ, (∀ x ∈ out, f x < 2) →
        value f = c * einsum (fun _ => 2) l ((arrs.zip inds).map fun t k => t.1.get (t.2.map k)) f

section
variable (A : LoadArgs Q K S σ W) (hrng : A.g.Ok) (heN : EnumOk A.enumN) (he : EnumOk A.enum) (hr : star A.r * A.r + star A.r * A.r = 1)
  (seed : S) (init fin : PyState Q K)
include hrng heN he hr

/-- C69 for `cirq`, in part. In a circuit whose operations have either gates or measurements, and all of whose qubits take part in a gate, `load`
ignores the measurements: the network has the matrix elements of the gates, between states of all the qubits of the circuit. -/
theorem C69_cirq_partial (ops : List (CirqOp Q K)) (evss : List (List (QEvent Q K))) (h : List.Forall₂ CirqOp.Is ops evss) (hs : Separate evss)
    (hm : ∀ q ∈ eventQubits evss.flatten, q ∈ (eventGates evss.flatten).flatMap Prod.snd)
    (h1 : StateOk A.r (eventQubits evss.flatten) init) (h2 : StateOk A.r (eventQubits evss.flatten) fin)
    (hfuel : 12 * (ops.map fun o => o.qubits.length).sum < A.fuel) (qubits : List Q) (hn : qubits.Nodup)
    (hq : ∀ q, q ∈ qubits ↔ q ∈ eventQubits evss.flatten) :
    LoadsAs A (loadCirq A seed ops init fin) qubits init fin fun f =>
      amplitude (eventGates evss.flatten) qubits (stateOf A.r init) (stateOf A.r fin) (fun q => f (q, .i)) fun q => f (q, .f) := by
  obtain ⟨gates, g1, g2, -, g4, g5, g6⟩ := cirqToArrays_ok h hs
  have hev := events_qubits g4 hm
  obtain ⟨arrs, inds, out, k1, k2, k3, k4, k5, k6, c, c1, c2, c3⟩ := C38_load A hrng heN he hr seed gates init fin (fun g hg => (g2 g hg).1)
    (fun _ g hg => (g2 g hg).2) (stateOk_congr hev h1) (stateOk_congr hev h2) (by omega)
  refine ⟨arrs, inds, out, ?_, k2, k3, fun q t => ?_, k5, k6, c, c1, c2, fun l hl hlm f hf => ?_⟩
  · unfold loadCirq
    rw [g1]
    exact k1
  · rw [k4, hq, hev]
  · rw [← c3 l hl hlm f hf]
    refine (amplitude_congr g6 (perm_of_mem (uniqueEverseen_nodup _) hn fun q => ?_) (uniqueEverseen_nodup _) _ _ _ _).symm
    rw [mem_uniqueEverseen, hq, hev]

/-- C69 for `load_tn` of a circuit of `cirq`, in part, under the conditions of `C69_cirq_partial`, for a circuit with a gate. -/
theorem C69_load_tn_partial (ops : List (CirqOp Q K)) (evss : List (List (QEvent Q K))) (h : List.Forall₂ CirqOp.Is ops evss) (hs : Separate evss)
    (hm : ∀ q ∈ eventQubits evss.flatten, q ∈ (eventGates evss.flatten).flatMap Prod.snd) (hne : ∃ o ∈ ops, o.measurement = false)
    (h1 : StateOk A.r (eventQubits evss.flatten) init) (h2 : StateOk A.r (eventQubits evss.flatten) fin)
    (hfuel : 12 * (ops.map fun o => o.qubits.length).sum < A.fuel) (qubits : List Q) (hn : qubits.Nodup)
    (hq : ∀ q, q ∈ qubits ↔ q ∈ eventQubits evss.flatten) :
    ∃ N arrs, loadTnCirq A seed ops init fin = some (.ok (N, arrs)) ∧ N.Plain ∧ N.sparse = ∅ ∧ (∀ x ∈ N.tsInds.flatten, N.dim x = 2) ∧
      (∀ q t, (q, t) ∈ N.output ↔ q ∈ qubits ∧ ((t = .i ∧ stateOf A.r init q = none) ∨ (t = .f ∧ stateOf A.r fin q = none))) ∧
      ∃ c : K, star c * c = 1 ∧ (A.simplify = false → c = 1) ∧
        ∀ l : List (Q × Stage), l.Nodup → (∀ x, x ∈ l ↔ x ∈ N.tsInds.flatten ∧ x ∉ N.output) → ∀ f : Q × Stage → ℕ, (∀ x ∈ N.output, f x < 2) →
          amplitude (eventGates evss.flatten) qubits (stateOf A.r init) (stateOf A.r fin) (fun q => f (q, .i)) (fun q => f (q, .f)) =
            c * einsum N.dim l ((arrs.zip N.tsInds).map fun t k => t.1.get (t.2.map k)) f := by
  obtain ⟨gates, g1, g2, g3, g4, g5, g6⟩ := cirqToArrays_ok h hs
  have hev := events_qubits g4 hm
  have hgne : gates ≠ [] := by
    rintro rfl
    obtain ⟨o, ho, hom⟩ := hne
    obtain ⟨evs, he1, he2⟩ := forall₂_mem_left h ho
    obtain ⟨u, -, hu, -⟩ := he2.unitary hom
    obtain ⟨q, hqq⟩ := List.exists_mem_of_ne_nil _ hu.nonempty
    have : q ∈ eventQubits evss.flatten := by
      obtain ⟨e, hee, hqe⟩ := List.mem_flatMap.1 ((he2.qubits q).1 hqq)
      exact List.mem_flatMap.2 ⟨e, List.mem_flatten.2 ⟨evs, he1, hee⟩, hqe⟩
    rw [hev] at this
    simp at this
  obtain ⟨N, arrs, k1, k2, k3, k4, k5, -, c, c1, c2, c3⟩ := C62_load A seed gates init fin ⟨hrng, heN, he, hr, hgne, fun g hg => (g2 g hg).1,
    fun _ g hg => (g2 g hg).2, stateOk_congr hev h1, stateOk_congr hev h2, by omega⟩
  refine ⟨N, arrs, ?_, k2, k3, k4, fun q t => by rw [k5, hq, hev], c, c1, c2, fun l hl hlm f hf => ?_⟩
  · unfold loadTnCirq
    rw [g1]
    exact k1
  · rw [← c3 l hl hlm f hf]
    refine (amplitude_congr g6 (perm_of_mem (uniqueEverseen_nodup _) hn fun q => ?_) (uniqueEverseen_nodup _) _ _ _ _).symm
    rw [mem_uniqueEverseen, hq, hev]

/-- C69 for `qiskit`, what is loaded: the network always is that of the circuit in which the qubits of every gate are listed in reverse. -/
theorem C69_qiskit_reversed (gates : List (NDArray K × List Q)) (hg : ∀ g ∈ gates, IsGate g)
    (hu : A.simplify = true ∨ A.decompose = true → ∀ g ∈ gates, IsUnitary g)
    (h1 : StateOk A.r (gates.flatMap Prod.snd) init) (h2 : StateOk A.r (gates.flatMap Prod.snd) fin)
    (hfuel : 12 * (gates.map fun g => g.2.length).sum < A.fuel) (qubits : List Q) (hn : qubits.Nodup) (hq : ∀ q, q ∈ qubits ↔ q ∈ gates.flatMap Prod.snd) :
    LoadsAs A (loadQiskit A seed (gates.map fun g => ⟨some g.1, g.2⟩) init fin) qubits init fin fun f =>
      amplitudeLE (gates.map fun g => (g.1, g.2.reverse)) qubits (stateOf A.r init) (stateOf A.r fin) (fun q => f (q, .i)) fun q => f (q, .f) := by
  obtain ⟨arrs, inds, out, k1, k2, k3, k4, k5, k6, c, c1, c2, c3⟩ := C38_load A hrng heN he hr seed gates init fin hg hu h1 h2 hfuel
  refine ⟨arrs, inds, out, ?_, k2, k3, fun q t => by rw [k4, hq], k5, k6, c, c1, c2, fun l hl hlm f hf => ?_⟩
  · unfold loadQiskit
    rw [matrices_some]
    exact k1
  · rw [← c3 l hl hlm f hf]
    refine (amplitudeLE_congr (fun ψ x _ => ?_) (perm_of_mem (uniqueEverseen_nodup _) hn fun q => ?_) (uniqueEverseen_nodup _) _ _ _ _).symm
    · rw [runLE_reverse gates fun g hgm => (hg g hgm).nodup]
    · rw [mem_uniqueEverseen, hq]

/-- C69 for `qiskit`, in part. If the matrices do not change when the qubits of their rows and columns are reversed, as for one-qubit gates, the network
has the matrix elements of the circuit. -/
theorem C69_qiskit_partial (gates : List (NDArray K × List Q)) (hg : ∀ g ∈ gates, IsGate g) (hp : ∀ g ∈ gates, Palindromic g)
    (hu : A.simplify = true ∨ A.decompose = true → ∀ g ∈ gates, IsUnitary g)
    (h1 : StateOk A.r (gates.flatMap Prod.snd) init) (h2 : StateOk A.r (gates.flatMap Prod.snd) fin)
    (hfuel : 12 * (gates.map fun g => g.2.length).sum < A.fuel) (qubits : List Q) (hn : qubits.Nodup) (hq : ∀ q, q ∈ qubits ↔ q ∈ gates.flatMap Prod.snd) :
    LoadsAs A (loadQiskit A seed (gates.map fun g => ⟨some g.1, g.2⟩) init fin) qubits init fin fun f =>
      amplitudeLE gates qubits (stateOf A.r init) (stateOf A.r fin) (fun q => f (q, .i)) fun q => f (q, .f) := by
  obtain ⟨arrs, inds, out, k1, k2, k3, k4, k5, k6, c, c1, c2, c3⟩ := C38_load A hrng heN he hr seed gates init fin hg hu h1 h2 hfuel
  refine ⟨arrs, inds, out, ?_, k2, k3, fun q t => by rw [k4, hq], k5, k6, c, c1, c2, fun l hl hlm f hf => ?_⟩
  · unfold loadQiskit
    rw [matrices_some]
    exact k1
  · rw [← c3 l hl hlm f hf]
    refine (amplitudeLE_congr (fun ψ x hx => ?_) (perm_of_mem (uniqueEverseen_nodup _) hn fun q => ?_) (uniqueEverseen_nodup _) _ _ _ _).symm
    · exact (runLE_palindromic gates hp (fun _ _ => rfl) hx).symm
    · rw [mem_uniqueEverseen, hq]

end

omit [Field K] [StarRing K] [DecidableEq Q] [DecidableEq K] in
/-- C69, errors of `cirq`: `cirq_to_arrays` raises `TypeError` if some operation is neither a measurement nor unitary, and otherwise returns. -/
theorem C69_cirq_errors (ops : List (CirqOp Q K)) :
    (cirqToArrays ops = .error .typeError ↔ ∃ o ∈ ops, o.measurement = false ∧ o.unitary = none) ∧
      (cirqToArrays ops = .error .typeError ∨ ∃ gates, cirqToArrays ops = .ok gates) := by
  induction ops with
  | nil => simp [cirqToArrays]
  | cons o ops ih =>
    obtain ⟨m, u, qs⟩ := o
    cases m with
    | true => simpa [cirqToArrays, CirqOp.ignored] using ih
    | false =>
      cases u with
      | none => simp [cirqToArrays, CirqOp.ignored]
      | some u =>
        obtain ⟨ih1, ih2⟩ := ih
        rcases ih2 with h | ⟨gates, h⟩
        · rw [h] at ih1
          simpa [cirqToArrays, CirqOp.ignored, h] using ih1
        · rw [h] at ih1
          simpa [cirqToArrays, CirqOp.ignored, h] using ih1

/-- C69, errors of `qiskit`: a circuit with an instruction that has no matrix, such as a measurement, is not loaded. -/
theorem C69_qiskit_errors (A : LoadArgs Q K S σ W) (seed : S) (ops : List (QiskitOp Q K)) (h : ∃ o ∈ ops, o.matrix = none) (init fin : PyState Q K) :
    (A.simplify = true → loadQiskit A seed ops init fin = some (.error .typeError)) ∧
      (A.simplify = false → loadQiskit A seed ops init fin = some (.error .valueError)) := by
  unfold loadQiskit
  rw [matrices_none h]
  exact ⟨fun h => by rw [h]; rfl, fun h => by rw [h]; rfl⟩

/-- C69 fails for sampling from circuits of `qiskit`: every call that passes an optimizer, in place or by name, raises `TypeError`. -/
theorem C69_sample_qiskit_violated (A : LoadArgs Q K S σ W) (seed : S) (ops : List (QiskitOp Q K)) (init fin : PyState Q K) (args : ℕ)
    (keywords : List String) (h : 0 < args ∨ "optimizer" ∈ keywords) : sampleQiskit A seed ops init fin args keywords = some (.error .typeError) := by
  unfold sampleQiskit
  by_cases ha : args ≠ 0
  · rw [if_pos ha]
  · rw [if_neg ha, if_pos]
    rw [List.any_eq_true]
    exact ⟨"optimizer", h.resolve_left (by omega), by decide⟩

section
variable {R : Type} [Field R] [LinearOrder R] [IsStrictOrderedRing R]

/-- C69 for sampling from circuits of `cirq`, in part: under the conditions of `C69_cirq_partial`, if the gates are one-qubit gates or classical
operations, every bitstring is drawn with the squared modulus of its amplitude, and errors with probability 0. -/
theorem C69_sample_cirq_partial (A : SampleArgs Q K R S σ W) (hE : SampleEnv A) (hsq : IsAbsSq A.sq) (ops : List (CirqOp Q K))
    (evss : List (List (QEvent Q K))) (h : List.Forall₂ CirqOp.Is ops evss) (hs : Separate evss)
    (hm : ∀ q ∈ eventQubits evss.flatten, q ∈ (eventGates evss.flatten).flatMap Prod.snd)
    (hg : ∀ o ∈ ops, ∀ u, o.measurement = false → o.unitary = some u → SampleGate (u, o.qubits))
    (hfuel : 12 * (ops.map fun o => o.qubits.length).sum < A.load.fuel) (order : Option (List Q))
    (ho : ∀ o, order = some o → o.Nodup ∧ ∀ q, q ∈ o ↔ q ∈ eventQubits evss.flatten) {τ : Type} (random : τ → R × τ)
    (hr : ∀ s, 0 ≤ (random s).1 ∧ (random s).1 < 1) (s : τ) (enumQ : Finset Q → List Q) (heQ : EnumOk enumQ) (n : ℕ) (normalize : Bool) :
    ∃ r qubits gates steps qset, sampleCirq A random s enumQ ops order n normalize = some (.ok (r, qubits)) ∧
      cirqToArrays ops = .ok gates ∧ prepare A gates order = some (.ok (steps, qset)) ∧
      qubits.Nodup ∧ (∀ q, q ∈ qubits ↔ q ∈ eventQubits evss.flatten) ∧ (∀ o, order = some o → qubits = o) ∧
      (∀ b v, (b, v) ∈ r ↔ 0 < countOf b (sampleSeq random A.sq A.load.enum qubits steps n s) ∧
        v = if normalize then (countOf b (sampleSeq random A.sq A.load.enum qubits steps n s) : R) / n
          else (countOf b (sampleSeq random A.sq A.load.enum qubits steps n s) : R)) ∧
      (∀ x, BitVals x → Dist.prob (runSteps Dist.flip A.sq A.load.enum qubits steps (List.replicate qubits.length 0))
        (fun b => b.toOption = some (qubits.map x)) = A.sq (runCircuit (eventGates evss.flatten) (zeroState qubits) x)) ∧
      Dist.prob (runSteps Dist.flip A.sq A.load.enum qubits steps (List.replicate qubits.length 0)) (fun b => b.toOption = none) = 0 := by
  obtain ⟨gates, g1, g2, g3, g4, g5, g6⟩ := cirqToArrays_ok h hs
  have hev := events_qubits g4 hm
  have hsg : ∀ g ∈ gates, SampleGate g := by
    intro g hgm
    obtain ⟨o, ho1, ho2, ho3, ho4⟩ := g3 g hgm
    have := hg o ho1 g.1 ho2 ho3
    rwa [ho4] at this
  obtain ⟨steps, r, qubits, k1, k2, k3, k4, k5, -, -, -, k9, -⟩ := C39_sample A hE hsq gates hsg (by omega) order
    (fun o h => ⟨(ho o h).1, fun q => by rw [(ho o h).2, hev]⟩) random hr s enumQ heQ n normalize
  obtain ⟨steps', b1, b2⟩ := C39_born A hE hsq gates hsg (by omega) order fun o h q => by rw [(ho o h).2, hev]
  rw [k1] at b1
  cases b1
  obtain ⟨b3, b4⟩ := b2 qubits k3 k4
  refine ⟨r, qubits, gates, steps, _, ?_, g1, k1, k3, fun q => by rw [k4, hev], k5, k9, fun x hx => ?_, b4⟩
  · unfold sampleCirq
    rw [g1]
    exact k2
  · rw [b3 x hx, g6 _ x hx]

end

omit [StarRing K] [DecidableEq K] [DecidableEq Q] in
/-- One-qubit gates are among those of `C69_qiskit_partial`. -/
theorem C69_one_qubit (g : NDArray K × List Q) (h : g.2.length = 1) : Palindromic g := by
  intro l m hl hm _ _
  rw [h] at hl hm
  obtain ⟨a, rfl⟩ := List.length_eq_one_iff.1 hl
  obtain ⟨b, rfl⟩ := List.length_eq_one_iff.1 hm
  simp [leVal, binVal]

/-! ## Concrete cases -/

/-- The number that a network without output indices stands for. -/
def valueOf (res : Option (Except PyErr (List (NDArray (ZMod 7)) × List (List (ℕ × Stage)) × Finset (ℕ × Stage)))) : Option (ZMod 7) :=
  match res with
  | some (.ok (arrs, inds, out)) =>
    if out = ∅ then some (einsum (fun _ => 2) (listStages inds.flatten.toFinset) ((arrs.zip inds).map fun t k => t.1.get (t.2.map k)) fun _ => 0) else none
  | _ => none

/-- The output indices of a network. -/
def openOf (res : Option (Except PyErr (List (NDArray (ZMod 7)) × List (List (ℕ × Stage)) × Finset (ℕ × Stage)))) : Option (Finset (ℕ × Stage)) :=
  match res with
  | some (.ok (_, _, out)) => some out
  | _ => none

theorem cirq_gate (m : NDArray (ZMod 7)) (qs : List ℕ) (h : IsGate (m, qs)) (hu : IsUnitary (m, qs)) : CirqOp.Is ⟨false, some m, qs⟩ [.gate m qs] :=
  ⟨by simp, by simp [eventQubits, QEvent.qubits], fun _ => ⟨m, rfl, h, hu, fun _ _ _ => rfl⟩⟩

theorem cirq_measure (qs : List ℕ) : CirqOp.Is (K := ZMod 7) ⟨true, none, qs⟩ [.measure qs] :=
  ⟨by simp, by simp [eventQubits, QEvent.qubits], by simp⟩

theorem modX_ok (q : ℕ) : IsGate (modX, [q]) ∧ IsUnitary (modX, [q]) :=
  ⟨⟨by simp, by simp, rfl⟩, (by decide +kernel : ∀ r < 2 ^ 1, ∀ c < 2 ^ 1, ∑ k ∈ Finset.range (2 ^ 1), star (modX.get [k, r]) * modX.get [k, c] =
    if r = c then 1 else 0)⟩

theorem modCX_ok : IsGate (modCX, [0, 1]) ∧ IsUnitary (modCX, [0, 1]) :=
  ⟨⟨by simp, by simp, rfl⟩, (by decide +kernel : ∀ r < 2 ^ 2, ∀ c < 2 ^ 2, ∑ k ∈ Finset.range (2 ^ 2), star (modCX.get [k, r]) * modCX.get [k, c] =
    if r = c then 1 else 0)⟩

/-- C69 fails for `cirq` if a qubit is measured but has no gate. After a gate NOT on qubit 0, both qubits are asked to be 1; the amplitude is 0, as
qubit 1 is 0. The network has the value 1. If the final qubits are open, qubit 1 is missing. -/
theorem C69_cirq_violated_measured :
    List.Forall₂ CirqOp.Is [⟨false, some modX, [0]⟩, ⟨true, none, [1]⟩] [[.gate modX [0]], [.measure [1]]] ∧
    valueOf (loadCirq (modArgs true) () [⟨false, some modX, [0]⟩, ⟨true, none, [1]⟩] (.str "0") (.str "1")) = some 1 ∧
    amplitude [(modX, [0])] [0, 1] (stateOf 2 (.str "0")) (stateOf 2 (.str "1")) (fun _ => 0) (fun _ => 0) = 0 ∧
    openOf (loadCirq (modArgs true) () [⟨false, some modX, [0]⟩, ⟨true, none, [1]⟩] (.str "0") .none) = some {(0, .f)} :=
  ⟨.cons (cirq_gate _ _ (modX_ok 0).1 (modX_ok 0).2) (.cons (cirq_measure _) .nil), by decide +kernel, by decide +kernel, by decide +kernel⟩

/-- C69 fails for `cirq` if an operation, a sub-circuit, has gates and a measurement: its gates are dropped. Two gates NOT are one after the other, the
second of them in a sub-circuit which also measures; from 0 to 1 the amplitude is 0. The network has the value 1. -/
theorem C69_cirq_violated_subcircuit :
    List.Forall₂ CirqOp.Is [⟨false, some modX, [0]⟩, ⟨true, none, [0]⟩] [[.gate modX [0]], [.gate modX [0], .measure [0]]] ∧
    valueOf (loadCirq (modArgs true) () [⟨false, some modX, [0]⟩, ⟨true, none, [0]⟩] (.str "0") (.str "1")) = some 1 ∧
    amplitude [(modX, [0]), (modX, [0])] [0] (stateOf 2 (.str "0")) (stateOf 2 (.str "1")) (fun _ => 0) (fun _ => 0) = 0 :=
  ⟨.cons (cirq_gate _ _ (modX_ok 0).1 (modX_ok 0).2) (.cons ⟨by simp, by simp [eventQubits, QEvent.qubits], by simp⟩ .nil), by decide +kernel,
    by decide +kernel⟩

/-- C69 fails for sampling from such a circuit: the bitstrings have no bit for qubit 1, and its place in the order of qubits is refused. -/
theorem C69_sample_cirq_violated (enum : Finset (ℕ × Stage) → List (ℕ × Stage)) (enumQ : Finset ℕ → List ℕ) (he : EnumOk enumQ) :
    (∃ r, sampleCirq (sampleArgs ℚ (fun x => x * x) 1 false false none enum 50) (fun s : Unit => ((0 : ℚ), s)) () enumQ
      [⟨false, some ⟨[2, 2], fun k => if k = 1 ∨ k = 2 then 1 else 0⟩, [0]⟩, ⟨true, none, [1]⟩] none 3 true = some (.ok ([([1], r)], [0]))) ∧
    sampleCirq (sampleArgs ℚ (fun x => x * x) 1 false false none enum 50) (fun s : Unit => ((0 : ℚ), s)) () enumQ
      [⟨false, some ⟨[2, 2], fun k => if k = 1 ∨ k = 2 then 1 else 0⟩, [0]⟩, ⟨true, none, [1]⟩] (some [0, 1]) 3 true = some (.error .valueError) := by
  have hc : isClassical (fun x : ℚ => x * x) (⟨[2, 2], fun k => if k = 1 ∨ k = 2 then 1 else 0⟩ : NDArray ℚ) = .ok true := by decide +kernel
  have hq : enumQ {0} = [0] := by
    have h := he {0}
    have hl : (enumQ {0}).Perm [0] := (List.perm_ext_iff_of_nodup h.1 (by simp)).2 fun a => by rw [h.2]; simp
    exact List.perm_singleton.1 hl
  constructor
  · have hp : prepare (sampleArgs ℚ (fun x => x * x) 1 false false none enum 50) [((⟨[2, 2], fun k => if k = 1 ∨ k = 2 then 1 else 0⟩ : NDArray ℚ), [0])]
        none = some (.ok ([.classical ⟨[2, 2], fun k => if (if k = 1 ∨ k = 2 then (1 : ℚ) else 0) ≠ 0 then 1 else 0⟩ [0]], {0})) := by
      simp [prepare, allowed, prepareLoop, prepareGate, sampleArgs, hc]
    have hs : stepClassical [0] ⟨[2, 2], fun k => if (if k = 1 ∨ k = 2 then (1 : ℚ) else 0) ≠ 0 then 1 else 0⟩ [0] [0] = .ok [1] := by
      decide +kernel
    have hr : ∀ s : Unit, runSteps (rngFlip fun s : Unit => ((0 : ℚ), s)) (fun x : ℚ => x * x) enum [0]
        [.classical ⟨[2, 2], fun k => if (if k = 1 ∨ k = 2 then (1 : ℚ) else 0) ≠ 0 then 1 else 0⟩ [0]] [0] s = (.ok [1], s) := by
      intro s
      simp only [runSteps, hs]
      rfl
    refine ⟨1, ?_⟩
    simp only [sampleCirq, cirqToArrays, CirqOp.ignored, if_true, Bool.false_eq_true, if_false, sample, hp]
    simp only [sampleFrom, sampleArgs, plainArgs, Option.getD_none, hq, List.length_cons, List.length_nil, List.replicate, sampleLoop]
    rw [hr]
    simp only [hr]
    decide +kernel
  · have h01 : ({0, 1} : Finset ℕ) ≠ {0} := by decide
    simp [sampleCirq, cirqToArrays, CirqOp.ignored, sample, prepare, allowed, sampleArgs, hc, h01]

/-- The matrix of CNOT in `qiskit`: the control is the first qubit, which is the least significant. -/
def littleCX : NDArray (ZMod 7) := ⟨[4, 4], fun k => if k = 0 ∨ k = 7 ∨ k = 10 ∨ k = 13 then 1 else 0⟩

/-- C69 fails for `qiskit`: the first qubit is taken as the most significant, so that control and target of a CNOT are exchanged. After NOT on qubit 0
and CNOT from qubit 0 to qubit 1, both are 1; the network has the amplitude 0. -/
theorem C69_qiskit_violated :
    (∀ ψ : (ℕ → ℕ) → ZMod 7, ∀ x, BitVals x → applyLE (littleCX, [0, 1]) ψ x = ψ (Function.update x 1 ((x 0 + x 1) % 2))) ∧
    valueOf (loadQiskit (modArgs true) () [⟨some modX, [0]⟩, ⟨some littleCX, [0, 1]⟩] (.str "0") (.str "1")) = some 0 ∧
    amplitudeLE [(modX, [0]), (littleCX, [0, 1])] [0, 1] (stateOf 2 (.str "0")) (stateOf 2 (.str "1")) (fun _ => 0) (fun _ => 0) = 1 := by
  refine ⟨fun ψ x hx => ?_, by decide +kernel, by decide +kernel⟩
  have h0 := hx 0
  have h1 := hx 1
  have e : ∀ a b, Function.update (Function.update x 0 a) 1 b 0 = a ∧ Function.update (Function.update x 0 a) 1 b 1 = b := fun a b => by
    simp [Function.update_apply]
  have eu : ∀ a, x 0 = a → Function.update x 0 a = x := by
    rintro a rfl
    exact Function.update_eq_self 0 x
  unfold applyLE entryLE
  simp only [sumOver, List.map_cons, List.map_nil, leVal, Finset.sum_range_succ, Finset.sum_range_zero, zero_add]
  simp only [e]
  interval_cases h0' : x 0 <;> interval_cases h1' : x 1 <;> simp [littleCX, NDArray.get, ravel, eu _ rfl]

/-- The hypotheses of `C69_cirq_partial`: a sub-circuit of two gates NOT, whose unitary is the identity, a CNOT, and a measurement of both qubits. The
network is loaded with a simplification, and from 00 to 00 its value is 1. -/
example : ∃ (ops : List (CirqOp ℕ (ZMod 7))) (evss : List (List (QEvent ℕ (ZMod 7)))), List.Forall₂ CirqOp.Is ops evss ∧ Separate evss ∧
    (∀ q ∈ eventQubits evss.flatten, q ∈ (eventGates evss.flatten).flatMap Prod.snd) ∧ (eventGates evss.flatten).length = 3 ∧
    (modArgs true).g.Ok ∧ EnumOk (modArgs true).enumN ∧ EnumOk (modArgs true).enum ∧
    12 * (ops.map fun o => o.qubits.length).sum < (modArgs true).fuel ∧ valueOf (loadCirq (modArgs true) () ops (.str "0") (.str "0")) = some 1 := by
  refine ⟨[⟨false, some (eyeGate 0).1, [0]⟩, ⟨false, some modCX, [0, 1]⟩, ⟨true, none, [1, 0]⟩],
    [[.gate modX [0], .gate modX [0]], [.gate modCX [0, 1]], [.measure [1, 0]]], .cons ⟨by simp, by simp [eventQubits, QEvent.qubits], fun _ => ?_⟩
      (.cons (cirq_gate _ _ modCX_ok.1 modCX_ok.2) (.cons (cirq_measure _) .nil)), fun evs h1 h2 => ?_, ?_, rfl, zeroRng_ok, positions_ok, listStages_ok,
    by decide +kernel, by decide +kernel⟩
  · refine ⟨_, rfl, ⟨by simp, by simp, rfl⟩, (by decide +kernel : ∀ r < 2 ^ 1, ∀ c < 2 ^ 1,
      ∑ k ∈ Finset.range (2 ^ 1), star ((eyeGate (K := ZMod 7) 0).1.get [k, r]) * (eyeGate (K := ZMod 7) 0).1.get [k, c] = if r = c then 1 else 0),
      fun ψ x hx => ?_⟩
    rw [show (((eyeGate 0).1, [0]) : Gate ℕ (ZMod 7)) = eyeGate 0 from rfl, eye_apply 0 ψ hx]
    change ψ x = applyGate (modX, [0]) (applyGate (modX, [0]) ψ) x
    rw [applyGate_one rfl, applyGate_one rfl, applyGate_one rfl]
    have h0 := hx 0
    have eu : ∀ a, x 0 = a → Function.update x 0 a = x := by
      rintro a rfl
      exact Function.update_eq_self 0 x
    interval_cases h : x 0 <;> simp [modX, NDArray.get, ravel, eu _ rfl]
  · simp only [List.mem_cons, List.not_mem_nil, or_false] at h1
    rcases h1 with rfl | rfl | rfl
    · simp at h2
    · simp at h2
    · rfl
  · simp [eventQubits, eventGates, QEvent.qubits, QEvent.gate?]

/-- The exchange of two qubits. -/
def modSwap : NDArray (ZMod 7) := ⟨[4, 4], fun k => if k = 0 ∨ k = 6 ∨ k = 9 ∨ k = 15 then 1 else 0⟩

/-- The hypotheses of `C69_qiskit_partial`: a gate NOT on qubit 0, and the exchange of the qubits 0 and 1. -/
example : ∃ gates : List (NDArray (ZMod 7) × List ℕ), (∀ g ∈ gates, IsGate g) ∧ (∀ g ∈ gates, Palindromic g) ∧ (∀ g ∈ gates, IsUnitary g) ∧
    12 * (gates.map fun g => g.2.length).sum < (modArgs true).fuel ∧
    valueOf (loadQiskit (modArgs true) () (gates.map fun g => ⟨some g.1, g.2⟩) (.str "0") (.dict [(0, .token "0"), (1, .token "1")])) = some 1 := by
  refine ⟨[(modX, [0]), (modSwap, [0, 1])], ?_, ?_, ?_, by decide +kernel, by decide +kernel⟩
  · simp only [List.forall_mem_cons, List.not_mem_nil, false_implies, implies_true, and_true]
    exact ⟨(modX_ok 0).1, by simp, by simp, rfl⟩
  · simp only [List.forall_mem_cons, List.not_mem_nil, false_implies, implies_true, and_true]
    refine ⟨C69_one_qubit _ rfl, fun l m hl hm hbl hbm => ?_⟩
    obtain ⟨a, b, rfl⟩ := List.length_eq_two.1 hl
    obtain ⟨c, d, rfl⟩ := List.length_eq_two.1 hm
    have ha := hbl a (by simp)
    have hb := hbl b (by simp)
    have hc := hbm c (by simp)
    have hd := hbm d (by simp)
    interval_cases a <;> interval_cases b <;> interval_cases c <;> interval_cases d <;> rfl
  · simp only [List.forall_mem_cons, List.not_mem_nil, false_implies, implies_true, and_true]
    exact ⟨(modX_ok 0).2, (by decide +kernel : ∀ r < 2 ^ 2, ∀ c < 2 ^ 2,
      ∑ k ∈ Finset.range (2 ^ 2), star (modSwap.get [k, r]) * modSwap.get [k, c] = if r = c then 1 else 0)⟩

/-- The hypotheses of `C69_sample_cirq_partial` on the circuit: a gate NOT, a CNOT and a measurement of both qubits. -/
example : ∃ (ops : List (CirqOp ℕ (ZMod 7))) (evss : List (List (QEvent ℕ (ZMod 7)))), List.Forall₂ CirqOp.Is ops evss ∧ Separate evss ∧
    (∀ q ∈ eventQubits evss.flatten, q ∈ (eventGates evss.flatten).flatMap Prod.snd) ∧
    ∀ o ∈ ops, ∀ u, o.measurement = false → o.unitary = some u → SampleGate (u, o.qubits) := by
  refine ⟨[⟨false, some modX, [0]⟩, ⟨false, some modCX, [0, 1]⟩, ⟨true, none, [0, 1]⟩],
    [[.gate modX [0]], [.gate modCX [0, 1]], [.measure [0, 1]]], .cons (cirq_gate _ _ (modX_ok 0).1 (modX_ok 0).2)
      (.cons (cirq_gate _ _ modCX_ok.1 modCX_ok.2) (.cons (cirq_measure _) .nil)), fun evs h1 h2 => ?_, ?_, ?_⟩
  · simp only [List.mem_cons, List.not_mem_nil, or_false] at h1
    rcases h1 with rfl | rfl | rfl
    · simp at h2
    · simp at h2
    · rfl
  · simp [eventQubits, eventGates, QEvent.qubits, QEvent.gate?]
  · intro o ho u hm hu
    simp only [List.mem_cons, List.not_mem_nil, or_false] at ho
    rcases ho with rfl | rfl | rfl
    · cases hu
      exact ⟨(modX_ok 0).1, .inr ⟨rfl, (modX_ok 0).2⟩⟩
    · cases hu
      refine ⟨modCX_ok.1, .inl ⟨⟨Equiv.swap 2 3, ?_⟩, ?_⟩⟩
      · exact (by decide +kernel : ∀ i j : Fin 4, modCX.get [(i : ℕ), j] ≠ 0 ↔ i = Equiv.swap 2 3 j)
      · exact (by decide +kernel : ∀ i j : Fin 4, modCX.get [(i : ℕ), j] ≠ 0 → star (modCX.get [(i : ℕ), j]) * modCX.get [(i : ℕ), j] = 1)
    · cases hu

end TNCO
