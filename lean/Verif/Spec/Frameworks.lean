import Verif.Model.Frameworks
import Verif.Spec.CircuitLoad

/-!
# Specification: what circuits of `cirq` and `qiskit` mean
-/

namespace TNCO
variable {Q K : Type} [DecidableEq Q] [Field K] [StarRing K]

/-- What happens in a circuit: a gate, or a measurement of qubits. -/
inductive QEvent (Q K : Type) where
  | gate (m : NDArray K) (qs : List Q)
  | measure (qs : List Q)

/-- The gate of an event, if it is one. -/
def QEvent.gate? {Q K : Type} : QEvent Q K → Option (NDArray K × List Q)
  | .gate m qs => some (m, qs)
  | .measure _ => none

/-- The qubits of an event. -/
def QEvent.qubits {Q K : Type} : QEvent Q K → List Q
  | .gate _ qs => qs
  | .measure qs => qs

/-- The gates among the events, in order. -/
def eventGates {Q K : Type} (evs : List (QEvent Q K)) : List (NDArray K × List Q) := evs.filterMap QEvent.gate?

/-- The qubits of the events. -/
def eventQubits {Q K : Type} (evs : List (QEvent Q K)) : List Q := evs.flatMap QEvent.qubits

/-- What `cirq` says of an operation in which these events happen: one of them, or, in a sub-circuit, many. An operation is a measurement if it
contains one. Otherwise it has a unitary matrix, in which the first qubit is the most significant. -/
structure CirqOp.Is (o : CirqOp Q K) (evs : List (QEvent Q K)) : Prop where
  measurement : o.measurement = true ↔ ∃ qs, QEvent.measure qs ∈ evs
  qubits : ∀ q, q ∈ o.qubits ↔ q ∈ eventQubits evs
  unitary : o.measurement = false → ∃ u, o.unitary = some u ∧ IsGate (u, o.qubits) ∧ IsUnitary (u, o.qubits) ∧
    ∀ ψ x, BitVals x → applyGate (u, o.qubits) ψ x = runCircuit (eventGates evs) ψ x

/-- Every operation only has gates, or only measurements. -/
def Separate {Q K : Type} (evss : List (List (QEvent Q K))) : Prop := ∀ evs ∈ evss, (∃ qs, QEvent.measure qs ∈ evs) → eventGates evs = []

/-- The number written with the given binary digits, least significant first. -/
def leVal : List ℕ → ℕ
  | [] => 0
  | b :: l => b + 2 * leVal l

/-- The entry of the matrix of a gate of `qiskit`: the first qubit is the least significant. -/
def entryLE (g : NDArray K × List Q) (x y : Q → ℕ) : K := g.1.get [leVal (g.2.map x), leVal (g.2.map y)]

/-- The state after a gate of `qiskit`. -/
def applyLE (g : NDArray K × List Q) (ψ : (Q → ℕ) → K) (x : Q → ℕ) : K := sumOver (fun _ => 2) g.2 (fun y => entryLE g x y * ψ y) x

/-- The state after the gates of a circuit of `qiskit`. -/
def runLE (gates : List (NDArray K × List Q)) (ψ : (Q → ℕ) → K) : (Q → ℕ) → K := gates.foldl (fun ψ g => applyLE g ψ) ψ

/-- The matrix element of a circuit of `qiskit` between two product states (see `amplitude`). -/
def amplitudeLE (gates : List (NDArray K × List Q)) (qubits : List Q) (v w : Q → Option (ℕ → K)) (x0 x1 : Q → ℕ) : K :=
  sumOver (fun _ => 2) qubits
    (fun x => productState qubits (fun q => (w q).map fun b k => star (b k)) x1 x * runLE gates (productState qubits v x0) x) fun _ => 0

/-- The matrix is the same if the qubits of its rows and of its columns are listed in reverse. -/
def Palindromic (g : NDArray K × List Q) : Prop :=
  ∀ l m : List ℕ, l.length = g.2.length → m.length = g.2.length → (∀ b ∈ l, b < 2) → (∀ b ∈ m, b < 2) →
    g.1.get [leVal l, leVal m] = g.1.get [binVal l, binVal m]

end TNCO
