import Verif.Model.LoadGates
import Verif.Model.Sampling

/-!
# Circuits of `cirq` and `qiskit`: `tnco/utils/circuit.py:518-603`, `tnco/app/circuit/sampling.py:372-412`

An operation is what the code asks `cirq` or `qiskit` about it. `dtype` and `backend` do nothing, as in `Model/CircuitLoad.lean`.
-/

namespace TNCO
variable {Q K S σ W R : Type} [DecidableEq Q] [Field K] [StarRing K] [DecidableEq K]

/-- An operation of `cirq`: `cirq.is_measurement(op)`, `cirq.unitary(op)` (`none`: it raises `TypeError`), `op.qubits`. -/
structure CirqOp (Q K : Type) where
  measurement : Bool
  unitary : Option (NDArray K)
  qubits : List Q

/-- circuit.py:538-543 `ignore_gate` -/
def CirqOp.ignored {Q K : Type} (o : CirqOp Q K) : Bool := if o.measurement then true else false

/-- circuit.py:522-550 `cirq_to_arrays` -/
def cirqToArrays {Q K : Type} : List (CirqOp Q K) → Except PyErr (List (Gate Q K))
  | [] => .ok []
  | o :: ops =>
    if o.ignored then cirqToArrays ops
    else
      match o.unitary with
      | none => .error .typeError
      | some u =>
        match cirqToArrays ops with
        | .error e => .error e
        | .ok gates => .ok ((u, o.qubits) :: gates)

/-- An instruction of `qiskit`: `g.matrix` (`none`: it is `None`) and `g.qubits`. -/
structure QiskitOp (Q K : Type) where
  matrix : Option (NDArray K)
  qubits : List Q

/-- circuit.py:575-592 `qiskit_to_arrays`: `asarray(None)` is an array without dimensions, here `none`. -/
def qiskitToArrays {Q K : Type} (ops : List (QiskitOp Q K)) : List (Option (NDArray K) × List Q) := ops.map fun o => (o.matrix, o.qubits)

/-- The gates, if all of them have a matrix. -/
def matrices {Q K : Type} : List (Option (NDArray K) × List Q) → Option (List (Gate Q K))
  | [] => some []
  | (none, _) :: _ => none
  | (some m, qs) :: gs => (matrices gs).map fun gates => (m, qs) :: gates

section
variable [Zero W] [Add W] [LT W] [DecidableLT W]

/-- circuit.py:552-558, 560-566: `load` of a circuit or a moment, given its operations. -/
def loadCirq (A : LoadArgs Q K S σ W) (seed : S) (ops : List (CirqOp Q K)) (init fin : PyState Q K) :
    Option (Except PyErr (List (NDArray K) × List (List (Q × Stage)) × Finset (Q × Stage))) :=
  match cirqToArrays ops with
  | .error e => some (.error e)
  | .ok gates => load A seed gates init fin

/-- circuit.py:594-600: `load` of a circuit of `qiskit`. An array of `None` has no `conj` (363), and cannot be reshaped to the dimensions of
a gate (419). -/
def loadQiskit (A : LoadArgs Q K S σ W) (seed : S) (ops : List (QiskitOp Q K)) (init fin : PyState Q K) :
    Option (Except PyErr (List (NDArray K) × List (List (Q × Stage)) × Finset (Q × Stage))) :=
  match matrices (qiskitToArrays ops) with
  | none => some (.error (if A.simplify then .typeError else .valueError))
  | some gates => load A seed gates init fin

/-- app.py:511-535: `load_tn` of a circuit of `cirq`. -/
def loadTnCirq (A : LoadArgs Q K S σ W) (seed : S) (ops : List (CirqOp Q K)) (init fin : PyState Q K) :
    Option (Except PyErr (NetworkRec (Q × Stage) × List (NDArray K))) :=
  match cirqToArrays ops with
  | .error e => some (.error e)
  | .ok gates => loadGates A seed gates init fin

/-- sampling.py:378-384, 386-392: `sample` of a circuit or a moment of `cirq`. -/
def sampleCirq [Field R] [LinearOrder R] {τ : Type} (A : SampleArgs Q K R S σ W) (random : τ → R × τ) (s : τ) (enumQ : Finset Q → List Q)
    (ops : List (CirqOp Q K)) (order : Option (List Q)) (n : ℕ) (normalize : Bool) : Option (Except PyErr (List (List ℕ × R) × List Q)) :=
  match cirqToArrays ops with
  | .error e => some (.error e)
  | .ok gates => sample A random s enumQ gates order n normalize

/-- The keyword arguments that `load` knows (circuit.py:205-215, 340). -/
def loadKeywords : List String :=
  ["initial_state", "final_state", "simplify", "use_matrix_commutation", "decompose_hyper_inds", "fuse", "dtype", "atol", "backend", "seed", "verbose",
    "_qubits"]

/-- sampling.py:403-409: `sample` of a circuit of `qiskit`, with `args` positional arguments after the circuit, and keyword arguments. It calls
`load`, which takes no further positional argument (circuit.py:203-204) and refuses other keywords (343-344). -/
def sampleQiskit (A : LoadArgs Q K S σ W) (seed : S) (ops : List (QiskitOp Q K)) (init fin : PyState Q K) (args : ℕ) (keywords : List String) :
    Option (Except PyErr (List (NDArray K) × List (List (Q × Stage)) × Finset (Q × Stage))) :=
  if args ≠ 0 then some (.error .typeError)
  else if keywords.any (· ∉ loadKeywords) then some (.error .typeError)
  else loadQiskit A seed ops init fin

end

end TNCO
