import Verif.Spec.Einsum
import Verif.Model.NDArray
import Mathlib.Algebra.Star.Basic

/-!
# Specification: what a circuit does to a state

A state of the qubits `Q` is a function of the value (0 or 1) of each qubit.
-/

namespace TNCO
variable {Q K : Type} [DecidableEq Q] [CommRing K]

/-- The number written with the given binary digits, most significant first. -/
def binVal (l : List ℕ) : ℕ := l.foldl (fun n b => 2 * n + b) 0

/-- All values are 0 or 1. -/
def BitVals (x : Q → ℕ) : Prop := ∀ q, x q < 2

/-- The entry of the matrix of a gate between two basis states. -/
def entry (g : NDArray K × List Q) (x y : Q → ℕ) : K := g.1.get [binVal (g.2.map x), binVal (g.2.map y)]

/-- The state after a gate. -/
def applyGate (g : NDArray K × List Q) (ψ : (Q → ℕ) → K) (x : Q → ℕ) : K :=
  sumOver (fun _ => 2) g.2 (fun y => entry g x y * ψ y) x

/-- The state after all gates of a circuit, in order. -/
def runCircuit (gates : List (NDArray K × List Q)) (ψ : (Q → ℕ) → K) : (Q → ℕ) → K :=
  gates.foldl (fun ψ g => applyGate g ψ) ψ

/-- A square matrix of the right size for its distinct qubits. -/
structure IsGate (g : NDArray K × List Q) : Prop where
  nonempty : g.2 ≠ []
  nodup : g.2.Nodup
  shape : g.1.shape = [2 ^ g.2.length, 2 ^ g.2.length]

/-- The columns of the matrix are orthonormal. -/
def IsUnitary [StarRing K] (g : NDArray K × List Q) : Prop :=
  ∀ r < 2 ^ g.2.length, ∀ c < 2 ^ g.2.length,
    ∑ k ∈ Finset.range (2 ^ g.2.length), star (g.1.get [k, r]) * g.1.get [k, c] = if r = c then 1 else 0

/-- The entry `k` of a vector, or of the basis vector `k0` if there is none. -/
def factorAt : Option (ℕ → K) → ℕ → ℕ → K
  | some a, _, k => a k
  | none, k0, k => if k = k0 then 1 else 0

/-- A product state of the given qubits; qubits without a vector are in the basis state `x0`. -/
def productState (qubits : List Q) (v : Q → Option (ℕ → K)) (x0 x : Q → ℕ) : K := (qubits.map fun q => factorAt (v q) (x0 q) (x q)).prod

/-- The matrix element of a circuit between two product states: `v` before the gates, `w` (to be conjugated) after them. -/
def amplitude [StarRing K] (gates : List (NDArray K × List Q)) (qubits : List Q) (v w : Q → Option (ℕ → K)) (x0 x1 : Q → ℕ) : K :=
  sumOver (fun _ => 2) qubits
    (fun x => productState qubits (fun q => (w q).map fun b k => star (b k)) x1 x * runCircuit gates (productState qubits v x0) x) fun _ => 0

/-- The vectors that the four tokens stand for; `r` is `1 / sqrt 2`. -/
def tokenVec (r : K) (s : String) : Option (ℕ → K) :=
  ([("0", ((1 : K), (0 : K))), ("1", (0, 1)), ("+", (r, r)), ("-", (r, -r))].lookup s).map fun p k => if k = 0 then p.1 else p.2

end TNCO
