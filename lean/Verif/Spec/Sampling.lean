import Verif.Spec.Circuit
import Mathlib.Algebra.Order.Field.Basic

/-!
# Specification: what it means to sample from a circuit
-/

namespace TNCO
variable {Q K R : Type} [DecidableEq Q] [Field K] [StarRing K] [Field R] [LinearOrder R]

/-- `sq a` is the squared modulus of `a`: `star a * a`, as an element of an ordered field that is embedded in `K`. -/
structure IsAbsSq (sq : K → R) where
  emb : R →+* K
  emb_sq : ∀ a, emb (sq a) = star a * a
  nonneg : ∀ a, 0 ≤ sq a

/-- The matrix maps every basis state to a single basis state, up to a phase, and does so one-to-one. -/
def IsMonomial (r : ℕ) (m : NDArray K) : Prop :=
  (∃ σ : Equiv.Perm (Fin r), ∀ i j : Fin r, m.get [(i : ℕ), j] ≠ 0 ↔ i = σ j) ∧
    ∀ i j : Fin r, m.get [(i : ℕ), j] ≠ 0 → star (m.get [(i : ℕ), j]) * m.get [(i : ℕ), j] = 1

/-- The state in which all the given qubits are 0. -/
def zeroState (qubits : List Q) (x : Q → ℕ) : K := if ∀ q ∈ qubits, x q = 0 then 1 else 0

/-- Born's rule: the probability to find the values `x` after the circuit. -/
def born (sq : K → R) (gates : List (NDArray K × List Q)) (qubits : List Q) (x : Q → ℕ) : R := sq (runCircuit gates (zeroState qubits) x)

/-- Finite probability distributions: values with their weights. -/
def Dist (R α : Type) : Type := List (R × α)

instance : Monad (Dist R) where
  pure a := [(1, a)]
  bind d f := List.flatMap (fun e : R × _ => (f e.2).map fun e' : R × _ => (e.1 * e'.1, e'.2)) d

/-- The expected value of a function. -/
def Dist.expect {α : Type} (d : Dist R α) (g : α → R) : R := (List.map (fun e : R × α => e.1 * g e.2) d).sum

/-- The probability of an event. -/
def Dist.prob {α : Type} (d : Dist R α) (p : α → Prop) [DecidablePred p] : R := d.expect fun a => if p a then 1 else 0

/-- A biased coin. -/
def Dist.flip (p : R) : Dist R Bool := [(p, true), (1 - p, false)]

end TNCO
