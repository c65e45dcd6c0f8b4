import Mathlib.Data.Finset.Basic
import Mathlib.Data.Nat.Notation

/-!
# Specification: executing a list of pairwise contractions
-/

namespace TNCO

/-- Executes contractions `(x, y) ↦ z` on a set of available tensors: both
operands must be available and different, the result must be new; the operands
are consumed. `none` = the order is not executable. -/
def execute : Finset ℕ → List (ℕ × ℕ × ℕ) → Option (Finset ℕ)
  | av, [] => some av
  | av, (x, y, z) :: rest =>
    if x ∈ av ∧ y ∈ av ∧ x ≠ y ∧ z ∉ av then
      execute (insert z ((av.erase x).erase y)) rest
    else none

end TNCO
