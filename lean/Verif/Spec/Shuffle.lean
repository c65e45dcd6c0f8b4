import Verif.Model.Shuffle
import Mathlib.Data.List.Permutation
import Mathlib.Data.List.GetD

/-!
# Spec: shuffles as choices

A shuffle exchanges entry 1 with one of the entries up to 1, then entry 2 with one of those up to 2, and so on.
-/

namespace TNCO

/-- The choices are made from entry `i` on: entry `i` changes places with entry `c ≤ i`, and so on. -/
def arrange : ℕ → List ℕ → List ℕ → List ℕ
  | _, [], l => l
  | i, c :: cs, l => arrange (i + 1) cs (swapPos l i c)

/-- The choices for `k` entries from number `i` on. -/
def ChoicesOk : ℕ → List ℕ → Prop
  | _, [] => True
  | i, c :: cs => c ≤ i ∧ ChoicesOk (i + 1) cs

/-- All choices for `k` entries from number `i` on. -/
def allChoices : ℕ → ℕ → List (List ℕ)
  | _, 0 => [[]]
  | i, k + 1 => (List.range (i + 1)).flatMap fun c => (allChoices (i + 1) k).map (c :: ·)

/-- What becomes of one number of 32 bits: `none` if it is rejected. -/
def scaled (range x : ℕ) : Option ℕ := if x * range % 2 ^ 32 < 2 ^ 32 % range then none else some (x * range / 2 ^ 32)

end TNCO
