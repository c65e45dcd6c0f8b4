import Verif.Model.CostText
import Verif.Spec.Program

/-!
# Specification: costs in JSON
-/

namespace TNCO

/-- The texts of the costs of results are those that Python writes (`C92_functions`: there are such functions). -/
def PyDecimal (fixed : Bool) (total : ℚ → List ℕ) : Prop :=
  ∀ (l : List (Option ℕ)) (d : Dec), sumCost (l.map (partCost fixed)) = some d → total d.value = d.str

/-- The cost `q` in JSON: the number `0`, or a string that `Decimal` reads as `q`. -/
def CostRead (q : ℚ) (j : Json) : Prop := (q = 0 ∧ j = natJson 0) ∨ ∃ s d, j = .str s ∧ Dec.ofText s = some d ∧ d.value = q

/-- An object whose first entry, `cost`, is `q`. -/
def ShowsCost (q : ℚ) (j : Json) : Prop := ∃ c more, j = .obj ((keyCost, c) :: more) ∧ CostRead q c

end TNCO
