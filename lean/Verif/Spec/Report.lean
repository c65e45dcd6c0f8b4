import Verif.Model.Anneal

/-!
# Specification: reported costs
-/

namespace TNCO

/-- A number with at most `p` significant decimal digits. -/
def IsDec (p : ℕ) (x : ℚ) : Prop := ∃ m k : ℤ, |m| < 10 ^ p ∧ x = m * (10 : ℚ) ^ k

/-- `y` is a number with at most `p` significant digits, and none is nearer to `x`. -/
def NearestDec (p : ℕ) (x y : ℚ) : Prop := IsDec p y ∧ ∀ z, IsDec p z → |y - x| ≤ |z - x|

/-- How many digits of the cost of one path are reported: 28 for `float1024`, else six. -/
def reportDigits (fixed : Bool) : ℕ := if fixed then 28 else 6

/-- The relative error of a reported cost. -/
def shownErr (fixed : Bool) : ℚ := if fixed then 0 else 5 / 10 ^ 6

/-- A result as it is reported: the same paths; each cost as `Decimal(tnco::to_string(cost))`; their sum. -/
structure InfReported (fixed : Bool) (r : InfResult) (r' : InfResultOf ℚ) : Prop where
  path : r'.path = r.path
  paths : r'.paths = r.paths
  costs : r'.costs = r.costs.map (shownCost fixed)
  cost : r'.cost = decimalSum r'.costs

/-- The same for finite width. -/
structure FwReported {ι : Type} (fixed : Bool) (r : FwResult ι) (r' : FwResultOf ℚ ι) : Prop where
  path : r'.path = r.path
  paths : r'.paths = r.paths
  slices : r'.slices = r.slices
  slicesList : r'.slicesList = r.slicesList
  costs : r'.costs = r.costs.map (shownCost fixed)
  cost : r'.cost = decimalSum r'.costs

end TNCO
