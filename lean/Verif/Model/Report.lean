import Verif.Model.Float

/-!
# How costs are reported

Python sees the costs of an optimizer as `Decimal(tnco::to_string(cost))` (infinite_memory/optimizer.hpp:273-284,
finite_width/greedy/optimizer.hpp:478-489), and the apps add them with `sum`. A C++ stream prints a floating-point number with six significant digits, ties
to even (the default of `std::ostringstream`, globals.hpp:47-52); a `float1024` is printed with 308 digits after the point (fixed_float.hpp:63-66, 247-255). A
sum of `Decimal`s is rounded to 28 significant digits, ties to even (the default context of `decimal`). Only values are modelled here; the text is in
`Model/CostText.lean`.
-/

namespace TNCO

/-- Rounding to `p` significant decimal digits, ties to even. -/
def roundSig (p : ℕ) (x : ℚ) : ℚ :=
  if x = 0 then 0 else roundEven (x / (10 : ℚ) ^ (Int.log 10 |x| + 1 - p)) * (10 : ℚ) ^ (Int.log 10 |x| + 1 - p)

/-- Rounding to `k` digits after the point, ties to even. -/
def roundPoint (k : ℕ) (x : ℚ) : ℚ := roundEven (x * 10 ^ k) / 10 ^ k

/-- How an app reports costs: the value of `min_total_cost`, the `0` of a trivial path, and `sum`. -/
structure Printer (C : Type) where
  shown : ℤ → C
  zero : C
  total : List C → C

/-- Costs as they are, for comparison. -/
def exactPrinter : Printer ℤ := ⟨id, 0, List.sum⟩

/-- `sum` of `Decimal`s, with the default context. -/
def decimalSum (l : List ℚ) : ℚ := l.foldl (fun a x => roundSig 28 (a + x)) 0

/-- `Decimal(tnco::to_string(cost))` (infinite_memory/optimizer.hpp:273-284, finite_width/greedy/optimizer.hpp:478-489) for the cost types `float32`, `float64` and
`float128`, or (`fixed`) for `float1024`. -/
def shownCost (fixed : Bool) (c : ℤ) : ℚ := if fixed then roundPoint 308 c else roundSig 6 c

/-- What the apps do (infinite_memory/sa.py:173, 210, 215; finite_width/sa.py:192, 233, 239). -/
def costPrinter (fixed : Bool) : Printer ℚ := ⟨shownCost fixed, 0, decimalSum⟩

end TNCO
