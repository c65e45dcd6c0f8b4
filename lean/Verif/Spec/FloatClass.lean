import Verif.Model.FloatClass
import Mathlib.Algebra.Order.Ring.Rat

/-! What it means to round correctly. -/

namespace TNCO

/-- A number with at most `p` bits. -/
def HasBits (p : ℕ) (q : ℚ) : Prop := ∃ k e : ℤ, |k| < 2 ^ p ∧ q = k * (2 : ℚ) ^ e

/-- The nearest number with `p` bits; of two, the even one. -/
structure Nearest (p : ℕ) (x r : ℚ) : Prop where
  bits : HasBits p r
  nearest : ∀ q, HasBits p q → |r - x| ≤ |q - x|
  even : ∀ q, HasBits p q → |q - x| = |r - x| → q = r ∨
    ∃ k e : ℤ, r = (2 * k : ℤ) * (2 : ℚ) ^ e ∧ (q = (2 * k + 1 : ℤ) * (2 : ℚ) ^ e ∨ q = (2 * k - 1 : ℤ) * (2 : ℚ) ^ e)

/-- The formats for which the theorems are stated. -/
structure MpfFormat.Ok (F : MpfFormat) : Prop where
  prec : 1 ≤ F.prec
  range : F.lo ≤ F.hi

/-- Doubles have a place in the format. -/
structure MpfFormat.Wide (F : MpfFormat) : Prop where
  prec : 53 ≤ F.prec
  lo : F.lo ≤ -1074
  hi : 1023 ≤ F.hi

/-- A number of the format. -/
def Mpf.In (F : MpfFormat) : Mpf → Prop
  | .fin _ m => m = 0 ∨ (HasBits F.prec m ∧ (2 : ℚ) ^ F.lo ≤ m ∧ m < (2 : ℚ) ^ (F.hi + 1))
  | _ => True

/-- `r` is what the exact value `v`, not zero, becomes: the nearest number of the format; infinity from the middle between the greatest number and the next
power of two on; below the least number, zero up to the half of it. -/
structure Rounded (F : MpfFormat) (v : ℚ) (r : Mpf) : Prop where
  normal : (2 : ℚ) ^ F.lo ≤ |v| → |v| < (2 - 1 / 2 ^ F.prec) * (2 : ℚ) ^ F.hi →
    ∃ m, 0 ≤ m ∧ r = .fin (decide (v < 0)) m ∧ Nearest F.prec v (signed (decide (v < 0)) m)
  over : (2 - 1 / 2 ^ F.prec) * (2 : ℚ) ^ F.hi ≤ |v| → r = .inf (decide (v < 0))
  under : |v| ≤ (2 : ℚ) ^ (F.lo - 1) → r = .fin (decide (v < 0)) 0
  least : (2 : ℚ) ^ (F.lo - 1) < |v| → |v| < (2 : ℚ) ^ F.lo → r = .fin (decide (v < 0)) ((2 : ℚ) ^ F.lo)

/-- The value of an operation in exact arithmetic. -/
def ArithOp.exact : ArithOp → ℚ → ℚ → ℚ
  | .add, a, b => a + b
  | .sub, a, b => a - b
  | .mul, a, b => a * b
  | .div, a, b => a / b

/-- A `float` of Python: an IEEE double. -/
def IsDouble : Mpf → Prop
  | .fin _ m => ∃ (k : ℕ) (e : ℤ), k < 2 ^ 53 ∧ -1074 ≤ e ∧ e ≤ 971 ∧ m = k * (2 : ℚ) ^ e
  | .inf _ => True
  | .nan _ => True

end TNCO
