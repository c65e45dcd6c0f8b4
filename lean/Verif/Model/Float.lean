import Verif.Model.FiniteWidth
import Mathlib.Data.Int.Log
import Mathlib.Data.Rat.Floor

/-!
# Floating-point costs

The types of `EXPAND_COST_TYPE` (`include/tnco/globals.hpp:100-103`): binary floating-point numbers with `prec` bits, rounded to nearest with ties to even
(the default of IEEE 754, and `MPFR_RNDN` for `FixedFloat`), with overflow to infinity. Costs are sums and differences of integers, so numbers below the
normal range do not occur; the sign of zero is not represented. `float128` is `long double`, here the 80-bit format of x86.
-/

namespace TNCO

structure FloatFormat where
  prec : ℕ
  emax : ℕ
deriving DecidableEq

def float32 : FloatFormat := ⟨24, 127⟩
def float64 : FloatFormat := ⟨53, 1023⟩
def float128 : FloatFormat := ⟨64, 16383⟩
/-- `FixedFloat<1024>` (globals.hpp:43) with the default exponent range of MPFR. -/
def float1024 : FloatFormat := ⟨1024, 2 ^ 30 - 2⟩

/-- The nearest integer, the even one of two. -/
def roundEven (x : ℚ) : ℤ :=
  if x - ⌊x⌋ < 1 / 2 then ⌊x⌋
  else if 1 / 2 < x - ⌊x⌋ then ⌊x⌋ + 1
  else if ⌊x⌋ % 2 = 0 then ⌊x⌋ else ⌊x⌋ + 1

/-- The exponent of the last of `prec` bits. -/
def ulpExp (prec : ℕ) (x : ℚ) : ℤ := Int.log 2 |x| + 1 - prec

/-- The nearest number with `prec` bits, for any exponent. -/
def roundTo (prec : ℕ) (x : ℚ) : ℚ :=
  if x = 0 then 0 else (roundEven (x / (2 : ℚ) ^ ulpExp prec x) : ℚ) * (2 : ℚ) ^ ulpExp prec x

inductive Flt where
  | fin (q : ℚ)
  | inf (neg : Bool)
  | nan
deriving DecidableEq

/-- A number of a format. -/
def Fl (_F : FloatFormat) : Type := Flt

def Fl.of {F : FloatFormat} (x : Flt) : Fl F := x

instance (F : FloatFormat) : DecidableEq (Fl F) := inferInstanceAs (DecidableEq Flt)

/-- Rounding with overflow. -/
def FloatFormat.round (F : FloatFormat) (x : ℚ) : Fl F :=
  if 2 ^ (F.emax + 1) ≤ roundTo F.prec x then Flt.inf false
  else if roundTo F.prec x ≤ - 2 ^ (F.emax + 1) then Flt.inf true
  else Flt.fin (roundTo F.prec x)

def Flt.neg : Flt → Flt
  | .fin q => .fin (- q)
  | .inf s => .inf (!s)
  | .nan => .nan

def Flt.add (rnd : ℚ → Flt) : Flt → Flt → Flt
  | .fin a, .fin b => rnd (a + b)
  | .fin _, .inf t => .inf t
  | .inf s, .fin _ => .inf s
  | .inf s, .inf t => if s = t then .inf s else .nan
  | _, _ => .nan

def Flt.mul (rnd : ℚ → Flt) : Flt → Flt → Flt
  | .fin a, .fin b => rnd (a * b)
  | .fin a, .inf t => if a = 0 then .nan else .inf (t != decide (a < 0))
  | .inf s, .fin b => if b = 0 then .nan else .inf (s != decide (b < 0))
  | .inf s, .inf t => .inf (s != t)
  | _, _ => .nan

def Flt.ltb : Flt → Flt → Bool
  | .fin a, .fin b => decide (a < b)
  | .fin _, .inf t => !t
  | .inf s, .fin _ => s
  | .inf s, .inf t => s && !t
  | _, _ => false

instance (F : FloatFormat) : Zero (Fl F) := ⟨Flt.fin 0⟩
instance (F : FloatFormat) : Add (Fl F) := ⟨Flt.add F.round⟩
instance (F : FloatFormat) : Sub (Fl F) := ⟨fun x y => Flt.add F.round x (Flt.neg y)⟩
instance (F : FloatFormat) : Mul (Fl F) := ⟨Flt.mul F.round⟩
instance (F : FloatFormat) : LT (Fl F) := ⟨fun x y => Flt.ltb x y = true⟩
instance (F : FloatFormat) : DecidableLT (Fl F) := fun x y => inferInstanceAs (Decidable (Flt.ltb x y = true))

/-- Conversion from another format. -/
def FloatFormat.convert (F : FloatFormat) : Flt → Fl F
  | .fin q => F.round q
  | .inf s => Flt.inf s
  | .nan => Flt.nan

/-- Conversion from `size_t`. -/
def FloatFormat.ofNat (F : FloatFormat) (n : ℕ) : Fl F := F.round n

/-- infinite_memory/cost_model/simple.hpp:37-55 `get_cost(inds, dims)`. For a common dimension, `std::pow` has integers as arguments and returns a `double`
(taken to be correctly rounded), which is converted; otherwise `cost_ *= dims[pos]` in the order of the positions. -/
def floatGet (F : FloatFormat) (dims : Dims) (inds : ISet) : Fl F :=
  match dims with
  | .int d => F.convert (float64.round ((d : ℚ) ^ inds.card))
  | .vec l => (ISet.positions inds).foldl (fun c p => c * F.ofNat (l.getD p 0)) (F.ofNat 1)

/-- simple.hpp:57-88 -/
def floatModel (F : FloatFormat) (dims : Dims) : CostModel (Fl F) := ⟨floatGet F dims⟩

/-- simple_sparse_inds.hpp:37-49: `x < n_projs` compares in the cost type. -/
def floatSparseGet (F : FloatFormat) (sparse : ISet) (nProjs : ℕ) (dims : Dims) (inds : ISet) : Fl F :=
  floatGet F dims (inds \ sparse) *
    (if floatGet F dims (inds ∩ sparse) < F.ofNat nProjs then floatGet F dims (inds ∩ sparse) else F.ofNat nProjs)

/-- simple_sparse_inds.hpp:62-88: constructor (`none` = `runtime_error`). -/
def floatSparseModel (F : FloatFormat) (sparse : ISet) (nProjs : ℕ) (dims : Dims) : Option (CostModel (Fl F)) :=
  if nProjs = 0 then none else some ⟨floatSparseGet F sparse nProjs dims⟩

/-- infinite_memory/optimizer.hpp:77-84: `log2(x)` is infinite or NaN. -/
def Fl.badLog {F : FloatFormat} (x : Fl F) : Prop :=
  match (show Flt from x) with
  | .fin q => q ≤ 0
  | _ => True

instance {F : FloatFormat} : DecidablePred (Fl.badLog (F := F)) := fun x =>
  match x with
  | .fin q => inferInstanceAs (Decidable (q ≤ 0))
  | .inf _ => isTrue trivial
  | .nan => isTrue trivial

end TNCO
