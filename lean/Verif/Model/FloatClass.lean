import Verif.Model.FixedFloat
import Verif.Model.Float
import Verif.Model.PathBuild

/-!
# `float1024` in Python (`include/tnco/fixed_float.hpp`)

The class `FixedFloat<1024>` as a Python program sees it: constructors, operators, conversions, text and pickling. What an MPFR function returns is the
documented value: the exact one, rounded to nearest with ties to even, with the default exponent range. Simplifications: the sign of a NaN that is a result is
positive; `mpfr_pow` is modelled for integer exponents and numbers that are neither zero nor special. A text is a list of characters. Exceptions are those
of pybind11: an argument that no overload takes is a `TypeError`, and a Python number reaches `long double` as a `double`
(`PyFloat_AsDouble`).
-/

namespace TNCO

/-! ## Arithmetic -/

/-- Numbers with `prec` bits and magnitude between `2^lo` and `2^(hi+1)`. -/
structure MpfFormat where
  prec : ℕ
  lo : ℤ
  hi : ℤ
deriving DecidableEq

/-- globals.hpp:43-44; `emin` and `emax` of MPFR are `-(2^30-1)` and `2^30-1`, for a significand between 1/2 and 1. -/
def mpfr1024 : MpfFormat := ⟨1024, -2 ^ 30, 2 ^ 30 - 2⟩

/-- The value of a sign and a magnitude. -/
def signed (neg : Bool) (m : ℚ) : ℚ := if neg then -m else m

/-- What MPFR returns for the exact value `x`, not zero, rounded to nearest. Numbers below the range become zero up to half the least number, else the
least number. -/
def MpfFormat.round (F : MpfFormat) (x : ℚ) : Mpf :=
  if F.hi < Int.log 2 |roundTo F.prec x| then .inf (decide (x < 0))
  else if Int.log 2 |roundTo F.prec x| < F.lo then
    if |x| ≤ (2 : ℚ) ^ (F.lo - 1) then .fin (decide (x < 0)) 0 else .fin (decide (x < 0)) ((2 : ℚ) ^ F.lo)
  else .fin (decide (x < 0)) |roundTo F.prec x|

/-- fixed_float.hpp:86-90, 524 `mpfr_neg`: only the sign changes. -/
def Mpf.neg : Mpf → Mpf
  | .nan s => .nan (!s)
  | .inf s => .inf (!s)
  | .fin s m => .fin (!s) m

/-- fixed_float.hpp:210-214, 525 `mpfr_abs`. -/
def Mpf.abs : Mpf → Mpf
  | .nan _ => .nan false
  | .inf _ => .inf false
  | .fin _ m => .fin false m

/-- fixed_float.hpp:92-95, 112-116 `mpfr_add`: a sum that is exactly zero is `+0`, unless both are `-0`. -/
def Mpf.add (F : MpfFormat) : Mpf → Mpf → Mpf
  | .nan _, _ => .nan false
  | _, .nan _ => .nan false
  | .inf s, .inf t => if s = t then .inf s else .nan false
  | .inf s, .fin _ _ => .inf s
  | .fin _ _, .inf t => .inf t
  | .fin s m, .fin t n => if signed s m + signed t n = 0 then .fin (s && t) 0 else F.round (signed s m + signed t n)

/-- fixed_float.hpp:97-100, 118-122 `mpfr_sub`. -/
def Mpf.sub (F : MpfFormat) : Mpf → Mpf → Mpf
  | .nan _, _ => .nan false
  | _, .nan _ => .nan false
  | .inf s, .inf t => if s = t then .nan false else .inf s
  | .inf s, .fin _ _ => .inf s
  | .fin _ _, .inf t => .inf (!t)
  | .fin s m, .fin t n => if signed s m - signed t n = 0 then .fin (s && !t) 0 else F.round (signed s m - signed t n)

/-- fixed_float.hpp:102-105, 124-128 `mpfr_mul`. -/
def Mpf.mul (F : MpfFormat) : Mpf → Mpf → Mpf
  | .nan _, _ => .nan false
  | _, .nan _ => .nan false
  | .inf s, .inf t => .inf (s != t)
  | .inf s, .fin t n => if n = 0 then .nan false else .inf (s != t)
  | .fin s m, .inf t => if m = 0 then .nan false else .inf (s != t)
  | .fin s m, .fin t n => if m = 0 ∨ n = 0 then .fin (s != t) 0 else F.round (signed s m * signed t n)

/-- fixed_float.hpp:107-110, 130-134 `mpfr_div`. -/
def Mpf.div (F : MpfFormat) : Mpf → Mpf → Mpf
  | .nan _, _ => .nan false
  | _, .nan _ => .nan false
  | .inf _, .inf _ => .nan false
  | .inf s, .fin t _ => .inf (s != t)
  | .fin s _, .inf t => .fin (s != t) 0
  | .fin s m, .fin t n =>
    if n = 0 then if m = 0 then .nan false else .inf (s != t)
    else if m = 0 then .fin (s != t) 0
    else F.round (signed s m / signed t n)

/-- fixed_float.hpp:228-237 `mpfr_pow`, for an exponent that is a whole number; the other cases are a parameter. -/
def Mpf.pow (F : MpfFormat) (rest : Mpf → Mpf → Mpf) (x p : Mpf) : Mpf :=
  match x, p with
  | .fin s m, .fin t n => if m ≠ 0 ∧ n.den = 1 then F.round (signed s m ^ (signed t n).num) else rest x p
  | _, _ => rest x p

/-! ## Conversions -/

/-- The nearest IEEE number, ties to even; near zero the last bit is `2^(2 - emax - prec)`. -/
def ieeeUlp (F : FloatFormat) (x : ℚ) : ℤ := max (ulpExp F.prec x) (2 - F.emax - F.prec)

def Mpf.toIeee (F : FloatFormat) : Mpf → Mpf
  | .nan s => .nan s
  | .inf s => .inf s
  | .fin s m =>
    if m = 0 then .fin s 0
    else if 2 ^ (F.emax + 1) ≤ (roundEven (m / (2 : ℚ) ^ ieeeUlp F m) : ℚ) * (2 : ℚ) ^ ieeeUlp F m then .inf s
    else .fin s ((roundEven (m / (2 : ℚ) ^ ieeeUlp F m) : ℚ) * (2 : ℚ) ^ ieeeUlp F m)

/-- fixed_float.hpp:429-430 `__float__`: `mpfr_get_ld` (43), then pybind11 makes a `double` of the `long double`. -/
def Mpf.toFloat (x : Mpf) : Mpf := (x.toIeee float128).toIeee float64

/-- An argument of an operator or of the constructor. -/
inductive PyOperand where
  /-- a `float1024` -/
  | self (x : Mpf)
  /-- a `float` -/
  | float (d : Mpf)
  | int (n : ℤ)
  | str (s : List Char)
  /-- anything that is no number: `None`, a list, ... -/
  | other
deriving DecidableEq

/-- `PyFloat_AsDouble`: an integer is rounded to nearest, `none` is an exception (integers that do not fit raise `OverflowError`, which pybind11 takes for
"this overload does not fit"). -/
def asDouble : PyOperand → Option Mpf
  | .self x => some x.toFloat
  | .float d => some d
  | .int n =>
    match (Mpf.fin (decide (n < 0)) (|n| : ℤ)).toIeee float64 with
    | .fin s m => some (.fin s m)
    | _ => none
  | .str _ => none
  | .other => none

/-! ## Text -/

/-- A digit in base 10 or 16. -/
def digitVal (base : ℕ) (c : Char) : Option ℕ :=
  if '0' ≤ c ∧ c ≤ '9' then some (c.toNat - 48)
  else if base = 16 ∧ 'a' ≤ c ∧ c ≤ 'f' then some (c.toNat - 87)
  else if base = 16 ∧ 'A' ≤ c ∧ c ≤ 'F' then some (c.toNat - 55)
  else none

/-- The digits at the beginning, and the rest. -/
def takeDigs (base : ℕ) : List Char → List ℕ × List Char
  | [] => ([], [])
  | c :: cs =>
    match digitVal base c with
    | none => ([], c :: cs)
    | some d => (d :: (takeDigs base cs).1, (takeDigs base cs).2)

def digsVal (base : ℕ) (ds : List ℕ) : ℕ := ds.foldl (fun n d => base * n + d) 0

/-- An optional sign. -/
def takeSign : List Char → Bool × List Char
  | '-' :: cs => (true, cs)
  | '+' :: cs => (false, cs)
  | cs => (false, cs)

/-- The exponent after its letter: nothing is read if there are no digits. -/
def expAfter (cs : List Char) : ℤ :=
  if (takeSign cs).1 then -(digsVal 10 (takeDigs 10 (takeSign cs).2).1 : ℤ) else digsVal 10 (takeDigs 10 (takeSign cs).2).1

/-- The factor of the exponent: `e` in base 10, `p` (a power of two) in base 16, `@` in any. -/
def expFactor (base : ℕ) : List Char → ℚ
  | [] => 1
  | c :: cs =>
    if c = '@' then (base : ℚ) ^ expAfter cs
    else if base = 10 ∧ (c = 'e' ∨ c = 'E') then (10 : ℚ) ^ expAfter cs
    else if base = 16 ∧ (c = 'p' ∨ c = 'P') then (2 : ℚ) ^ expAfter cs
    else 1

/-- The digits after a point. -/
def takeFrac (base : ℕ) : List Char → List ℕ × List Char
  | '.' :: cs => takeDigs base cs
  | cs => ([], cs)

/-- `mpfr_strtofr` without sign: the longest beginning that is a number; `none` if there is none. -/
def readMagnitude (base : ℕ) (cs : List Char) : Option ℚ :=
  if (takeDigs base cs).1 = [] ∧ (takeFrac base (takeDigs base cs).2).1 = [] then none
  else some ((digsVal base ((takeDigs base cs).1 ++ (takeFrac base (takeDigs base cs).2).1) : ℚ) /
    (base : ℚ) ^ (takeFrac base (takeDigs base cs).2).1.length * expFactor base (takeFrac base (takeDigs base cs).2).2)

def isSpaceC (c : Char) : Bool := c = ' ' || c = '\t' || c = '\n' || c = '\x0b' || c = '\x0c' || c = '\r'

/-- Lower case of an ASCII letter. -/
def lowerC (c : Char) : Char := if 'A' ≤ c ∧ c ≤ 'Z' then Char.ofNat (c.toNat + 32) else c

/-- The text begins with the word, in any case. -/
def startsWith (w cs : List Char) : Bool := (cs.take w.length).map lowerC = w

/-- The base and the digits: base 0 takes `0x` for base 16 if a hexadecimal digit follows, otherwise base 10 (`0b` is left out: it is never written). -/
def takeBase (auto : Bool) (cs : List Char) : ℕ × List Char :=
  match cs with
  | '0' :: c :: rest =>
    if auto ∧ (c = 'x' ∨ c = 'X') ∧ (readMagnitude 16 rest).isSome then (16, rest) else (10, cs)
  | _ => (10, cs)

/-- The number after the sign. -/
def readFloat (F : MpfFormat) (auto neg : Bool) (cs : List Char) : Mpf :=
  match readMagnitude (takeBase auto cs).1 (takeBase auto cs).2 with
  | none => .fin false 0
  | some q => if q = 0 then .fin neg 0 else F.round (signed neg q)

/-- fixed_float.hpp:49-51 `mpfr_set_str`, whose result is ignored: the longest beginning that is a number counts, `+0` if there is none; an empty text
leaves the number as `mpfr_init2` made it, NaN. -/
def readText (F : MpfFormat) (auto : Bool) (s : List Char) : Mpf :=
  match s with
  | [] => .nan false
  | _ :: _ =>
    if startsWith ['n', 'a', 'n'] (takeSign (s.dropWhile isSpaceC)).2 || startsWith ['@', 'n', 'a', 'n', '@'] (takeSign (s.dropWhile isSpaceC)).2 then
      .nan (takeSign (s.dropWhile isSpaceC)).1
    else if startsWith ['i', 'n', 'f'] (takeSign (s.dropWhile isSpaceC)).2 || startsWith ['@', 'i', 'n', 'f', '@'] (takeSign (s.dropWhile isSpaceC)).2 then
      .inf (takeSign (s.dropWhile isSpaceC)).1
    else readFloat F auto (takeSign (s.dropWhile isSpaceC)).1 (takeSign (s.dropWhile isSpaceC)).2

/-- fixed_float.hpp:63-66 `digits10`, of 1024 bits. -/
def digits10 : ℕ := 308

def digitChar (d : ℕ) : Char := if d < 10 then Char.ofNat (d + 48) else Char.ofNat (d + 87)

/-- `k` digits, with zeros in front. -/
def fixedDigits (base : ℕ) : ℕ → ℕ → List ℕ
  | 0, _ => []
  | k + 1, n => fixedDigits base k (n / base) ++ [n % base]

/-- The decimal digits of a number. -/
def decDigits (n : ℕ) : List ℕ := fixedDigits 10 (Nat.log 10 n + 1) n

def signText (neg : Bool) : List Char := if neg then ['-'] else []

/-- fixed_float.hpp:431-434, 247-255 `__str__`: `mpfr_asprintf` with `%.308RNf`. -/
def Mpf.text : Mpf → List Char
  | .nan _ => ['n', 'a', 'n']
  | .inf s => signText s ++ ['i', 'n', 'f']
  | .fin s m =>
    signText s ++ (decDigits ((roundEven (m * 10 ^ digits10)).toNat / 10 ^ digits10)).map digitChar ++
      ['.'] ++ (fixedDigits 10 digits10 ((roundEven (m * 10 ^ digits10)).toNat % 10 ^ digits10)).map digitChar

/-- Without the zeros at the end. -/
def dropZeros (ds : List ℕ) : List ℕ := (ds.reverse.dropWhile (· = 0)).reverse

/-- The exponent of `%Ra`, a multiple of 4: one hexadecimal digit is before the point. -/
def hexExp (m : ℚ) : ℤ := 4 * (Int.log 2 m / 4)

/-- The hexadecimal digits of `m`, not zero: one before and `k` after the point. -/
def hexDigits (k : ℕ) (m : ℚ) : List ℕ := fixedDigits 16 (k + 1) (m / (2 : ℚ) ^ hexExp m * 16 ^ k).num.toNat

def pointText : List ℕ → List Char
  | [] => []
  | ds => '.' :: ds.map digitChar

def expText (e : ℤ) : List Char := (if e < 0 then '-' else '+') :: (decDigits e.natAbs).map digitChar

/-- fixed_float.hpp:390-397 `dump`: `%Ra`. -/
def Mpf.dump (F : MpfFormat) : Mpf → List Char
  | .nan _ => ['n', 'a', 'n']
  | .inf s => signText s ++ ['i', 'n', 'f']
  | .fin s m =>
    if m = 0 then signText s ++ ['0', 'x', '0', 'p', '+', '0']
    else signText s ++ ['0', 'x'] ++ ((hexDigits F.prec m).take 1).map digitChar ++ pointText (dropZeros ((hexDigits F.prec m).drop 1)) ++
      ['p'] ++ expText (hexExp m)

/-! ## The class -/

/-- fixed_float.hpp:45-59, 418-421: the constructors. -/
def newFloat (F : MpfFormat) : List PyOperand → Except PyErr Mpf
  | [] => .ok (.nan false)                                     -- 45: `mpfr_init2`
  | [.self x] => .ok x
  | [.str s] => .ok (readText F false s)
  | [a] =>
    match asDouble a with
    | none => .error .typeError
    | some d => .ok d
  | _ => .error .typeError

/-- The operand of a binary operator: a `float1024`, or a `long double` that becomes one (47). -/
def operand (a : PyOperand) : Except PyErr Mpf :=
  match a with
  | .self x => .ok x
  | a =>
    match asDouble a with
    | none => .error .typeError
    | some d => .ok d

inductive ArithOp where
  | add
  | sub
  | mul
  | div
deriving DecidableEq

def ArithOp.run (F : MpfFormat) : ArithOp → Mpf → Mpf → Mpf
  | .add => Mpf.add F
  | .sub => Mpf.sub F
  | .mul => Mpf.mul F
  | .div => Mpf.div F

/-- fixed_float.hpp:435-442, 457-464, 479-486, 501-508: `x + a` and the like. -/
def pyArith (F : MpfFormat) (o : ArithOp) (x : Mpf) (a : PyOperand) : Except PyErr Mpf := (operand a).map fun y => o.run F x y

/-- fixed_float.hpp:160-178, 453-456, 475-478, 497-500, 519-522: `a + x` and the like, for `a` of another class; `float1024` is no `long double` but has `__float__`. -/
def pyArithR (F : MpfFormat) (o : ArithOp) (a : PyOperand) (x : Mpf) : Except PyErr Mpf :=
  match asDouble a with
  | none => .error .typeError
  | some y => .ok (o.run F y x)

/-- fixed_float.hpp:526-529 `__pow__`: the exponent is a `long double` always. -/
def pyPow (F : MpfFormat) (rest : Mpf → Mpf → Mpf) (x : Mpf) (a : PyOperand) : Except PyErr Mpf :=
  match asDouble a with
  | none => .error .typeError
  | some p => .ok (Mpf.pow F rest x p)

inductive CmpOp where
  | eq
  | ne
  | lt
  | le
  | gt
  | ge
deriving DecidableEq

def CmpOp.run : CmpOp → Mpf → Mpf → Bool
  | .eq => Mpf.eq
  | .ne => Mpf.ne
  | .lt => Mpf.lt
  | .le => Mpf.le
  | .gt => Mpf.gt
  | .ge => Mpf.ge

/-- fixed_float.hpp:530-577: comparisons; without `py::is_operator` an operand that does not fit is a `TypeError`. -/
def pyCmp (o : CmpOp) (x : Mpf) (a : PyOperand) : Except PyErr Bool := (operand a).map fun y => o.run x y

/-- fixed_float.hpp:581-585: pickling and back; base 0. -/
def unpickleFloat (F : MpfFormat) (s : List Char) : Mpf := readText F true s

/-- The objects of a Python program: names refer to positions. -/
abbrev FloatHeap := List Mpf

/-- fixed_float.hpp:443-452, 465-474, 487-496, 509-518: `x += a`. The object is changed, and a copy of it is returned, which the name then refers to. -/
def pyInplace (F : MpfFormat) (o : ArithOp) (h : FloatHeap) (i : ℕ) (a : PyOperand) : Except PyErr (FloatHeap × ℕ) :=
  (operand a).map fun y => (h.set i (o.run F (h.getD i (.nan false)) y) ++ [o.run F (h.getD i (.nan false)) y], h.length)

end TNCO
