import Mathlib.Data.Rat.Defs
import Mathlib.Algebra.Order.Ring.Rat

/-!
# The fixed-precision float (`include/tnco/fixed_float.hpp`)

A number is what an `mpfr_t` holds: a sign bit and a magnitude, infinity or
NaN.  Modelled are the comparisons, the predicates as they are seen from
Python, and the formatting with a Python format specifier, where the text of
the bare number is left to MPFR.  Arithmetic and its rounding are left to
MPFR.  A format specifier is the list of its bytes, each as a character.
-/

namespace TNCO

/-- The content of an `mpfr_t`. -/
inductive Mpf where
  | nan (neg : Bool)
  | inf (neg : Bool)
  | fin (neg : Bool) (m : ℚ)
deriving DecidableEq

/-- The sign as a number. -/
def sgn (neg : Bool) : Int := if neg then -1 else 1

/-- `mpfr_cmp`: NaN compares as 0 with everything. -/
def mpfrCmp : Mpf → Mpf → Int
  | .nan _, _ => 0
  | _, .nan _ => 0
  | .inf s, .inf t => if s = t then 0 else sgn s
  | .inf s, .fin _ _ => sgn s
  | .fin _ _, .inf t => - sgn t
  | .fin s m, .fin t n =>
    if m = 0 then if n = 0 then 0 else - sgn t
    else if n = 0 then sgn s
    else if s ≠ t then sgn s
    else if m < n then - sgn s
    else if n < m then sgn s
    else 0

/-- `operator==` and its kin, `__eq__` and its kin
(`include/tnco/fixed_float.hpp:136-158`, `529-577`). -/
def Mpf.eq (x y : Mpf) : Bool := mpfrCmp x y = 0
def Mpf.ne (x y : Mpf) : Bool := mpfrCmp x y ≠ 0
def Mpf.gt (x y : Mpf) : Bool := mpfrCmp x y > 0
def Mpf.ge (x y : Mpf) : Bool := mpfrCmp x y ≥ 0
def Mpf.lt (x y : Mpf) : Bool := mpfrCmp x y < 0
def Mpf.le (x y : Mpf) : Bool := mpfrCmp x y ≤ 0

/-- `mpfr_nan_p` (`include/tnco/fixed_float.hpp:239`). -/
def Mpf.isnan : Mpf → Bool
  | .nan _ => true
  | _ => false

/-- `mpfr_inf_p` (`include/tnco/fixed_float.hpp:241`). -/
def Mpf.isinf : Mpf → Bool
  | .inf _ => true
  | _ => false

/-- `mpfr_signbit` (`include/tnco/fixed_float.hpp:243-245`). -/
def Mpf.signbit : Mpf → Bool
  | .nan s => s
  | .inf s => s
  | .fin s _ => s

/-- The methods `isinf`, `isnan` and `signbit` of the Python class: all of
them call `isnan` (`include/tnco/fixed_float.hpp:578-580`). -/
def pyIsinf (x : Mpf) : Bool := x.isnan
def pyIsnan (x : Mpf) : Bool := x.isnan
def pySignbit (x : Mpf) : Bool := x.isnan

/-! ## Formatting (`include/tnco/fixed_float.hpp:247-376`) -/

/-- The groups of the regular expression (`include/tnco/fixed_float.hpp:257-276`). -/
structure FmtSpec where
  fill : Option Char
  align : Option Char
  sign : Option Char
  alt : Bool
  zero : Bool
  width : Option (List Char)
  thousands : Bool
  prec : Option (List Char)
  type : Option Char
deriving DecidableEq

/-- `[c]?` at the beginning of the rest. -/
def takeOne (p : Char → Bool) : List Char → Option Char × List Char
  | [] => (none, [])
  | c :: cs => if p c then (some c, cs) else (none, c :: cs)

def isAlign (c : Char) : Bool := c = '<' || c = '>' || c = '^' || c = '='
def isSign (c : Char) : Bool := c = '+' || c = '-' || c = ' '
def isType (c : Char) : Bool :=
  c = 'f' || c = 'F' || c = 'e' || c = 'E' || c = 'g' || c = 'G' || c = '%'
def isNl (c : Char) : Bool := c = '\n' || c = '\r'

/-- `((.)?([<>^=]))?`: two characters, one or none.  The expressions that
follow do not match `<>^=`, so that the first choice that matches here is the
right one; `.` does not match line terminators. -/
def takeAlign : List Char → (Option Char × Option Char) × List Char
  | a :: b :: cs =>
    if isAlign b && !isNl a then ((some a, some b), cs)
    else if isAlign a then ((none, some a), b :: cs)
    else ((none, none), a :: b :: cs)
  | [a] => if isAlign a then ((none, some a), []) else ((none, none), [a])
  | [] => ((none, none), [])

/-- `(\d+)?` -/
def takeDigits (cs : List Char) : Option (List Char) × List Char :=
  match cs.takeWhile Char.isDigit with
  | [] => (none, cs)
  | ds => (some ds, cs.dropWhile Char.isDigit)

/-- `(\.\d+)?` -/
def takePrec : List Char → Option (List Char) × List Char
  | '.' :: cs =>
    match takeDigits cs with
    | (some ds, rest) => (some ('.' :: ds), rest)
    | (none, _) => (none, '.' :: cs)
  | cs => (none, cs)

/-- `std::regex_match` of the whole specifier (`include/tnco/fixed_float.hpp:257-282`);
`none` is the `runtime_error`. -/
def parseSpec (cs : List Char) : Option FmtSpec :=
  let (fa, cs) := takeAlign cs
  let (sign, cs) := takeOne isSign cs
  let (alt, cs) := takeOne (· = '#') cs
  let (zero, cs) := takeOne (· = '0') cs
  let (width, cs) := takeDigits cs
  let (th, cs) := takeOne (· = ',') cs
  let (prec, cs) := takePrec cs
  let (type, cs) := takeOne isType cs
  match cs with
  | [] => some ⟨fa.1, fa.2, sign, alt.isSome, zero.isSome, width, th.isSome, prec, type⟩
  | _ => none

/-- `std::stoi` of digits. -/
def digitsVal (ds : List Char) : Nat :=
  ds.foldl (fun n c => 10 * n + (c.toNat - 48)) 0

/-- The alignment (`include/tnco/fixed_float.hpp:285`). -/
def FmtSpec.alignChar (s : FmtSpec) : Char := s.align.getD '>'

/-- The format handed to `mpfr_asprintf`, without the width
(`include/tnco/fixed_float.hpp:284-328`). -/
def FmtSpec.core (s : FmtSpec) : List Char :=
  let type := s.type.getD 'g'
  let prec := if type = '%' then s.prec.getD ['.', '6'] else s.prec.getD []
  let zero := s.zero || s.alignChar = '='
  ['%'] ++ s.sign.toList ++ (if s.alt then ['#'] else []) ++
    (if zero && s.alignChar ≠ '<' && s.alignChar ≠ '^' then ['0'] else []) ++
    (if s.thousands then ['\''] else []) ++ prec ++
    ['R', 'N', if type = '%' then 'f' else type]

/-- Padding (`include/tnco/fixed_float.hpp:353-375`). -/
def padText (align fill : Char) (width : Nat) (num : List Char) : List Char :=
  if width ≤ num.length then num
  else
    let padding := width - num.length
    if align = '<' then num ++ List.replicate padding fill
    else if align = '^' then
      List.replicate (padding / 2) fill ++ num ++
        List.replicate (padding - padding / 2) fill
    else List.replicate padding fill ++ num

/-- The exceptions of `to_string`: `std::runtime_error` for an invalid
specifier and `std::out_of_range` of `std::stoi`. -/
inductive FmtErr where
  | invalid
  | outOfRange
deriving DecidableEq

/-- `to_string` with a specifier (`include/tnco/fixed_float.hpp:247-376`).
`print` is `mpfr_asprintf` of a format, and of the number or (`true`) a
hundred times the number.  `digits10` is the number of decimal digits of the
precision. -/
def fixedFormat (print : List Char → Bool → List Char) (digits10 : List Char)
    (fmt : List Char) : Except FmtErr (List Char) :=
  let fmt := if fmt = [] then ['1', '.'] ++ digits10 ++ ['f'] else fmt
  match parseSpec fmt with
  | none => .error .invalid
  | some s =>
    if 2 ^ 31 ≤ digitsVal (s.width.getD []) then .error .outOfRange
    else
      let num := if s.type = some '%' then print s.core true ++ ['%']
        else print s.core false
      .ok (padText s.alignChar (s.fill.getD ' ')
        (digitsVal (s.width.getD [])) num)

end TNCO
