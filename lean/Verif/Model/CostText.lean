import Verif.Model.Report
import Verif.Model.Twister
import Verif.Model.Json

/-!
# The text of a cost

A cost leaves C++ as text (`tnco::to_string`, globals.hpp:47-52), becomes a `Decimal` (infinite_memory/optimizer.hpp:273-284,
finite_width/greedy/optimizer.hpp:478-489), is added to others by `sum` (infinite_memory/sa.py:213-215, finite_width/sa.py:236-239), and is written as text
again in JSON (app.py:45-57). Texts are lists of code points.

Costs are whole and non-negative, so the signs, infinities and NaNs of `Decimal` are left out: `Dec.ofText` has no value for them, nor for the underscores
and spaces that Python allows. Exponents have no limits (Python's are ±999999).
-/

namespace TNCO

/-- `num / 10 ^ k` as a whole number, ties to even. -/
def tenRound (n k : ℕ) : ℕ := (roundEven ((n : ℚ) / 10 ^ k)).toNat

/-- The digits without the zeros at the end. -/
def trimZeros (s : List ℕ) : List ℕ := (s.reverse.dropWhile (· == 48)).reverse

/-- The digits after the point, with the point; `%g` writes no point if there are none. -/
def pointed (s : List ℕ) : List ℕ := if s = [] then [] else 46 :: s

/-- The exponent of `%g`: at least two digits. -/
def twoDigits (n : ℕ) : List ℕ := if n < 10 then 48 :: decText n else decText n

/-- Scientific notation: the digits of `m`, with the point after the first, and the exponent. -/
def sciText (m e : ℕ) : List ℕ :=
  (decText m).take 1 ++ (pointed (trimZeros ((decText m).drop 1)) ++ (101 :: 43 :: twoDigits e))

/-- `os << x` with the default precision, `%.6g`, for a whole number (globals.hpp:47-52): all digits if there are at most six, and else six digits in
scientific notation; if rounding gives a seventh digit, the exponent grows. -/
def streamText (c : ℕ) : List ℕ :=
  if c < 10 ^ 6 then decText c
  else if tenRound c (Nat.log 10 c - 5) = 10 ^ 6 then sciText (10 ^ 5) (Nat.log 10 c + 1)
  else sciText (tenRound c (Nat.log 10 c - 5)) (Nat.log 10 c)

/-- `os << x` of a `float1024` that is a whole number: `%1.308f` (fixed_float.hpp:63-66, 247-255, 384-388). -/
def fixedText (c : ℕ) : List ℕ := decText c ++ 46 :: List.replicate 308 48

/-- `tnco::to_string(cost)` (globals.hpp:47-52). -/
def shownText (fixed : Bool) (c : ℕ) : List ℕ := if fixed then fixedText c else streamText c

/-- A non-negative finite `decimal.Decimal`: `coeff * 10 ^ exp`. Different `Decimal`s may have the same value. -/
structure Dec where
  coeff : ℕ
  exp : ℤ
deriving DecidableEq, Repr

/-- The number. -/
def Dec.value (d : Dec) : ℚ := d.coeff * (10 : ℚ) ^ d.exp

/-- The digits after the point, and the rest. -/
def fracPart : List ℕ → List ℕ × List ℕ
  | [] => ([], [])
  | c :: r => if c = 46 then (r.takeWhile isNum, r.dropWhile isNum) else ([], c :: r)

/-- A number with at least one digit. -/
def wholeNum (r : List ℕ) : Option ℕ := if r ≠ [] ∧ r.all isNum = true then some (numValue r) else none

/-- A whole number with or without a sign. -/
def signedNum : List ℕ → Option ℤ
  | [] => none
  | c :: r =>
    if c = 43 then (wholeNum r).map fun n => (n : ℤ)
    else if c = 45 then (wholeNum r).map fun n => -(n : ℤ)
    else (wholeNum (c :: r)).map fun n => (n : ℤ)

/-- The exponent, if there is one. -/
def expPart : List ℕ → Option ℤ
  | [] => some 0
  | c :: r => if c = 101 ∨ c = 69 then signedNum r else none

/-- `Decimal(text)` (infinite_memory/optimizer.hpp:276-283): digits with or without a point, and an exponent. -/
def Dec.ofText (t : List ℕ) : Option Dec :=
  if t.takeWhile isNum ++ (fracPart (t.dropWhile isNum)).1 = [] then none
  else (expPart (fracPart (t.dropWhile isNum)).2).map fun e =>
    ⟨numValue (t.takeWhile isNum ++ (fracPart (t.dropWhile isNum)).1), e - ((fracPart (t.dropWhile isNum)).1.length : ℤ)⟩

/-- Where `Decimal.__str__` puts the point, counted from the left of the digits. -/
def Dec.dot (d : Dec) : ℤ :=
  if d.exp ≤ 0 ∧ -6 < d.exp + (decText d.coeff).length then d.exp + (decText d.coeff).length else 1

/-- The digits with the point at `dot`. -/
def placePoint (s : List ℕ) (dot : ℤ) : List ℕ :=
  if dot ≤ 0 then 48 :: 46 :: (List.replicate (-dot).toNat 48 ++ s)
  else if (s.length : ℤ) ≤ dot then s ++ List.replicate (dot - s.length).toNat 48
  else s.take dot.toNat ++ 46 :: s.drop dot.toNat

/-- `"%+d"` -/
def plusText (z : ℤ) : List ℕ := if 0 ≤ z then 43 :: decText z.toNat else 45 :: decText (-z).toNat

/-- The text of a `Decimal`, with `E` or `e` before the exponent. -/
def Dec.text (E : ℕ) (d : Dec) : List ℕ :=
  placePoint (decText d.coeff) d.dot ++
    if d.exp + (decText d.coeff).length = d.dot then [] else E :: plusText (d.exp + (decText d.coeff).length - d.dot)

/-- `str` of a `Decimal`, which is what the JSON encoder writes (app.py:48-49). -/
def Dec.str (d : Dec) : List ℕ := d.text 69

/-- Rounding to `p` digits, ties to even; if rounding gives another digit, it is a zero and is dropped. -/
def Dec.fit (p : ℕ) (d : Dec) : Dec :=
  if (decText d.coeff).length ≤ p then d
  else if tenRound d.coeff ((decText d.coeff).length - p) = 10 ^ p then ⟨10 ^ (p - 1), d.exp + ((decText d.coeff).length - p : ℕ) + 1⟩
  else ⟨tenRound d.coeff ((decText d.coeff).length - p), d.exp + ((decText d.coeff).length - p : ℕ)⟩

/-- `Decimal.__add__`: the smaller exponent, the sum of the coefficients, rounding to the 28 digits of the default context. -/
def Dec.add (a b : Dec) : Dec :=
  Dec.fit 28 ⟨a.coeff * 10 ^ (a.exp - min a.exp b.exp).toNat + b.coeff * 10 ^ (b.exp - min a.exp b.exp).toNat, min a.exp b.exp⟩

/-- The cost of a part (infinite_memory/sa.py:173, 210; finite_width/sa.py:192, 233): a `Decimal`, or the whole number `0` (`none`) for a path that needs no
optimizer. -/
abbrev PartCost := Option Dec

/-- What an app keeps for a part: nothing but `0` for a path that needs no optimizer, or the `Decimal` of the text of the cost. (`Decimal` would raise on a text
it cannot read; `C92_cost` shows that there is none.) -/
def partCost (fixed : Bool) (p : Option ℕ) : PartCost := p.bind fun c => Dec.ofText (shownText fixed c)

/-- `a + b`, where the whole number `0` may stand on either side. -/
def addCost : PartCost → PartCost → PartCost
  | none, none => none
  | a, b => some (Dec.add (a.getD ⟨0, 0⟩) (b.getD ⟨0, 0⟩))

/-- `sum(costs)` (infinite_memory/sa.py:215, finite_width/sa.py:239), which starts from the whole number `0`. -/
def sumCost (l : List PartCost) : PartCost := l.foldl addCost none

/-- `'{:1.3g}'.format(cost)` in the `repr` of a result (app.py:82-84): three digits, with `e` before the exponent; `0` is a whole number. -/
def shortCost : PartCost → List ℕ
  | none => [48]
  | some d => (d.fit 3).text 101

/-- The number. -/
def PartCost.value (p : PartCost) : ℚ := p.elim 0 Dec.value

end TNCO
