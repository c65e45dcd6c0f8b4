import Verif.Model.Twister
import Mathlib.Data.Nat.Size

/-!
# `random.Random`

The generator that tnco/app/app.py:783, tnco/app/circuit/sampling.py:240,456, tnco/utils/tn.py:91,593, tnco/utils/circuit.py:396 and
tnco/utils/tensor.py:319 make, and what they ask of it: `random()` (sampling.py:338), `choices(range(2**32), k=n_runs)`
(infinite_memory/sa.py:232, finite_width/sa.py:264), `randrange` (tn.py:170,674, sampling.py:466,543, circuit.py:396) and `sample(l, k=2)`
(tn.py:179,682). The other files take any generator (`PyRng`, and the argument `random` of `choices`).

It is the one of CPython 3.11 (Modules/_randommodule.c, which the comments cite as `mod` with the name of the function, and Lib/random.py,
cited as `lib` with lines), for seeds that are integers or `None`. The engine is the Mersenne twister of the C++ library (`Mt`): only seeding differs.
-/

namespace TNCO

/-- mod `random_seed`: the absolute value of the seed, as words of 32 bits, the lowest first; 0 is one word. -/
def keyWords (n : ℕ) : List ℕ := if n < 2 ^ 32 then [n] else n % 2 ^ 32 :: keyWords (n / 2 ^ 32)
termination_by n
decreasing_by omega

/-- mod `init_by_array`: `mt[i] ^ ((mt[i-1] ^ (mt[i-1] >> 30)) * c)`. -/
def spreadWord (c x y : ℕ) : ℕ := x ^^^ ((y ^^^ (y >>> 30)) * c % 2 ^ 32)

/-- mod `init_by_array`: at the end of the array, its last word is copied to the front. -/
def wrapFront (i : ℕ) (mt : List ℕ) : List ℕ := if 624 ≤ i + 1 then mt.set 0 (mt.getD 623 0) else mt

/-- mod `init_by_array`: the next position. -/
def wrapPos (i : ℕ) : ℕ := if 624 ≤ i + 1 then 1 else i + 1

/-- mod `init_by_array`: the first loop; the number of steps left, the array, `i` and `j`. -/
def keyLoop (key : List ℕ) : ℕ → List ℕ → ℕ → ℕ → List ℕ × ℕ
  | 0, mt, i, _ => (mt, i)
  | n + 1, mt, i, j =>
    keyLoop key n (wrapFront i (mt.set i ((spreadWord 1664525 (mt.getD i 0) (mt.getD (i - 1) 0) + key.getD j 0 + j) % 2 ^ 32))) (wrapPos i)
      (if key.length ≤ j + 1 then 0 else j + 1)

/-- mod `init_by_array`: the second loop; subtracting is modulo 2^32. -/
def numLoop : ℕ → List ℕ → ℕ → List ℕ
  | 0, mt, _ => mt
  | n + 1, mt, i =>
    numLoop n (wrapFront i (mt.set i ((spreadWord 1566083941 (mt.getD i 0) (mt.getD (i - 1) 0) + (2 ^ 32 - i)) % 2 ^ 32))) (wrapPos i)

/-- mod `init_by_array`. -/
def Mt.ofKey (key : List ℕ) : Mt :=
  ⟨(numLoop 623 (keyLoop key (max 624 key.length) (Mt.seed 19650218).words 1 0).1
    (keyLoop key (max 624 key.length) (Mt.seed 19650218).words 1 0).2).set 0 (2 ^ 31), 624⟩

/-- `Random(seed)` (mod `random_seed`): of `None` it takes 624 words of the system. -/
def pyRandom (dev : List ℕ) : Option ℤ → Mt
  | none => .ofKey dev
  | some z => .ofKey (keyWords z.natAbs)

/-- mod `_random_Random_random_impl`: `a * 67108864 + b` for `a = genrand() >> 5` and `b = genrand() >> 6`. -/
def pairBits (x y : ℕ) : ℕ := (x >>> 5) * 67108864 + (y >>> 6)

/-- mod `_random_Random_random_impl` (`random()`), exactly: all operations of `double` are exact here (see C89_random). -/
def Mt.random (e : Mt) : ℚ × Mt := ((pairBits e.draw.1 e.draw.2.draw.1 : ℚ) / 9007199254740992, e.draw.2.draw.2)

/-- mod `_random_Random_getrandbits_impl` (`getrandbits(k)`): words of 32 bits, the lowest first; of the last word only the upper bits are used. -/
def Mt.bits (k : ℕ) (e : Mt) : ℕ × Mt :=
  if k = 0 then (0, e)
  else if k ≤ 32 then (e.draw.1 >>> (32 - k), e.draw.2)
  else (e.draw.1 + 2 ^ 32 * (Mt.bits (k - 32) e.draw.2).1, (Mt.bits (k - 32) e.draw.2).2)
termination_by k
decreasing_by all_goals omega

/-- lib:235-243 `_randbelow_with_getrandbits(n)`; the loop is given `fuel` turns, `none` if they do not suffice. `Nat.size` is `bit_length`. -/
def Mt.below (n : ℕ) : ℕ → Mt → Option (ℕ × Mt)
  | 0, _ => none
  | fuel + 1, e => if n ≤ (e.bits n.size).1 then Mt.below n fuel (e.bits n.size).2 else some (e.bits n.size)

/-- lib:284-310 `randrange(n)`. -/
def Mt.randrange (n fuel : ℕ) (e : Mt) : Option (Except PyErr (ℕ × Mt)) :=
  if n = 0 then some (.error .valueError) else (e.below n fuel).map .ok

/-- lib:470-477, the set: another position until it is a new one. -/
def Mt.belowNew (n a : ℕ) (turns : ℕ) : ℕ → Mt → Option (ℕ × Mt)
  | 0, _ => none
  | fuel + 1, e =>
    match e.below n turns with
    | none => none
    | some (b, e') => if b = a then Mt.belowNew n a turns fuel e' else some (b, e')

/-- lib:385-478 `sample(l, k=2)` for `len(l) == n`, the positions. For up to 21 elements they are taken from a list (462-468): the last
element moves to the place of the first one chosen. -/
def Mt.sample2 (n fuel : ℕ) (e : Mt) : Option (Except PyErr ((ℕ × ℕ) × Mt)) :=
  if n < 2 then some (.error .valueError)
  else
    match e.below n fuel with
    | none => none
    | some (a, e) =>
      if n ≤ 21 then
        match e.below (n - 1) fuel with
        | none => none
        | some (b, e) => some (.ok ((a, if b = a then n - 1 else b), e))
      else
        match e.belowNew n a fuel fuel with
        | none => none
        | some (b, e) => some (.ok ((a, b), e))

/-- lib:480-493 `choices(l, k=1)` for `len(l) == n`: the position; `random() * n` is rounded to `double`. -/
def Mt.choice (n : ℕ) (e : Mt) : ℕ × Mt := ((roundTo 53 (e.random.1 * n)).floor.toNat, e.random.2)

end TNCO
