import Verif.Model.Pickle
import Verif.Model.Float
import Verif.Model.Json

/-!
# The generator of the optimizers

`include/tnco/globals.hpp:37` (`prng_type = std::mt19937`), `include/tnco/optimize/optimizer.hpp:48,67-78,191-195` (how it is
seeded, written and read) and `std::uniform_real_distribution<double>` (infinite_memory/optimizer.hpp:100,
finite_width/greedy/optimizer.hpp:127). The other files take any generator; here is the one of the code.

`std::mt19937`, its operators `<<` and `>>` and the distribution are those of libstdc++ (bits/random.tcc of GCC 13, which the
comments cite as `tcc`), for `uint_fast32_t`, `size_t` and `unsigned long` of 64 bits; reading a number is `num_get` in the "C" locale
(bits/locale_facets.tcc). Texts are lists of code points; characters outside ASCII are neither digits nor spaces, as are their bytes.
The arrays have 624 entries and all positions are below 624, so that `getD` never takes its default.
-/

namespace TNCO

/-- The engine: `_M_x` and `_M_p`. -/
structure Mt where
  words : List ℕ
  pos : ℕ
deriving DecidableEq

/-- What holds of the variables of every engine by their types. -/
def Mt.Ok (e : Mt) : Prop := e.words.length = 624 ∧ (∀ w ∈ e.words, w < 2 ^ 64) ∧ e.pos < 2 ^ 64

instance (e : Mt) : Decidable e.Ok := by unfold Mt.Ok; infer_instance

/-- tcc:337-341: the entry number `i` of `_M_x`, made of the one before it. -/
def seedWord (x i : ℕ) : ℕ := ((x ^^^ (x >>> 30)) * 1812433253 + i % 624) % 2 ^ 32

/-- tcc:335-342: the loop over `_M_x` from the entry number `i`, `x` being the one before it. -/
def seedLoop : ℕ → ℕ → ℕ → List ℕ
  | 0, _, _ => []
  | n + 1, i, x => seedWord x i :: seedLoop n (i + 1) (seedWord x i)

/-- tcc:325-344 `seed(sd)`; the argument is taken modulo 2^32 (332-333). -/
def Mt.seed (sd : ℕ) : Mt := ⟨sd % 2 ^ 32 :: seedLoop 623 1 (sd % 2 ^ 32), 624⟩

/-- The engine that the member `prng` (optimizer.hpp:48) is before it is seeded. -/
def Mt.default : Mt := .seed 5489

/-- tcc:397-404: the word `y` made of the upper bits of one word and the lower 31 bits of the next. -/
def joinWords (x y : ℕ) : ℕ := (x &&& (2 ^ 64 - 2 ^ 31)) ||| (y &&& (2 ^ 31 - 1))

/-- tcc:405-406: `(y >> 1) ^ ((y & 1) ? a : 0)`. -/
def twistWord (y : ℕ) : ℕ := (y >>> 1) ^^^ (if y &&& 1 ≠ 0 then 0x9908b0df else 0)

/-- tcc:402-406, 411-415, 418-421: one word is replaced; `next` and `far` are the positions read besides `k`. -/
def renewWord (x : List ℕ) (k next far : ℕ) : List ℕ :=
  x.set k (x.getD far 0 ^^^ twistWord (joinWords (x.getD k 0) (x.getD next 0)))

/-- tcc:400-407: the first loop. -/
def renewLow (x : List ℕ) : List ℕ := (List.range' 0 227).foldl (fun x k => renewWord x k (k + 1) (k + 397)) x

/-- tcc:409-416: the second loop. -/
def renewMid (x : List ℕ) : List ℕ := (List.range' 227 396).foldl (fun x k => renewWord x k (k + 1) (k - 227)) x

/-- tcc:390-423 `_M_gen_rand`, the new words. -/
def renewWords (x : List ℕ) : List ℕ := renewWord (renewMid (renewLow x)) 623 0 396

/-- tcc:459-462: the bits of a word are mixed. -/
def temper (z : ℕ) : ℕ :=
  let z := z ^^^ ((z >>> 11) &&& 0xffffffff)
  let z := z ^^^ ((z <<< 7) &&& 0x9d2c5680)
  let z := z ^^^ ((z <<< 15) &&& 0xefc60000)
  z ^^^ (z >>> 18)

/-- tcc:453-455: new words if all have been used. -/
def Mt.fill (e : Mt) : Mt := if 624 ≤ e.pos then ⟨renewWords e.words, 0⟩ else e

/-- tcc:450-465 `operator()`. -/
def Mt.draw (e : Mt) : ℕ × Mt := (temper (e.fill.words.getD e.fill.pos 0), ⟨e.fill.words, e.fill.pos + 1⟩)

/-- tcc:3362-3380 `generate_canonical<double, 53>`: two numbers of 32 bits, the first one being the lower half; every
operation of `double` is rounded (those that are exact for all arguments are left out). -/
def canonical (a b : ℕ) : ℚ :=
  if 1 ≤ roundTo 53 (roundTo 53 a + roundTo 53 b * 2 ^ 32) / 2 ^ 64 then 1 - 1 / 2 ^ 53
  else roundTo 53 (roundTo 53 a + roundTo 53 b * 2 ^ 32) / 2 ^ 64

/-- `uniform(prng)` (infinite_memory/optimizer.hpp:121). -/
def Mt.uniform (e : Mt) : ℚ × Mt := (canonical e.draw.1 e.draw.2.draw.1, e.draw.2.draw.2)

/-! ## Text -/

/-- tcc:483-485: every word is followed by a space, then comes the position. -/
def Mt.dump (e : Mt) : List ℕ := e.words.flatMap (fun w => decText w ++ [32]) ++ decText e.pos

/-- A stream: what has not been read, and `good()`. -/
structure InStream where
  rest : List ℕ
  good : Bool

/-- The characters that `std::isspace` knows in the "C" locale. -/
def isBlank (c : ℕ) : Bool := c == 32 || (decide (9 ≤ c) && decide (c ≤ 13))

def isNum (c : ℕ) : Bool := decide (48 ≤ c) && decide (c ≤ 57)

def numValue (s : List ℕ) : ℕ := s.foldl (fun n c => 10 * n + (c - 48)) 0

/-- locale_facets.tcc:375-587: the digits of a number have been found. Without digits the variable becomes 0, if the number is too
large 2^64 - 1; in both cases, and at the end of the text, the stream is not good any more. A minus negates modulo 2^64. -/
def finishNumber (neg : Bool) (digits rest : List ℕ) : ℕ × InStream :=
  if digits = [] then (0, ⟨rest, false⟩)
  else if 2 ^ 64 ≤ numValue digits then (2 ^ 64 - 1, ⟨rest, false⟩)
  else (if neg then (2 ^ 64 - numValue digits) % 2 ^ 64 else numValue digits, ⟨rest, rest ≠ []⟩)

/-- `is >> x` for an `unsigned long`: the new value, `none` if the variable is not changed (the stream is not good, or there are only
spaces left). -/
def extractNumber (s : InStream) : Option ℕ × InStream :=
  if s.good = false then (none, s)
  else
    match s.rest.dropWhile isBlank with
    | [] => (none, ⟨[], false⟩)
    | c :: cs =>
      if c = 45 ∨ c = 43 then
        ((finishNumber (c == 45) (cs.takeWhile isNum) (cs.dropWhile isNum)).map some id)
      else ((finishNumber false ((c :: cs).takeWhile isNum) ((c :: cs).dropWhile isNum)).map some id)

/-- tcc:509-510: the loop that reads the words. -/
def readWords : InStream → List ℕ → List ℕ × InStream
  | s, [] => ([], s)
  | s, w :: ws => ((extractNumber s).1.getD w :: (readWords (extractNumber s).2 ws).1, (readWords (extractNumber s).2 ws).2)

/-- tcc:496-515 `operator>>`: nothing tells whether it failed. -/
def Mt.read (e : Mt) (text : List ℕ) : Mt :=
  ⟨(readWords ⟨text, true⟩ e.words).1, (extractNumber (readWords ⟨text, true⟩ e.words).2).1.getD e.pos⟩

/-! ## The constructor -/

/-- The argument `seed` (infinite_memory/optimizer.py:51, finite_width/optimizer.py:61). -/
inductive SeedArg where
  | none
  | int (z : ℤ)
  | text (cs : List ℕ)

/-- optimizer.hpp:67-78; `dev` is what `std::random_device` gives. pybind11 takes integers of 64 bits only. -/
def Mt.ofSeed (dev : ℕ) : SeedArg → Except PyErr Mt
  | .none => .ok (.seed dev)
  | .int z => if 0 ≤ z ∧ z < 2 ^ 64 then .ok (.seed z.toNat) else .error .typeError
  | .text cs => .ok (Mt.default.read cs)

/-! ## The types of the variables -/

theorem renewWord_ok {x : List ℕ} (h : ∀ w ∈ x, w < 2 ^ 64) (k next far : ℕ) : ∀ w ∈ renewWord x k next far, w < 2 ^ 64 := by
  intro w hw
  rcases List.mem_or_eq_of_mem_set hw with hw | rfl
  · exact h w hw
  · have g : ∀ i, x.getD i 0 < 2 ^ 64 := by
      intro i
      rw [List.getD_eq_getElem?_getD]
      cases e : x[i]? with
      | none => simp
      | some v => exact h v (List.mem_of_getElem? e)
    refine Nat.xor_lt_two_pow (g _) ?_
    have hj : joinWords (x.getD k 0) (x.getD next 0) < 2 ^ 64 :=
      Nat.or_lt_two_pow (Nat.and_lt_two_pow _ (by decide)) (Nat.and_lt_two_pow _ (by decide))
    refine Nat.xor_lt_two_pow (lt_of_le_of_lt (Nat.shiftRight_le _ _) hj) ?_
    split <;> decide

theorem renewFold_ok {x : List ℕ} (h : ∀ w ∈ x, w < 2 ^ 64) (next far : ℕ → ℕ) (l : List ℕ) :
    ∀ w ∈ l.foldl (fun x k => renewWord x k (next k) (far k)) x, w < 2 ^ 64 := by
  induction l generalizing x with
  | nil => exact h
  | cons k l ih => exact ih (renewWord_ok h _ _ _)

theorem renewFold_length (x : List ℕ) (next far : ℕ → ℕ) (l : List ℕ) :
    (l.foldl (fun x k => renewWord x k (next k) (far k)) x).length = x.length := by
  induction l generalizing x with
  | nil => rfl
  | cons k l ih => rw [List.foldl_cons, ih]; simp [renewWord]

theorem renewWords_ok {x : List ℕ} (h : ∀ w ∈ x, w < 2 ^ 64) : ∀ w ∈ renewWords x, w < 2 ^ 64 := by
  have h1 := renewFold_ok h (fun k => k + 1) (fun k => k + 397) (List.range' 0 227)
  have h2 := renewFold_ok h1 (fun k => k + 1) (fun k => k - 227) (List.range' 227 396)
  exact renewWord_ok h2 623 0 396

theorem renewWords_length (x : List ℕ) : (renewWords x).length = x.length := by
  have h1 := renewFold_length x (fun k => k + 1) (fun k => k + 397) (List.range' 0 227)
  have h2 := renewFold_length (renewLow x) (fun k => k + 1) (fun k => k - 227) (List.range' 227 396)
  unfold renewWords renewWord
  rw [List.length_set]
  exact h2.trans h1

theorem Mt.Ok.fill {e : Mt} (h : e.Ok) : e.fill.Ok ∧ e.fill.pos < 624 := by
  unfold Mt.fill
  split
  · unfold Mt.Ok at h ⊢
    dsimp only
    refine ⟨⟨?_, renewWords_ok h.2.1, by norm_num⟩, by norm_num⟩
    rw [renewWords_length]
    exact h.1
  · exact ⟨h, by omega⟩

theorem Mt.Ok.draw {e : Mt} (h : e.Ok) : e.draw.2.Ok := by
  obtain ⟨⟨h1, h2, -⟩, h4⟩ := h.fill
  refine ⟨h1, h2, ?_⟩
  simp only [Mt.draw]
  omega

theorem Mt.Ok.uniform {e : Mt} (h : e.Ok) : e.uniform.2.Ok := h.draw.draw

/-- The generator of the code as a parameter of the other models. -/
def mtPrng : Prng {e : Mt // e.Ok} ℚ where
  next e := (e.1.draw.1, ⟨e.1.draw.2, e.2.draw⟩)
  uniform e := (e.1.uniform.1, ⟨e.1.uniform.2, e.2.uniform⟩)

/-! ## Pickling -/

section
variable {ι P R W : Type} [DecidableEq ι] [AddCommGroup R] [LinearOrder R] [AddCommGroup W] [LinearOrder W]

/-- The engine that the constructor makes of the text of another one (`seed=prng_state`); `none` if it is no engine (which does not
happen: see C87_restore). -/
def Mt.again (e : Mt) : Option {e : Mt // e.Ok} :=
  match Mt.ofSeed 0 (.text e.dump) with
  | .error _ => none
  | .ok e' => if h : e'.Ok then some ⟨e', h⟩ else none

/-- infinite_memory/optimizer.py:234-245: as `PyInf.unpickle`, with the generator as text. -/
def PyInf.unpickleText (enum : Finset ι → List ι) (cm : List ι → Dims → CostModel R) (o : PyInf ι {e : Mt // e.Ok} R) :
    Except ShipErr (PyInf ι {e : Mt // e.Ok} R) :=
  match o.core.prng.1.again with
  | none => .error .make
  | some e => PyInf.unpickle enum cm ⟨{ o.core with prng := e }, o.cache⟩

/-- finite_width/optimizer.py:332-354: as `PyFw.unpickle`, with the generator as text. -/
def PyFw.unpickleText (enum : Finset ι → List ι) (g : FwPrng {e : Mt // e.Ok} P) (cm : List ι → Dims → CostModel R)
    (wm : List ι → Dims → WidthModel W) (o : PyFw ι {e : Mt // e.Ok} R W) : Except ShipErr (PyFw ι {e : Mt // e.Ok} R W) :=
  match o.core.inf.prng.1.again with
  | none => .error .make
  | some e => PyFw.unpickle enum g cm wm ⟨{ o.core with inf := { o.core.inf with prng := e } }, o.cache, o.skip⟩

end

end TNCO
