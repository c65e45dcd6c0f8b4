import Verif.Model.Twister

/-!
# `std::shuffle`

`include/tnco/optimize/finite_width/greedy/utils.hpp:82`: the positions are shuffled before they are sorted. The finite-width model takes any
function that returns a permutation (`FwPrng.shuffle`); here is the one of libstdc++ (GCC 13: bits/stl_algo.h, cited as `algo`,
and bits/uniform_int_dist.h, cited as `dist`) for a generator of 32 bits held in 64, and lists of fewer than 2^32 entries.
`next` is the generator. Loops that need not end have fuel.
-/

namespace TNCO

/-- How a shuffle can fail to return: a loop that does not stop, or a swap outside the list (undefined behaviour). -/
inductive ShufErr where
  | noReturn
  | outOfBounds
deriving DecidableEq, Repr

variable {σ : Type}

/-- dist:273-277: new numbers are drawn until the lower half of the product is not below the threshold. -/
def scaleLoop (next : σ → ℕ × σ) (range threshold : ℕ) : ℕ → ℕ → σ → Except ShufErr (ℕ × σ)
  | 0, _, _ => .error .noReturn
  | fuel + 1, product, s =>
    if product % 2 ^ 32 < threshold then
      scaleLoop next range threshold fuel ((next s).1 * range % 2 ^ 64) (next s).2
    else .ok (product / 2 ^ 32, s)                                                       -- 279

/-- dist:252-280 `_S_nd<uint64_t>(g, range)`, to which `uniform_int_distribution{0, range - 1}` comes down (dist:297-322). -/
def scale (next : σ → ℕ × σ) (fuel range : ℕ) (s : σ) : Except ShufErr (ℕ × σ) :=
  if (next s).1 * range % 2 ^ 64 % 2 ^ 32 < range then                                   -- 268-270
    scaleLoop next range ((2 ^ 32 - range) % 2 ^ 32 % range) fuel ((next s).1 * range % 2 ^ 64) (next s).2
  else .ok ((next s).1 * range % 2 ^ 64 / 2 ^ 32, (next s).2)

/-- Two entries exchanged. -/
def swapPos (l : List ℕ) (i j : ℕ) : List ℕ := (l.set i (l.getD j 0)).set j (l.getD i 0)

/-- `std::iter_swap(first + i, first + j)`. -/
def iterSwap (l : List ℕ) (i j : ℕ) : Except ShufErr (List ℕ) :=
  if i < l.length ∧ j < l.length then .ok (swapPos l i j) else .error .outOfBounds

/-- algo:3803-3804: the loop that draws one number for each swap; the first argument is `last - i`. -/
def shuffleSingles (next : σ → ℕ × σ) (fuel : ℕ) : ℕ → ℕ → List ℕ → σ → Except ShufErr (List ℕ × σ)
  | 0, _, l, s => .ok (l, s)
  | k + 1, i, l, s =>
    match scale next fuel (i + 1) s with
    | .error e => .error e
    | .ok (x, s) =>
      match iterSwap l i x with
      | .error e => .error e
      | .ok l => shuffleSingles next fuel k (i + 1) l s

/-- algo:3787-3796: the loop that draws one number for two swaps (3719-3725); the first argument is half of `last - i`. -/
def shufflePairs (next : σ → ℕ × σ) (fuel : ℕ) : ℕ → ℕ → List ℕ → σ → Except ShufErr (List ℕ × σ)
  | 0, _, l, s => .ok (l, s)
  | k + 1, i, l, s =>
    match scale next fuel ((i + 1) * (i + 2)) s with
    | .error e => .error e
    | .ok (x, s) =>
      match iterSwap l i (x / (i + 2)) with
      | .error e => .error e
      | .ok l =>
        match iterSwap l (i + 1) (x % (i + 2)) with
        | .error e => .error e
        | .ok l => shufflePairs next fuel k (i + 2) l s

/-- algo:3742-3805 `std::shuffle`. -/
def stdShuffle (next : σ → ℕ × σ) (fuel : ℕ) (l : List ℕ) (s : σ) : Except ShufErr (List ℕ × σ) :=
  if l = [] then .ok (l, s)                                                              -- 3750
  else if l.length ≤ (2 ^ 32 - 1) / l.length then                                        -- 3768
    if l.length % 2 = 0 then                                                             -- 3777
      match scale next fuel 2 s with
      | .error e => .error e
      | .ok (x, s) =>
        match iterSwap l 1 x with
        | .error e => .error e
        | .ok l => shufflePairs next fuel ((l.length - 2) / 2) 2 l s
    else shufflePairs next fuel ((l.length - 1) / 2) 1 l s
  else shuffleSingles next fuel (l.length - 1) 1 l s

end TNCO
