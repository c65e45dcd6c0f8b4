import Verif.Model.Bitset
import Mathlib.Data.Nat.Bitwise

/-!
# The blocks of a bitset, and the bitset as Python sees it

`include/tnco/bitset.hpp:33-35` derives `Bitset` from `boost::dynamic_bitset`, which keeps the bits
in blocks of `w` bits (64 on the usual platforms; everything below is for any `w`). Model/Bitset
has lists of bits instead; here the functions of Boost that the code calls are written down on
blocks, one loop for each loop of Boost. Boost is not in /repo: this is its documented interface
with the loops of `boost/dynamic_bitset/dynamic_bitset.hpp`, in a build with `NDEBUG`, which is
what pyproject.toml:15-20 leads to (scikit-build-core builds `Release` unless told otherwise). There the
assertions about equal sizes are not compiled. `none` is an access outside of the blocks.
-/

namespace TNCO

/-- A `boost::dynamic_bitset` (bitset.hpp:33-35): `m_bits`, every block a number below `2 ^ w`, and
`m_num_bits`. -/
structure DBits where
  blocks : List ℕ
  size : ℕ
deriving DecidableEq

namespace DBits

variable (w : ℕ)

/-- `~x` for a block of `w` bits. -/
def neg (x : ℕ) : ℕ := x ^^^ (2 ^ w - 1)

/-- `calc_num_blocks`. -/
def numBlocks (n : ℕ) : ℕ := n / w + if n % w ≠ 0 then 1 else 0

/-- `dynamic_bitset(n)`, used by bitset.hpp:54: `n` zeros. -/
def ofSize (n : ℕ) : DBits := ⟨List.replicate (numBlocks w n) 0, n⟩

/-- `test(i)`, used by bitset.hpp:43 and :171: `m_bits[i / w] & (1 << i % w)`. -/
def test (b : DBits) (i : ℕ) : Option Bool :=
  b.blocks[i / w]?.map fun x => x &&& 1 <<< (i % w) != 0

/-- `set(i)`, used by bitset.hpp:60. -/
def setBit (b : DBits) (i : ℕ) : Option DBits :=
  b.blocks[i / w]?.map fun x => ⟨b.blocks.set (i / w) (x ||| 1 <<< (i % w)), b.size⟩

/-- The loop of `&=`, `|=`, `^=` and `-=`: over the blocks of the left operand. -/
def zipBlocks (f : ℕ → ℕ → ℕ) : List ℕ → List ℕ → Option (List ℕ)
  | [], _ => some []
  | _ :: _, [] => none
  | x :: a, y :: b => (zipBlocks f a b).map (f x y :: ·)

/-- bitset.hpp:82-101: the left operand is copied and combined with the right one. -/
def zip (f : ℕ → ℕ → ℕ) (a b : DBits) : Option DBits :=
  (zipBlocks f a.blocks b.blocks).map (⟨·, a.size⟩)

/-- bitset.hpp:82-86 -/
def and (a b : DBits) : Option DBits := zip (fun x y => x &&& y) a b
/-- bitset.hpp:87-91 -/
def or (a b : DBits) : Option DBits := zip (fun x y => x ||| y) a b
/-- bitset.hpp:92-96 -/
def xor (a b : DBits) : Option DBits := zip (fun x y => x ^^^ y) a b
/-- bitset.hpp:97-101 -/
def sub (a b : DBits) : Option DBits := zip (fun x y => x &&& neg w y) a b

/-- `m_zero_unused_bits`: the bits of the highest block beyond the size become zero. -/
def zeroUnused (b : DBits) : Option DBits :=
  if b.size % w = 0 then some b
  else b.blocks.getLast?.map fun x =>
    ⟨b.blocks.dropLast ++ [x &&& (1 <<< (b.size % w) - 1)], b.size⟩

/-- bitset.hpp:102-104 `~`: all blocks are inverted, then the unused bits are cleared. -/
def inv (b : DBits) : Option DBits := zeroUnused w ⟨b.blocks.map (neg w), b.size⟩

/-- The number of bits set in a block. -/
def popcount (x : ℕ) : ℕ := (List.range w).countP fun j => x.testBit j

/-- `count()`, bound in bitset.hpp:179: the sum over all blocks. -/
def count (b : DBits) : ℕ := (b.blocks.map (popcount w)).sum

/-- The loop of `is_subset_of`. -/
def subsetBlocks : List ℕ → List ℕ → Option Bool
  | [], _ => some true
  | _ :: _, [] => none
  | x :: a, y :: b => if x &&& neg w y ≠ 0 then some false else subsetBlocks a b

/-- `is_subset_of`, bound in bitset.hpp:139-154 and used by ctree.hpp:143-144. -/
def isSubset (a b : DBits) : Option Bool := subsetBlocks w a.blocks b.blocks

/-- The loop of `is_proper_subset_of`. -/
def properBlocks : List ℕ → List ℕ → Bool → Option Bool
  | [], _, proper => some proper
  | _ :: _, [], _ => none
  | x :: a, y :: b, proper =>
    if x &&& neg w y ≠ 0 then some false
    else properBlocks a b (proper || decide (y &&& neg w x ≠ 0))

/-- `is_proper_subset_of`, bound in bitset.hpp:155-162. -/
def isProperSubset (a b : DBits) : Option Bool := properBlocks w a.blocks b.blocks false

/-- `intersects`, bound in bitset.hpp:135-138: the blocks that both operands have. -/
def intersects (a b : DBits) : Bool :=
  (List.zipWith (fun x y => x &&& y) a.blocks b.blocks).any (· ≠ 0)

/-- `lowest_bit`: the position of the lowest bit set. -/
def lowestBit (x : ℕ) : ℕ := ((List.range w).find? fun j => x.testBit j).getD w

/-- `m_do_find_from`: the first block from `k` on that is not zero (`none` = `npos`). -/
def findFrom (b : DBits) (k : ℕ) : Option ℕ :=
  ((b.blocks.drop k).findIdx? (· ≠ 0)).map fun i =>
    (k + i) * w + lowestBit w (b.blocks.getD (k + i) 0)

/-- `find_first()`, used by bitset.hpp:70. -/
def findFirst (b : DBits) : Option ℕ := findFrom w b 0

/-- `find_next(p)`, used by bitset.hpp:71; the inner `none` is `npos`. -/
def findNext (b : DBits) (p : ℕ) : Option (Option ℕ) :=
  if b.size - 1 ≤ p ∨ b.size = 0 then some none
  else b.blocks[(p + 1) / w]?.map fun x =>
    if x >>> ((p + 1) % w) ≠ 0 then some (p + 1 + lowestBit w (x >>> ((p + 1) % w)))
    else findFrom w b ((p + 1) / w + 1)

/-- bitset.hpp:68-74 `visit`: the positions passed to the callback. `fuel` bounds the number of
iterations; `none` = still running, or an access outside of the blocks. -/
def visitLoop (b : DBits) : ℕ → Option ℕ → List ℕ → Option (List ℕ)
  | _, none, out => some out
  | 0, some _, _ => none
  | fuel + 1, some p, out => (findNext w b p).bind fun q => visitLoop b fuel q (out ++ [p])

/-- bitset.hpp:76-80 `positions`. -/
def positions (b : DBits) : Option (List ℕ) :=
  visitLoop w b (b.blocks.length * w) (findFirst w b) []

/-- bitset.hpp:40-46 `operator std::string`. -/
def toStr (b : DBits) : Option (List Char) :=
  (List.range b.size).foldl
    (fun s i => s.bind fun s => (test w b i).map fun x => s ++ [if x then '1' else '0']) (some [])

/-- `init_from_string`: the last character is bit 0; a character that is not `1` leaves the bit
zero. -/
def boostOfString (s : List Char) : Option DBits :=
  (List.range s.length).foldl
    (fun b i => b.bind fun b => if s.getD (s.length - 1 - i) '0' = '1' then setBit w b i else some b)
    (some (ofSize w s.length))

/-- bitset.hpp:64-66: constructor from a string. -/
def ofString (s : List Char) : Option DBits := boostOfString w s.reverse

/-- bitset.hpp:50-62: constructor from positions. `inl` is `invalid_argument`. -/
def ofPositions (pos : List ℕ) (size : ℕ) : Option (String ⊕ DBits) :=
  pos.foldl (fun b x => b.bind fun
      | .inl e => some (.inl e)
      | .inr b => if size ≤ x then some (.inl "'size' is too small.") else (setBit w b x).map .inr)
    (some (.inr (ofSize w size)))

end DBits

/-! ### What Python makes of the bindings -/

namespace Bits

/-- bitset.hpp:166-172, `b[i]`: the index is converted to `size_t` first. -/
def pyGetItem (b : Bits) (i : ℤ) : Except String Bool :=
  if i < 0 ∨ 2 ^ 64 ≤ i then .error "TypeError"
  else match b.getItem i.toNat with
    | some x => .ok x
    | none => .error "IndexError"

/-- `iter(b)`: there is no `__iter__` (bitset.hpp:119-185), so Python asks for `b[0]`, `b[1]`, …
until the first `IndexError`. `none` = still running. -/
def pyIterFrom (b : Bits) : ℕ → ℕ → Option (Except String (List Bool))
  | 0, _ => none
  | fuel + 1, i =>
    match b.pyGetItem i with
    | .ok x => (pyIterFrom b fuel (i + 1)).map fun r => r.map (x :: ·)
    | .error e => if e = "IndexError" then some (.ok []) else some (.error e)

/-- `list(b)`. -/
def pyIter (b : Bits) : Option (Except String (List Bool)) := pyIterFrom b (b.length + 1) 0

/-- `x in b` for an integer: there is no `__contains__` (bitset.hpp:119-185), so Python compares `x`
with the items one after the other; `True == 1` and `False == 0`. -/
def pyContains (b : Bits) (x : ℤ) : Option (Except String Bool) :=
  b.pyIter.map fun r => r.map fun l => l.any fun y => decide ((if y then 1 else 0) = x)

/-- `bool(b)`: there is no `__bool__` (bitset.hpp:119-185), so it is `len(b) != 0`. -/
def pyBool (b : Bits) : Bool := decide (b.length ≠ 0)

end Bits

end TNCO
