import Mathlib.Data.Nat.Notation
import Mathlib.Data.List.Basic
import Mathlib.Data.List.Dedup
import Mathlib.Data.Int.Notation
import Mathlib.Order.Basic

/-!
# Bitset: `tnco/bitset.py` and `include/tnco/bitset.hpp`

`boost::dynamic_bitset` is a vector of bits. Element `i` of the list is bit `i`. Model/Blocks has
the blocks in which Boost keeps them; C91 proves that both agree.
-/

namespace TNCO

/-- A `boost::dynamic_bitset`, bit 0 first. -/
abbrev Bits := List Bool

namespace Bits

/-- `boost::dynamic_bitset(std::string)`: the last character is bit 0; only '0' and '1' are
accepted (`none` = an assertion of Boost, which `Bitset.make` avoids; C91_make has what happens
without the assertion). -/
def boostOfString : List Char → Option Bits
  | [] => some []
  | c :: cs =>
    match boostOfString cs with
    | none => none
    | some b => if c = '0' then some (b ++ [false]) else if c = '1' then some (b ++ [true]) else none

/-- bitset.hpp:64-66: constructor from a string (reversed before passing it to boost). -/
def ofString (s : List Char) : Option Bits := boostOfString s.reverse

/-- bitset.hpp:40-46 `operator std::string`: a loop over the positions. -/
def toStr (b : Bits) : List Char :=
  (List.range b.length).foldl (fun s i => s ++ [if b.getD i false then '1' else '0']) []

/-- bitset.hpp:54-62: constructor from positions (`none` = `invalid_argument`). -/
def ofPositions (pos : List ℕ) (size : ℕ) : Option Bits :=
  pos.foldl (fun b x => b.bind fun b => if size ≤ x then none else some (b.set x true))
    (some (List.replicate size false))

/-- `boost::dynamic_bitset::find_first` / `find_next`: first set bit at or after `p`. -/
def findFrom (b : Bits) (p : ℕ) : Option ℕ := ((b.drop p).findIdx? (· = true)).map (· + p)

/-- bitset.hpp:68-74 `visit`: the positions passed to the callback. `fuel` bounds the number of
iterations; `none` = still running. -/
def visitLoop (b : Bits) : ℕ → Option ℕ → List ℕ → Option (List ℕ)
  | _, none, out => some out
  | 0, some _, _ => none
  | fuel + 1, some p, out => visitLoop b fuel (findFrom b (p + 1)) (out ++ [p])

/-- bitset.hpp:76-80 `positions`. -/
def positions (b : Bits) : Option (List ℕ) := visitLoop b b.length (findFrom b 0) []

/-- bitset.hpp:82-101; operands of equal length (asserted by Boost; other lengths are in C91_sizes). -/
def and (a b : Bits) : Bits := List.zipWith (· && ·) a b
def or (a b : Bits) : Bits := List.zipWith (· || ·) a b
def xor (a b : Bits) : Bits := List.zipWith (· != ·) a b
def sub (a b : Bits) : Bits := List.zipWith (fun x y => x && !y) a b
/-- bitset.hpp:102-104 -/
def inv (a : Bits) : Bits := a.map (!·)

/-- `boost::dynamic_bitset::intersects` -/
def intersects (a b : Bits) : Bool := (List.zipWith (· && ·) a b).any id
/-- `boost::dynamic_bitset::is_subset_of` -/
def isSubset (a b : Bits) : Bool := (List.zipWith (fun x y => !x || y) a b).all id
/-- `boost::dynamic_bitset::is_proper_subset_of`: one scan that requires inclusion everywhere
and a difference somewhere. -/
def isProperSubset : Bits → Bits → Bool → Bool
  | x :: a, y :: b, proper => if x && !y then false else isProperSubset a b (proper || (!x && y))
  | _, _, proper => proper
/-- bitset.hpp:179, binding of `count`. -/
def count (a : Bits) : ℕ := a.countP (· = true)
/-- bitset.hpp:166-172, binding of `__getitem__` (`none` = `IndexError`). -/
def getItem (a : Bits) (i : ℕ) : Option Bool := if a.length ≤ i then none else some (a.getD i false)

end Bits

/-- The `bits` argument of the Python constructor. -/
inductive BitsArg where
  | none
  | str (s : List Char)
  | list (l : List ℤ)

/-- more_itertools.duplicates_everseen(l) is non-empty. -/
def hasDuplicates {α : Type} [DecidableEq α] : List α → Bool
  | [] => false
  | x :: l => decide (x ∈ l) || hasDuplicates l

/-- tnco/bitset.py:45-88 `Bitset.__init__`. Positions reach C++ as `size_t`: a negative number
is a `TypeError` of the binding. -/
def Bitset.make (bits : BitsArg) (n : Option ℤ) : Except String Bits :=
  match bits with
  | .none =>
    match n with
    | .none => .ok []
    | some n => if n ≠ 0 then .error "ValueError" else .ok []
  | .str s =>
    if s.any (fun c => !(c == '0' || c == '1')) then .error "ValueError"
    else if n ≠ none ∧ n ≠ some (s.length : ℤ) then .error "ValueError"
    else match Bits.ofString s with
      | some b => .ok b
      | none => .error "ValueError"
  | .list l =>
    if hasDuplicates l then .error "ValueError"
    else match n with
      | none => .error "ValueError"
      | some n =>
        if n < 0 then .error "ValueError"
        else if l.any (fun x => n < x) then .error "ValueError"      -- n < max(bits)
        else if l.any (fun x => x < 0) then .error "TypeError"
        else match Bits.ofPositions (l.map Int.toNat) n.toNat with
          | some b => .ok b
          | none => .error "ValueError"

end TNCO
