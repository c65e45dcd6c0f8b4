import Verif.Model.PyRandom
import Verif.Spec.Twister
import Verif.Spec.FloatClass
import Mathlib.Data.Finset.Prod

/-! Words for C89. -/

namespace TNCO

/-- The pairs of numbers below `n`. -/
@[irreducible] def pairsBelow (n : ℕ) : Finset (ℕ × ℕ) := Finset.range n ×ˢ Finset.range n

/-- The pairs of draws. -/
def wordPairs : Finset (ℕ × ℕ) := pairsBelow (2 ^ 32)

/-- The generator after `t` calls of `getrandbits(k)`. -/
def Mt.afterBits (k : ℕ) : ℕ → Mt → Mt
  | 0, e => e
  | t + 1, e => Mt.afterBits k t (e.bits k).2

/-- Two seeds below 2^64 that are one to the generator, whatever their signs: the upper word of the second is its lower word minus 1. -/
def SeedTwin (m n : ℕ) : Prop := m < 2 ^ 32 ∧ n = m + (m + (2 ^ 32 - 1)) % 2 ^ 32 * 2 ^ 32

/-- A sequence made of another one, each number with the one before it. -/
def chainRec (f : ℕ → ℕ → ℕ → ℕ) (o : ℕ → ℕ) : ℕ → ℕ
  | 0 => o 0
  | t + 1 => f t (o (t + 1)) (chainRec f o t)

/-- What the first loop does with a word. -/
def keyMix (key : List ℕ) (t x y : ℕ) : ℕ := (spreadWord 1664525 x y + key.getD (t % key.length) 0 + t % key.length) % 2 ^ 32

/-- What the second loop does with a word; `t` counts from 0 at the position 2. -/
def numMix (t x y : ℕ) : ℕ := (spreadWord 1566083941 x y + (2 ^ 32 - (t + 2))) % 2 ^ 32

/-- The words of the first loop, one made of the other. -/
def keySeq (key : List ℕ) : ℕ → ℕ := chainRec (keyMix key) fun p => (Mt.seed 19650218).words.getD p 0

/-- The last step of the first loop makes word 1 once more. -/
def keyFirst (key : List ℕ) : ℕ := keyMix key 623 (keySeq key 1) (keySeq key 623)

/-- The words of the second loop, from word 1 on. -/
def numSeq (key : List ℕ) : ℕ → ℕ := chainRec numMix fun q => if q = 0 then keyFirst key else keySeq key (q + 1)

end TNCO
