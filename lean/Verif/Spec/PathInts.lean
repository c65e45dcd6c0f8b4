import Verif.Spec.Replay
import Mathlib.Data.Int.Notation
import Mathlib.Algebra.Order.Ring.Int

/-!
# Specification: paths whose positions are integers

A negative position counts from the end, as everywhere in Python. A path can then be read in two ways:
both positions of a step name entries of the list as it is before the step (`Named`), or the second one
names an entry of the list from which the first one has been taken out (`Popped`).
-/

namespace TNCO

/-- The integer `i` names the place `j` in a list of `k` entries. -/
def Names (k : ℕ) (i : ℤ) (j : ℕ) : Prop := j < k ∧ (i = j ∨ i = (j : ℤ) - k)

/-- Follows a path: the two positions of a step name two different entries of the list, which are
contracted. -/
inductive Named : List Term → List (List ℤ) → List Term → Prop where
  | nil {F} : Named F [] F
  | cons {F x y i j a b path F'} : Names F.length (min x y) i → Names F.length (max x y) j → i ≠ j → F[i]? = some a →
      F[j]? = some b → Named ((F.eraseIdx (max i j)).eraseIdx (min i j) ++ [.pair a b]) path F' →
      Named F ([x, y] :: path) F'

/-- Follows a path: the larger position of a step names an entry, which is taken out; then the smaller
one names an entry of what is left. -/
inductive Popped : List Term → List (List ℤ) → List Term → Prop where
  | nil {F} : Popped F [] F
  | cons {F x y i j a b path F'} : Names F.length (max x y) j → F[j]? = some b → Names (F.length - 1) (min x y) i →
      (F.eraseIdx j)[i]? = some a → Popped ((F.eraseIdx j).eraseIdx i ++ [.pair a b]) path F' →
      Popped F ([x, y] :: path) F'

/-- The two ways of reading the path agree, for a list of `k` entries: in every step that names two
entries either both positions are from the front and differ, or only the smaller one is negative, and it
names the later entry. -/
def RightPath : ℕ → List (List ℤ) → Prop
  | _, [] => True
  | k, s :: path => (∀ x y, s = [x, y] → x ≠ y ∧ (0 ≤ min x y ∨ (0 ≤ max x y ∧ max x y < k + min x y))) ∧ RightPath (k - 1) path

/-- The path with natural numbers that contracts the same as `Popped`. -/
inductive Places : ℕ → List (List ℤ) → List (ℕ × ℕ) → Prop where
  | nil {k} : Places k [] []
  | cons {k x y i j path q} : Names k (max x y) j → Names (k - 1) (min x y) i → Places (k - 1) path q →
      Places k ([x, y] :: path) ((if i < j then i else i + 1, j) :: q)

/-- A path of natural numbers as one of integers. -/
def intPath (path : List (ℕ × ℕ)) : List (List ℤ) := path.map fun s => [(s.1 : ℤ), (s.2 : ℤ)]

end TNCO
