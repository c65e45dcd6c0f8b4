import Mathlib.Data.Nat.Notation

/-!
# Specification: what a contraction path in linear (einsum) format means

Tensors `0, ..., n-1` are in a list; a step `(x, y)` removes the entries at the two positions
and appends the contraction of the two.
-/

namespace TNCO

/-- A bracketing of tensors. -/
inductive Term where
  | tensor (i : ℕ)
  | pair (a b : Term)
deriving DecidableEq, Repr

namespace Term

def isPair : Term → Bool
  | tensor _ => false
  | pair _ _ => true

/-- The tensors of a bracketing, left to right. -/
def tensors : Term → List ℕ
  | tensor i => [i]
  | pair a b => a.tensors ++ b.tensors

/-- Equality of bracketings up to the order of the two operands of a contraction. -/
inductive Same : Term → Term → Prop where
  | tensor (i) : Same (tensor i) (tensor i)
  | pair {a b a' b'} : Same a a' → Same b b' → Same (pair a b) (pair a' b')
  | swap {a b a' b'} : Same a a' → Same b b' → Same (pair a b) (pair b' a')

/-- `s` is a part of a bracketing. -/
inductive Sub (s : Term) : Term → Prop where
  | refl : Sub s s
  | left {a b} : Sub s a → Sub s (pair a b)
  | right {a b} : Sub s b → Sub s (pair a b)

end Term

/-- Follows a path; `none` if a step does not name two different existing positions. -/
def replay : List Term → List (ℕ × ℕ) → Option (List Term)
  | ts, [] => some ts
  | ts, (x, y) :: path =>
    if x = y then none
    else match ts[min x y]?, ts[max x y]? with
      | some a, some b =>
        replay ((ts.eraseIdx (max x y)).eraseIdx (min x y) ++ [.pair a b]) path
      | _, _ => none

/-- The contractions a path performs, in order: the terms appended to the list. -/
def trace : List Term → List (ℕ × ℕ) → List Term
  | _, [] => []
  | ts, (x, y) :: path =>
    match ts[min x y]?, ts[max x y]? with
    | some a, some b =>
      .pair a b :: trace ((ts.eraseIdx (max x y)).eraseIdx (min x y) ++ [.pair a b]) path
    | _, _ => []

/-- A valid path for `n` tensors. -/
def ValidPath (n : ℕ) (path : List (ℕ × ℕ)) : Prop :=
  ∃ F, replay ((List.range n).map .tensor) path = some F

/-- The tensors a path contracts. -/
def Touches (n : ℕ) (path : List (ℕ × ℕ)) (k : ℕ) : Prop :=
  ∃ t ∈ trace ((List.range n).map .tensor) path, k ∈ t.tensors

/-- The initial list of `n` tensors. -/
def initTerms (n : ℕ) : List Term := (List.range n).map .tensor

end TNCO
