import Verif.Model.Contract

/-!
# Specification: how many multiplications `contract` makes

`tensordot` (`tnco/utils/tensor.py:246-256`) multiplies two stacks of matrices, of shapes `(p, m, k)` and `(p, k, n)`: this takes
`p * m * k * n` multiplications of entries. `contract` (`tnco/utils/tn.py:970-1018`) calls `tensordot` once for every step of the path.
-/

namespace TNCO
variable {ι R : Type} [DecidableEq ι] [CommSemiring R]

/-- Multiplications of `a @ b` for two stacks of matrices. -/
def NDArray.matmulMuls (a b : NDArray R) : ℕ :=
  match a.shape, b.shape with
  | [p, m, k], [_, _, n] => p * m * k * n
  | _, _ => 0

/-- Multiplications of `tensordot`. -/
def tensordotMuls (ax : NDArray R) (xs : List ι) (ay : NDArray R) (ys : List ι) (hyper : List ι) : ℕ :=
  let X := (OFS.make xs).iter
  let Y := (OFS.make ys).iter
  let dims := dictLast (X.zip ax.shape ++ Y.zip ay.shape)
  match dotPlan xs ys hyper with
  | .error _ => 0
  | .ok p =>
    match toMatrix ax X p.newXs dims p.hyper p.xsOnly p.shared, toMatrix ay Y p.newYs dims p.hyper p.shared p.ysOnly with
    | .ok mx, .ok my => mx.matmulMuls my
    | _, _ => 0

/-- Multiplications of the loop of `contract`. -/
def loopMuls (enum : Finset ι → List ι) (out : Finset ι) : (ι → ℤ) → List (NDArray R × List ι) → List (ℕ × ℕ) → ℕ
  | _, _, [] => 0
  | hc, ts, (x, y) :: path =>
    if x = y then 0
    else match popPair ts x y with
      | none => 0
      | some ((ax, xs), (ay, ys), rest) =>
        match tensordot ax xs ay ys (enum (keptInds hc out xs ys)) with
        | .error _ => 0
        | .ok z => tensordotMuls ax xs ay ys (enum (keptInds hc out xs ys)) +
            loopMuls enum out (lowerCount hc xs ys) (rest ++ [z]) path

/-- Multiplications of `contract`. -/
def contractMuls (enum : Finset ι → List ι) (path : List (ℕ × ℕ)) (tsInds : List (List ι)) (output : List ι) (arrays : List (NDArray R)) : ℕ :=
  loopMuls enum output.toFinset (hyperCount tsInds.flatten) (arrays.zip tsInds) path

end TNCO
