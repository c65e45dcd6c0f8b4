import Mathlib.Algebra.Order.Ring.Rat
import Mathlib.Analysis.SpecialFunctions.Pow.Real

/-!
# Acceptance probabilities: `include/tnco/optimize/prob/{base,greedy,mh}.hpp`
-/

namespace TNCO

/-- prob/base.hpp:43-47: always accept. -/
def probBase {R P : Type} [One P] (_delta _old : R) : P := 1

/-- prob/greedy.hpp:38-42 -/
def probGreedy {R P : Type} [Zero R] [LE R] [DecidableLE R] [Zero P] [One P] (delta _old : R) : P :=
  if delta ≤ 0 then 1 else 0

/-- prob/mh.hpp:45-54, over the reals. -/
noncomputable def probMH (beta : ℝ) (delta old : ℝ) : ℝ :=
  if delta ≤ 0 then 1 else (1 + delta / old) ^ (-beta)

end TNCO
