import Verif.Model.InfMem
import Mathlib.Analysis.SpecialFunctions.Log.Basic

/-!
# Validity check of the infinite-memory optimizer
-/

namespace TNCO

open Classical in
/-- include/tnco/utils.hpp:78-87 `is_logclose`, over the reals. -/
noncomputable def isLogClose (x y atol : ℝ) : Bool :=
  if x < 0 ∨ y < 0 then false
  else if x = 0 ∨ y = 0 then decide (x = y)
  else decide (|Real.log x - Real.log y| ≤ atol)

/-- include/tnco/utils.hpp:89-112 `all_logclose` on two vectors of length `n`. -/
noncomputable def allLogClose (n : ℕ) (x y : ℕ → ℝ) (atol : ℝ) : Bool :=
  (List.range n).all fun i => isLogClose (x i) (y i) atol

open Classical in
/-- infinite_memory/optimizer.hpp:218-246 `is_valid(atol)` with optimizer.hpp:174-189. `none`:
a traversal does not stop. -/
noncomputable def InfOpt.isValid {σ : Type} (m : CostModel ℝ) (o : InfOpt σ ℝ) (atol : ℝ) : Option Bool := do
  if !(o.ctree.isValid !o.disableShared) then return false
  if !(o.minCtree.isValid !o.disableShared) then return false
  let mc ← getCost o.minCtree.fuel m o.minCtree
  if !(isLogClose mc o.minTotal atol) then return false
  let k ← CostCache.make o.ctree.fuel m o.ctree
  if !(allLogClose o.ctree.tree.size o.cost.partialCost k.partialCost atol &&
      allLogClose o.ctree.tree.size o.cost.contractionCost k.contractionCost atol) then return false
  if !((List.range o.ctree.tree.size).all fun p => decide (o.hyper p = hyperCache o.ctree p)) then
    return false
  return true

end TNCO
