import Verif.Spec.PTree
import Verif.Spec.Replay

/-!
# Specification: the bracketing a tree stands for
-/

namespace TNCO
open PTree

/-- The bracketing of a tree whose leaf at position `p` is tensor `f p`. -/
def PTree.toTerm (f : ℕ → ℕ) : PTree → Term
  | leaf p => .tensor (f p)
  | node _ l r => .pair (l.toTerm f) (r.toTerm f)

end TNCO
