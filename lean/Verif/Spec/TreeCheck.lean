import Verif.Spec.PTree
import Verif.Model.PathBuild
import Mathlib.Data.List.Basic

/-! How often an index is contracted in a tree, and which contractions share an index. -/

namespace TNCO
namespace PTree

/-- `P p`: the tensor at position `p` has the index. The number of contractions whose two
operands both have it. -/
def crossings (P : ℕ → Bool) : PTree → ℕ
  | leaf _ => 0
  | node _ l r => (if P l.root && P r.root then 1 else 0) + (l.crossings P + r.crossings P)

/-- The number of leaves that have the index. -/
def carriers (P : ℕ → Bool) (t : PTree) : ℕ := t.leaves.countP P

end PTree

/-- The operands of every contraction have a common index name. -/
def SharesNames {ι : Type} [DecidableEq ι] (t : PyTree ι) : Prop :=
  ∀ p < t.core.tree.size, ∀ a b, (t.core.tree.nodes p).c0 = some a → (t.core.tree.nodes p).c1 = some b →
    ∃ x, x ∈ t.inds a ∧ x ∈ t.inds b

end TNCO
