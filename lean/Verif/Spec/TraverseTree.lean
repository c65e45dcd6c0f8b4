import Verif.Model.TraverseTree
import Mathlib.Logic.Relation

/-! Words for C85. -/

namespace TNCO

/-- A callback is called for one position after the other, up to the first exception. -/
def follow {σ E : Type} (cb : Callback σ E) : List ℕ → σ → σ × Option E
  | [], s => (s, none)
  | p :: ps, s => if (cb p s).2.isSome then cb p s else follow cb ps (cb p s).1

/-- The number of calls that have begun by then: all of them, or those up to the one that raises. -/
def begun {σ E : Type} (cb : Callback σ E) : List ℕ → σ → ℕ
  | [], _ => 0
  | p :: ps, s => if (cb p s).2.isSome then 1 else begun cb ps (cb p s).1 + 1

/-- `p` is `x` or below it. -/
def Under (T : Tree) (p x : ℕ) : Prop := Relation.ReflTransGen (fun a b => (T.nodes a).parent = some b) p x

/-- A callback that may read the tree but does not change it. -/
def KeepsTree {σ E : Type} (tree : σ → Tree) (cb : Callback σ E) : Prop := ∀ p s, tree (cb p s).1 = tree s

end TNCO
