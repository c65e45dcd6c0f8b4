import Verif.Spec.Balance
import Verif.Spec.Inds

/-!
# Trees up to the order of children, and the chances of many updates

The order of the two children of a contraction and the numbering of contractions do not matter for the contraction and its cost.
The chances are those of Spec/Balance.lean, for any number of updates and any question about the state of the optimizer: all
draws are independent and uniform.
-/

namespace TNCO
namespace PTree

/-- The same contractions, up to the order of operands and the numbers of the inner nodes. -/
inductive SameTree : PTree → PTree → Prop
  | leaf (p : ℕ) : SameTree (.leaf p) (.leaf p)
  | node {p p' : ℕ} {l l' r r' : PTree} : SameTree l l' → SameTree r r' → SameTree (.node p l r) (.node p' l' r')
  | swap {p p' : ℕ} {l l' r r' : PTree} : SameTree l l' → SameTree r r' → SameTree (.node p l r) (.node p' r' l')

end PTree

variable {σ τ : Type}

/-- The same optimizer with another generator. -/
def InfOpt.withPrng {R : Type} (o : InfOpt σ R) (s : τ) : InfOpt τ R :=
  ⟨o.ctree, o.disableShared, s, o.minCtree, o.cost, o.hyper, o.minTotal⟩

/-- The expected value of `f` at the end of an update, when `k` iterations are left; at the root an iteration does nothing. In
each iteration the generator returns one of `M` integers, each as likely, and a number of `[0, 1)`. At the end the minimum is
recorded (infinite_memory/optimizer.hpp:198-201). -/
noncomputable def Walk.mean (M : ℕ) (m : CostModel ℝ) (prob : ℝ → ℝ → ℝ) (f : InfOpt Unit ℝ → ENNReal) :
    ℕ → Walk (ℕ × ℝ) ℝ → ENNReal
  | 0, w => f (w.o.updateMin.withPrng ())
  | k + 1, w => (M : ENNReal)⁻¹ * ∑ n ∈ Finset.range M,
    ∫⁻ u in Set.Ico (0 : ℝ) 1, Walk.mean M m prob f k (Walk.once drawPrng m prob (w.withPrng (n, u)))

/-- infinite_memory/optimizer.hpp:90-216: the expected value of `f` after an update that starts at the leaf `q`. -/
noncomputable def InfOpt.leafMean (M : ℕ) (m : CostModel ℝ) (prob : ℝ → ℝ → ℝ) (f : InfOpt Unit ℝ → ENNReal)
    (o : InfOpt Unit ℝ) (q : ℕ) : ENNReal :=
  match (o.ctree.tree.nodes q).parent with
  | none => f o
  | some posB => Walk.mean M m prob f o.ctree.tree.size ((⟨o, posB, o.totalCost⟩ : Walk Unit ℝ).withPrng (0, 0))

/-- infinite_memory/optimizer.hpp:90-216: the expected value of `f` after an update; the first integer that is drawn gives the
leaf. -/
noncomputable def InfOpt.mean (M : ℕ) (m : CostModel ℝ) (prob : ℝ → ℝ → ℝ) (f : InfOpt Unit ℝ → ENNReal)
    (o : InfOpt Unit ℝ) : ENNReal :=
  (M : ENNReal)⁻¹ * ∑ n ∈ Finset.range M, o.leafMean M m prob f (n % o.ctree.tree.nLeaves)

/-- The expected value of `f` after a history of updates, each with its own acceptance function. -/
noncomputable def InfOpt.means (M : ℕ) (m : CostModel ℝ) (f : InfOpt Unit ℝ → ENNReal) :
    List (ℝ → ℝ → ℝ) → InfOpt Unit ℝ → ENNReal
  | [], o => f o
  | prob :: probs, o => o.mean M m prob (InfOpt.means M m f probs)

/-- The chance that the state of the optimizer satisfies `E` after a history of updates. -/
noncomputable def InfOpt.chance (M : ℕ) (m : CostModel ℝ) (o : InfOpt σ ℝ) (probs : List (ℝ → ℝ → ℝ))
    (E : InfOpt Unit ℝ → Prop) : ENNReal :=
  InfOpt.means M m (fun o => open Classical in if E o then 1 else 0) probs (o.withPrng ())

end TNCO
