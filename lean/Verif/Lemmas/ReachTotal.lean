import Verif.Lemmas.ReachMean
import Verif.Lemmas.BalanceDraws

/-! Helper lemmas: the chances of disjoint events add up. -/

namespace TNCO
open PTree MeasureTheory

variable {σ τ : Type} {m : CostModel ℝ} {M : ℕ}

/-- The probability with which the loop body accepts. -/
def bodyProb (m : CostModel ℝ) (prob : ℝ → ℝ → ℝ) (w : Walk σ ℝ) (a c d e : ℕ) : ℝ :=
  prob ((m.contractionCost ((w.o.ctree.inds d).xor (w.o.ctree.inds c) ∪ w.o.hyper a ∪ w.o.hyper w.posB)
      (w.o.ctree.inds d) (w.o.ctree.inds c) - w.o.cost.contractionCost w.posB) +
    (m.contractionCost (w.o.ctree.inds a) ((w.o.ctree.inds d).xor (w.o.ctree.inds c) ∪ w.o.hyper a ∪ w.o.hyper w.posB)
      (w.o.ctree.inds e) - w.o.cost.contractionCost a)) w.total

theorem body_form (prob : ℝ → ℝ → ℝ) (w : Walk σ ℝ) (a c d e : ℕ) : ∃ p, ∃ w1 w2 : Walk Unit ℝ, ∀ (n : ℕ) (u : ℝ),
    Walk.body drawPrng m prob (w.withPrng (n, u)) a c d e = (if u ≤ p then w1 else w2).withPrng (n, u) := by
  refine ⟨bodyProb m prob w a c d e,
    (Walk.body drawPrng m (fun _ _ => (1 : ℝ)) (w.withPrng (0, (0 : ℝ))) a c d e).withPrng (),
    (Walk.body drawPrng m (fun _ _ => (-1 : ℝ)) (w.withPrng (0, (0 : ℝ))) a c d e).withPrng (), fun n u => ?_⟩
  have h1 : (0 : ℝ) ≤ 1 := zero_le_one
  have h2 : ¬ (0 : ℝ) ≤ -1 := by norm_num
  by_cases hp : u ≤ bodyProb m prob w a c d e
  · rw [if_pos hp]
    have e1 : Walk.body drawPrng m prob (w.withPrng (n, u)) a c d e = _ := if_pos hp
    have e2 : Walk.body drawPrng m (fun _ _ => (1 : ℝ)) (w.withPrng (0, (0 : ℝ))) a c d e = _ := if_pos h1
    rw [e2]
    exact e1
  · rw [if_neg hp]
    have e1 : Walk.body drawPrng m prob (w.withPrng (n, u)) a c d e = _ := if_neg hp
    have e2 : Walk.body drawPrng m (fun _ _ => (-1 : ℝ)) (w.withPrng (0, (0 : ℝ))) a c d e = _ := if_neg h2
    rw [e2]
    exact e1

theorem once_form (prob : ℝ → ℝ → ℝ) (w : Walk σ ℝ) (n : ℕ) : ∃ p, ∃ w1 w2 : Walk Unit ℝ, ∀ u : ℝ,
    Walk.once drawPrng m prob (w.withPrng (n, u)) = (if u ≤ p then w1 else w2).withPrng (n, u) := by
  have h1 : ∀ u : ℝ, getCtreeNN drawPrng w.o.ctree w.o.disableShared (n, u) w.posB =
      ((getCtreeNN drawPrng w.o.ctree w.o.disableShared (n, (0 : ℝ)) w.posB).1, (n, u)) := by
    intro u
    exact Prod.ext (nn_draw drawPrng w.o.ctree w.o.disableShared (n, u) w.posB 0)
      (nn_state w.o.ctree w.o.disableShared (n, u) w.posB)
  generalize (getCtreeNN drawPrng w.o.ctree w.o.disableShared (n, (0 : ℝ)) w.posB).1 = r at h1
  have h2 : ∀ u : ℝ, getCtreeNN drawPrng (w.withPrng (n, u)).o.ctree (w.withPrng (n, u)).o.disableShared
      (w.withPrng (n, u)).o.prng (w.withPrng (n, u)).posB = (r, (n, u)) := h1
  cases r with
  | none =>
    refine ⟨0, w.withPrng (), w.withPrng (), fun u => ?_⟩
    unfold Walk.once
    rw [h2]
    simp only [ite_self]
    rfl
  | some x =>
    obtain ⟨a, c, d, e⟩ := x
    obtain ⟨p, w1, w2, hb⟩ := body_form (m := m) prob w a c d e
    refine ⟨p, w1, w2, fun u => ?_⟩
    rw [← hb]
    unfold Walk.once
    rw [h2]
    rfl

theorem Walk.mean_prng (prob : ℝ → ℝ → ℝ) (f : InfOpt Unit ℝ → ENNReal) (k : ℕ) (w : Walk (ℕ × ℝ) ℝ) (x : ℕ × ℝ) :
    Walk.mean M m prob f k (w.withPrng x) = Walk.mean M m prob f k w := by
  cases k with
  | zero => simp only [Walk.mean]; rw [updateMin_prng]
  | succ k => rfl

theorem Walk.mean_measurable (prob : ℝ → ℝ → ℝ) (f : InfOpt Unit ℝ → ENNReal) (k : ℕ) (w : Walk (ℕ × ℝ) ℝ) (n : ℕ) :
    Measurable fun u : ℝ => Walk.mean M m prob f k (Walk.once drawPrng m prob (w.withPrng (n, u))) := by
  obtain ⟨p, w1, w2, h⟩ := once_form (m := m) prob w n
  have : (fun u : ℝ => Walk.mean M m prob f k (Walk.once drawPrng m prob (w.withPrng (n, u)))) =
      fun u => if u ≤ p then Walk.mean M m prob f k (w1.withPrng (0, (0 : ℝ))) else Walk.mean M m prob f k (w2.withPrng (0, (0 : ℝ))) := by
    funext u
    rw [h]
    split
    · exact (Walk.mean_prng prob f k (w1.withPrng (0, (0 : ℝ))) (n, u))
    · exact (Walk.mean_prng prob f k (w2.withPrng (0, (0 : ℝ))) (n, u))
  rw [this]
  exact Measurable.ite measurableSet_Iic measurable_const measurable_const

theorem Walk.mean_add (prob : ℝ → ℝ → ℝ) (f f' : InfOpt Unit ℝ → ENNReal) (k : ℕ) (w : Walk (ℕ × ℝ) ℝ) :
    Walk.mean M m prob (fun o => f o + f' o) k w = Walk.mean M m prob f k w + Walk.mean M m prob f' k w := by
  induction k generalizing w with
  | zero => rfl
  | succ k ih =>
    simp only [Walk.mean, ih]
    rw [← mul_add, ← Finset.sum_add_distrib]
    congr 1
    refine Finset.sum_congr rfl fun n _ => ?_
    exact lintegral_add_left (Walk.mean_measurable prob f k w n) _

theorem InfOpt.mean_add (prob : ℝ → ℝ → ℝ) (f f' : InfOpt Unit ℝ → ENNReal) (o : InfOpt Unit ℝ) :
    o.mean M m prob (fun o => f o + f' o) = o.mean M m prob f + o.mean M m prob f' := by
  unfold InfOpt.mean
  rw [← mul_add, ← Finset.sum_add_distrib]
  congr 1
  refine Finset.sum_congr rfl fun n _ => ?_
  unfold InfOpt.leafMean
  split
  · rfl
  · exact Walk.mean_add _ _ _ _ _

theorem InfOpt.means_add (f f' : InfOpt Unit ℝ → ENNReal) (probs : List (ℝ → ℝ → ℝ)) (o : InfOpt Unit ℝ) :
    InfOpt.means M m (fun o => f o + f' o) probs o = InfOpt.means M m f probs o + InfOpt.means M m f' probs o := by
  induction probs generalizing o with
  | nil => rfl
  | cons p ps ih =>
    simp only [InfOpt.means]
    rw [funext ih]
    exact InfOpt.mean_add _ _ _ _

end TNCO
