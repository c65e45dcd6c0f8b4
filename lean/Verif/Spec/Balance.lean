import Verif.Model.InfMem
import Verif.Model.Prob
import Mathlib.MeasureTheory.Measure.Lebesgue.Basic
import Mathlib.MeasureTheory.Integral.Lebesgue.Basic

/-!
# The chance that a step of the search, or a whole update, leads to a given tree

`update` of the infinite-memory optimizer (infinite_memory/optimizer.hpp:90-216) uses three kinds of draws: a leaf, at each
position a coin that chooses which of the two children is exchanged, and a number of `[0, 1)` for the acceptance test. The
definitions here take these draws as independent and uniform, which is what a generator of random numbers is there for: integers
below `M` (`2 ^ 32` for `std::mt19937`, globals.hpp:37) and numbers of `[0, 1)`.
-/

namespace TNCO

variable {σ τ P R : Type}

/-- A generator that returns the given coin and the given number, whenever it is asked. -/
def drawPrng : Prng (ℕ × P) P := ⟨fun s => (s.1, s), fun s => (s.2, s)⟩

/-- The same state of the loop with another generator. -/
def Walk.withPrng (w : Walk σ R) (s : τ) : Walk τ R :=
  ⟨⟨w.o.ctree, w.o.disableShared, s, w.o.minCtree, w.o.cost, w.o.hyper, w.o.minTotal⟩, w.posB, w.total⟩

section
variable [Zero R] [Add R] [Sub R] [LT R] [DecidableLT R] [LE P] [DecidableLE P]

/-- infinite_memory/optimizer.hpp:117-192: one iteration of the loop. -/
def Walk.once (g : Prng σ P) (m : CostModel R) (prob : R → R → P) (w : Walk σ R) : Walk σ R :=
  match getCtreeNN g w.o.ctree w.o.disableShared w.o.prng w.posB with
  | (none, s) => { w with o := { w.o with prng := s } }
  | (some (a, c, d, e), s) => Walk.body g m prob { w with o := { w.o with prng := s } } a c d e

/-- The tree after one iteration with coin `n` and number `u`. -/
def Walk.stepTree (m : CostModel R) (prob : R → R → P) (w : Walk σ R) (n : ℕ) (u : P) : CTree :=
  (Walk.once drawPrng m prob (w.withPrng (n, u))).o.ctree

/-- The state after iterations with the given coins and numbers. -/
def Walk.after (m : CostModel R) (prob : R → R → P) (draws : List (ℕ × P)) (w : Walk (ℕ × P) R) : Walk (ℕ × P) R :=
  draws.foldl (fun w x => Walk.once drawPrng m prob (w.withPrng x)) w

end

/-- The chance that one iteration at the current position leads to the tree `T`: the generator returns one of `M` integers, each
as likely, and a number of `[0, 1)`. -/
noncomputable def Walk.stepChance (M : ℕ) (m : CostModel ℝ) (prob : ℝ → ℝ → ℝ) (w : Walk σ ℝ) (T : CTree) : ENNReal :=
  (M : ENNReal)⁻¹ * ∑ n ∈ Finset.range M, MeasureTheory.volume {u : ℝ | u ∈ Set.Ico 0 1 ∧ w.stepTree m prob n u = T}

/-- The chance that `k` iterations from the state `w` lead to the tree `T`, with fresh draws in each; at the root an iteration
does nothing. -/
noncomputable def Walk.endChance (M : ℕ) (m : CostModel ℝ) (prob : ℝ → ℝ → ℝ) : ℕ → Walk (ℕ × ℝ) ℝ → CTree → ENNReal
  | 0, w, T => open Classical in if w.o.ctree = T then 1 else 0
  | k + 1, w, T => (M : ENNReal)⁻¹ * ∑ n ∈ Finset.range M,
    ∫⁻ u in Set.Ico (0 : ℝ) 1, Walk.endChance M m prob k (Walk.once drawPrng m prob (w.withPrng (n, u))) T

/-- infinite_memory/optimizer.hpp:100-192: the chance that an update of `o` started at the leaf `q` leads to the tree `T`. -/
noncomputable def InfOpt.leafChance (M : ℕ) (m : CostModel ℝ) (prob : ℝ → ℝ → ℝ) (o : InfOpt σ ℝ) (T : CTree) (q : ℕ) :
    ENNReal :=
  match (o.ctree.tree.nodes q).parent with
  | none => open Classical in if o.ctree = T then 1 else 0
  | some posB => Walk.endChance M m prob o.ctree.tree.size ((⟨o, posB, o.totalCost⟩ : Walk σ ℝ).withPrng (0, 0)) T

/-- infinite_memory/optimizer.hpp:100-192: the chance that an update of `o` leads to the tree `T`; the first integer that is
drawn gives the leaf. -/
noncomputable def InfOpt.updateChance (M : ℕ) (m : CostModel ℝ) (prob : ℝ → ℝ → ℝ) (o : InfOpt σ ℝ) (T : CTree) : ENNReal :=
  (M : ENNReal)⁻¹ * ∑ n ∈ Finset.range M, o.leafChance M m prob T (n % o.ctree.tree.nLeaves)

end TNCO
