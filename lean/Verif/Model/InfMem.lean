import Verif.Model.CTree

/-!
# Infinite-memory optimizer

`include/tnco/optimize/optimizer.hpp`,
`include/tnco/optimize/infinite_memory/{utils,optimizer}.hpp`.
Costs are elements of any type `R` with the operations that are used. Props/InfMem.lean takes an ordered group (exact costs), Props/Rounding.lean
floating-point numbers.
-/

namespace TNCO

/-- The random generator (`prng_type`, globals.hpp; `uniform_real_distribution`): an
arbitrary state machine. -/
structure Prng (σ P : Type) where
  next : σ → ℕ × σ
  uniform : σ → P × σ

/-- infinite_memory/cost_model: `contraction_cost(A, B, C, dims)` only looks at
`inds_A | inds_B` (simple.hpp:78-82, simple_sparse_inds.hpp:82-87); `get` is the cost of a
set of indices, with the (constant) dimensions already applied. -/
structure CostModel (R : Type) where
  get : ISet → R

/-- See `CostModel`. The assertion `C ⊆ A | B` is not part of the result. -/
def CostModel.contractionCost {R} (m : CostModel R) (a b _c : ISet) : R := m.get (a ∪ b)

/-- infinite_memory/utils.hpp:22-66 -/
structure CostCache (R : Type) where
  partialCost : ℕ → R
  contractionCost : ℕ → R

/-- utils.hpp:36-56: the callback of the traversal in the `CostCache` constructor. -/
def CostCache.visit {R} [Zero R] [Add R] (m : CostModel R) (c : CTree) (k : CostCache R) (pos : ℕ) :
    CostCache R :=
  match (c.tree.nodes pos).c0, (c.tree.nodes pos).c1 with
  | some b, some d =>
    let cost := m.contractionCost (c.inds pos) (c.inds b) (c.inds d)
    { contractionCost := Function.update k.contractionCost pos cost
      partialCost := Function.update k.partialCost pos (cost + k.partialCost b + k.partialCost d) }
  | _, _ =>
    { contractionCost := Function.update k.contractionCost pos 0
      partialCost := Function.update k.partialCost pos 0 }

/-- utils.hpp:31-57: constructor. -/
def CostCache.make {R} [Zero R] [Add R] (fuel : ℕ) (m : CostModel R) (c : CTree) : Option (CostCache R) :=
  (traverse fuel c.tree).map fun l => l.foldl (CostCache.visit m c) ⟨fun _ => 0, fun _ => 0⟩

/-- utils.hpp:76-92 -/
def hyperCache (c : CTree) (pos : ℕ) : ISet :=
  match (c.tree.nodes pos).c0, (c.tree.nodes pos).c1 with
  | some b, some d => c.inds pos ∩ c.inds b ∩ c.inds d
  | _, _ => ∅

/-- utils.hpp:102-116 `get_cost`. -/
def getCost {R} [Zero R] [Add R] (fuel : ℕ) (m : CostModel R) (c : CTree) : Option R :=
  (traverse fuel c.tree).map fun l => l.foldl (fun t pos =>
    match (c.tree.nodes pos).c0, (c.tree.nodes pos).c1 with
    | some b, some d => t + m.contractionCost (c.inds pos) (c.inds b) (c.inds d)
    | _, _ => t) 0

/-- Number of loop iterations that always suffices for the traversals (`C07`). -/
def CTree.fuel (c : CTree) : ℕ := 2 * c.tree.size

/-- optimizer.hpp:44-49 and infinite_memory/optimizer.hpp:56-59. `n_leaves` and `n_tensors`
are constants derived from the tree. -/
structure InfOpt (σ R : Type) where
  ctree : CTree
  disableShared : Bool
  prng : σ
  minCtree : CTree
  cost : CostCache R
  hyper : ℕ → ISet
  minTotal : R

variable {σ P R : Type}

/-- infinite_memory/optimizer.hpp:248-250 -/
def InfOpt.totalCost (o : InfOpt σ R) : R := o.cost.partialCost (o.ctree.tree.size - 1)

/-- optimizer.hpp:86-172 `get_ctree_nn(pos_B)`: `(A, C, D, E)` or `null`s, and the advanced
generator. -/
def getCtreeNN (g : Prng σ P) (c : CTree) (disableShared : Bool) (s : σ) (posB : ℕ) :
    Option (ℕ × ℕ × ℕ × ℕ) × σ :=
  match (c.tree.nodes posB).parent, (c.tree.nodes posB).c0, (c.tree.nodes posB).c1 with
  | some posA, some p0, some p1 =>
    -- 121-124
    match (if (c.tree.nodes posA).c0 = some posB then (c.tree.nodes posA).c1
           else (c.tree.nodes posA).c0) with
    | none => (none, s)                       -- not a tree
    | some posC =>
      let inter0 := (c.inds p0).intersects (c.inds posC)
      let inter1 := (c.inds p1).intersects (c.inds posC)
      if disableShared || (inter0 && inter1) then         -- 135
        let (n, s) := g.next s
        if n % 2 ≠ 0 then (some (posA, posC, p0, p1), s) else (some (posA, posC, p1, p0), s)
      else if inter0 then (some (posA, posC, p0, p1), s) else (some (posA, posC, p1, p0), s)
  | _, _, _ => (none, s)                      -- 118-120

/-- State of the `while` loop of `update`. -/
structure Walk (σ R : Type) where
  o : InfOpt σ R
  posB : ℕ
  total : R

section
variable [Zero R] [Add R] [Sub R] [LT R] [DecidableLT R] [LE P] [DecidableLE P]

/-- infinite_memory/optimizer.hpp:135-191: the loop body after the neighbours are known.
`inds_C`, `inds_E` stay bound to the old positions when `pos_C`, `pos_E` are exchanged. -/
def Walk.body (g : Prng σ P) (m : CostModel R) (prob : R → R → P) (w : Walk σ R)
    (posA posC posD posE : ℕ) : Walk σ R :=
  let o := w.o
  let c := o.ctree
  let indsA := c.inds posA
  let indsC := c.inds posC
  let indsD := c.inds posD
  let indsE := c.inds posE
  -- 147
  let newB := indsD.xor indsC ∪ o.hyper posA ∪ o.hyper w.posB
  -- 152-158
  let newCostA := m.contractionCost indsA newB indsE
  let newCostB := m.contractionCost newB indsD indsC
  let delta := (newCostB - o.cost.contractionCost w.posB) + (newCostA - o.cost.contractionCost posA)
  let (u, s) := g.uniform o.prng
  if u ≤ prob delta w.total then                                        -- 162
    let cc := Function.update (Function.update o.cost.contractionCost w.posB newCostB) posA newCostA
    -- 185-188 with pos_C and pos_E exchanged
    let pc1 := Function.update o.cost.partialCost w.posB
      (o.cost.partialCost posD + o.cost.partialCost posC + cc w.posB)
    let pc2 := Function.update pc1 posA (pc1 w.posB + pc1 posE + cc posA)
    { o := { o with
        prng := s
        ctree := { c with tree := c.tree.swapWithNN posE, inds := Function.update c.inds w.posB newB }
        hyper := Function.update (Function.update o.hyper posA (indsA ∩ newB ∩ indsE))
          w.posB (newB ∩ indsD ∩ indsC)
        cost := ⟨pc2, cc⟩ }
      posB := posA
      total := w.total + delta }
  else
    let cc := o.cost.contractionCost
    let pc1 := Function.update o.cost.partialCost w.posB
      (o.cost.partialCost posD + o.cost.partialCost posE + cc w.posB)
    let pc2 := Function.update pc1 posA (pc1 w.posB + pc1 posC + cc posA)
    { o := { o with prng := s, cost := ⟨pc2, cc⟩ }, posB := posA, total := w.total }

/-- infinite_memory/optimizer.hpp:117-192: the `while (true)` loop; `none` = still running
after `fuel` iterations. -/
def Walk.run (g : Prng σ P) (m : CostModel R) (prob : R → R → P) : ℕ → Walk σ R → Option (Walk σ R)
  | 0, _ => none
  | fuel + 1, w =>
    match getCtreeNN g w.o.ctree w.o.disableShared w.o.prng w.posB with
    | (none, s) => some { w with o := { w.o with prng := s } }
    | (some (a, c, d, e), s) =>
      Walk.run g m prob fuel (Walk.body g m prob { w with o := { w.o with prng := s } } a c d e)

/-- infinite_memory/optimizer.hpp:198-201 -/
def InfOpt.updateMin (o : InfOpt σ R) : InfOpt σ R :=
  if o.totalCost < o.minTotal then { o with minTotal := o.totalCost, minCtree := o.ctree } else o

/-- infinite_memory/optimizer.hpp:90-216 `update(prob)`. -/
def InfOpt.update (g : Prng σ P) (m : CostModel R) (o : InfOpt σ R) (prob : R → R → P) :
    Option (InfOpt σ R) :=
  let (n, s) := g.next o.prng
  let o := { o with prng := s }
  match (o.ctree.tree.nodes (n % o.ctree.tree.nLeaves)).parent with     -- 103-109
  | none => some o
  | some posB =>
    (Walk.run g m prob o.ctree.tree.size ⟨o, posB, o.totalCost⟩).map fun w => w.o.updateMin

/-- A history of updates, each with its own acceptance function (the temperature changes
from one update to the next in simulated annealing). -/
def InfOpt.run (g : Prng σ P) (m : CostModel R) (o : InfOpt σ R) : List (R → R → P) → Option (InfOpt σ R)
  | [] => some o
  | prob :: ps => (o.update g m prob).bind fun o' => o'.run g m ps

/-- optimizer.hpp:57-82 and infinite_memory/optimizer.hpp:61-88: constructor. The final
`is_valid` compares the fresh caches with themselves. `bad x`: `log2(x)` is infinite or NaN. `none`: a traversal does not stop
(only possible if the nodes do not form a tree). -/
def InfOpt.makeWith (bad : R → Prop) [DecidablePred bad] (m : CostModel R) (ctree : CTree) (seed : σ) (disableShared : Bool)
    (minCtree : Option CTree) : Option (Except String (InfOpt σ R)) := do
  let minC := minCtree.getD ctree
  if !(ctree.isValid !disableShared) || !(minC.isValid !disableShared) then
    return .error "invalid_argument"
  let k ← CostCache.make ctree.fuel m ctree
  let mt ← getCost minC.fuel m minC
  let o : InfOpt σ R := ⟨ctree, disableShared, seed, minC, k, hyperCache ctree, mt⟩
  if bad o.totalCost ∨ bad mt then return .error "domain_error"      -- 77-84
  return .ok o

end

/-- The constructor for exact costs. -/
def InfOpt.make [AddCommGroup R] [LinearOrder R] (m : CostModel R) (ctree : CTree) (seed : σ) (disableShared : Bool)
    (minCtree : Option CTree) : Option (Except String (InfOpt σ R)) :=
  InfOpt.makeWith (· ≤ 0) m ctree seed disableShared minCtree

end TNCO
