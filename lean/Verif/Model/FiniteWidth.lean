import Verif.Model.InfMem
import Mathlib.Data.List.Sort
import Mathlib.Data.Finset.Lattice.Fold

/-!
# Finite-width optimizer

`include/tnco/optimize/finite_width/{utils.hpp,greedy/utils.hpp,greedy/optimizer.hpp}` and
`tnco/optimize/finite_width/optimizer.py`. Costs and widths are elements of any types `R` and `W`
with the operations that are used. Props/FiniteWidth.lean takes ordered groups (exact values),
Props/RoundingFw.lean floating-point numbers.
-/

namespace TNCO

/-- Finite-width cost models: `contraction_cost(A, B, C, dims, slices)` is the cost of
`inds_A | inds_B | slices` (finite_width/cost_model/simple.hpp:124-145,
simple_sparse_inds.hpp:136-158). -/
def CostModel.sliced {R} (m : CostModel R) (slices : ISet) : CostModel R := ⟨fun x => m.get (x ∪ slices)⟩

/-- The width part of a finite-width cost model with the (constant) dimensions applied:
`width`, `delta_width`, `max_width` and the cached `log2_dims` (finite_width/utils.hpp:74-99; a scalar if all
dimensions agree). -/
structure WidthModel (W : Type) where
  width : ISet → W
  delta : ISet → ℕ → W
  log2d : ℕ → W
  scalar : Bool
  maxWidth : W

/-- The generator together with `std::shuffle`, of which only the guarantee of the standard is
used: the result is a permutation. -/
structure FwPrng (σ P : Type) extends Prng σ P where
  shuffle : σ → List ℕ → List ℕ × σ
  shuffle_perm : ∀ s l, (shuffle s l).1.Perm l

/-- bitset.hpp `positions()`: the members in increasing order. -/
def ISet.positions (xs : ISet) : List ℕ := (List.range (xs.sup id + 1)).filter (· ∈ xs)

/-- Set difference with the optional `skip_slices`. -/
def ISet.minus? (xs : ISet) : Option ISet → ISet
  | none => xs
  | some k => xs \ k

variable {σ P R W : Type}

section
variable [Add W] [LT W] [DecidableLT W] [LE W] [DecidableLE W]

/-- greedy/utils.hpp:39-47 `n_big_tensors`. -/
def nBig (wm : WidthModel W) (c : CTree) (width : ℕ → W) (x : ℕ) : ℕ :=
  ((List.range c.tree.size).filter fun t => wm.maxWidth < width t ∧ x ∈ c.inds t).length

/-- greedy/utils.hpp:49-62 `greater`. -/
def sliceGreater (wm : WidthModel W) (big : ℕ → ℕ) (x y : ℕ) : Bool :=
  if wm.scalar then decide (big y < big x)
  else if big x = big y then decide (wm.log2d y < wm.log2d x) else decide (big y < big x)

/-- greedy/utils.hpp:81-85: `std::stable_sort` with `greater` (insertion sort is a stable
sort, and the result of a stable sort does not depend on the algorithm). -/
def sliceSort (wm : WidthModel W) (big : ℕ → ℕ) (l : List ℕ) : List ℕ :=
  l.insertionSort fun a b => sliceGreater wm big b a = false

/-- greedy/utils.hpp:87-104: the loop over the sorted positions. -/
def sliceLoop (wm : WidthModel W) : List ℕ → ISet → ISet → W → ISet
  | [], slices, _, _ => slices
  | x :: l, slices, xs, w =>
    let w' := w + wm.delta xs x
    if w' ≤ wm.maxWidth then insert x slices
    else sliceLoop wm l (insert x slices) (xs.erase x) w'

/-- greedy/utils.hpp:65-107: the callback of the traversal. -/
def sliceVisit (g : FwPrng σ P) (wm : WidthModel W) (c : CTree) (skip : Option ISet) (width : ℕ → W)
    (st : ISet × σ) (tpos : ℕ) : ISet × σ :=
  if wm.maxWidth < width tpos then
    let xs := c.inds tpos \ st.1
    if wm.maxWidth < wm.width xs then
      let (l, s) := g.shuffle st.2 (xs.minus? skip).positions
      (sliceLoop wm (sliceSort wm (nBig wm c width) l) st.1 xs (wm.width xs), s)
    else st
  else st

/-- greedy/utils.hpp:21-125 and 127-147 `get_slices`; `none`: the traversal does not stop. -/
def getSlices (g : FwPrng σ P) (wm : WidthModel W) (c : CTree) (skip : Option ISet) (width : ℕ → W)
    (s : σ) : Option (ISet × σ) :=
  (traverse c.fuel c.tree).map fun l => l.foldl (sliceVisit g wm c skip width) (∅, s)

end

/-- How a call can fail to return. -/
inductive FwErr where
  /-- `prng() % n_pos` with `n_pos == 0` (undefined behaviour; a crash in practice) -/
  | divByZero
  /-- a loop that does not stop -/
  | noReturn
deriving DecidableEq, Repr

/-- greedy/optimizer.hpp:61-70. `inf` has the members shared with the infinite-memory
optimizer (`cost_cache` is computed with the slices). -/
structure FwOpt (σ R W : Type) where
  inf : InfOpt σ R
  maxNew : ℕ
  width : ℕ → W
  skip : Option ISet
  slices : ISet
  minSlices : ISet

/-- State of the `while` loop of `update`. -/
structure FwWalk (σ R W : Type) where
  o : FwOpt σ R W
  posB : ℕ
  total : R

section
variable [Zero R] [Add R] [Sub R] [LT R] [DecidableLT R] [LE P] [DecidableLE P]
variable [Add W] [Sub W] [LT W] [DecidableLT W] [LE W] [DecidableLE W]

/-- greedy/optimizer.hpp:240-269: add random slices. The first argument is
`max_number_new_slices - n_new_slices`; `l` holds the first `n_pos` entries of `pos`. -/
def newSliceLoop (g : FwPrng σ P) (wm : WidthModel W) : ℕ → List ℕ → ISet → W → σ →
    Except FwErr (ISet × W × σ)
  | 0, _, slices, w, s => .ok (slices, w, s)
  | k + 1, l, slices, w, s =>
    if wm.maxWidth < w then
      let (n, s) := g.next s
      if l.length = 0 then .error .divByZero
      else
        let i := n % l.length
        let x := l.getD i 0
        -- swap with the last entry and drop it
        let l' := (l.set i (l.getD (l.length - 1) 0)).take (l.length - 1)
        newSliceLoop g wm k l' (insert x slices) (w - wm.log2d x) s
    else .ok (slices, w, s)

/-- greedy/optimizer.hpp:323-331: propagate the partial costs. -/
def propagate (k : CostCache R) (posA posB posC posD posE : ℕ) : CostCache R :=
  let pc1 := Function.update k.partialCost posB
    (k.partialCost posD + k.partialCost posE + k.contractionCost posB)
  ⟨Function.update pc1 posA (pc1 posB + pc1 posC + k.contractionCost posA), k.contractionCost⟩

/-- greedy/optimizer.hpp:162-334: the loop body after the neighbours are known. -/
def FwWalk.body (g : FwPrng σ P) (m : CostModel R) (wm : WidthModel W) (prob : R → R → P)
    (w : FwWalk σ R W) (posA posC posD posE : ℕ) : Except FwErr (FwWalk σ R W) :=
  let o := w.o
  let c := o.inf.ctree
  let ms := m.sliced o.slices
  let indsA := c.inds posA
  let indsB := c.inds w.posB
  let indsC := c.inds posC
  let indsD := c.inds posD
  let indsE := c.inds posE
  -- 171-179
  let newB := indsD.xor indsC ∪ o.inf.hyper posA ∪ o.inf.hyper w.posB
  let newWidthB := wm.width newB
  let newSlicedWidthB := wm.width (newB \ o.slices)
  let hyper' := Function.update (Function.update o.inf.hyper posA (indsA ∩ newB ∩ indsE))
    w.posB (newB ∩ indsD ∩ indsC)
  let width' := Function.update o.width w.posB newWidthB
  if newSlicedWidthB ≤ wm.maxWidth then
    -- 188-225
    let newCostA := ms.contractionCost indsA newB indsE
    let newCostB := ms.contractionCost newB indsD indsC
    let delta := (newCostB - o.inf.cost.contractionCost w.posB) +
      (newCostA - o.inf.cost.contractionCost posA)
    let (u, s) := g.uniform o.inf.prng
    if u ≤ prob delta w.total then
      let cc := Function.update (Function.update o.inf.cost.contractionCost w.posB newCostB) posA newCostA
      .ok { o := { o with
              inf := { o.inf with
                prng := s
                ctree := { c with tree := c.tree.swapWithNN posE, inds := Function.update c.inds w.posB newB }
                hyper := hyper'
                -- pos_C and pos_E are exchanged
                cost := propagate ⟨o.inf.cost.partialCost, cc⟩ posA w.posB posE posD posC }
              width := width' }
            posB := posA
            total := w.total + delta }
    else
      .ok { o := { o with inf := { o.inf with
              prng := s, cost := propagate o.inf.cost posA w.posB posC posD posE } }
            posB := posA, total := w.total }
  else if 0 < o.maxNew then
    -- 226-269
    let pos := ((newB \ o.slices).minus? o.skip).positions
    match newSliceLoop g wm o.maxNew pos o.slices newSlicedWidthB o.inf.prng with
    | .error e => .error e
    | .ok (newSlices, newSlicedWidthB, s) =>
      if newSlicedWidthB ≤ wm.maxWidth then
        -- 285-290
        let c' : CTree :=
          { c with tree := c.tree.swapWithNN posE, inds := Function.update c.inds w.posB newB }
        match CostCache.make c'.fuel (m.sliced newSlices) c' with
        | none => .error .noReturn
        | some k =>
          let delta := k.partialCost (c'.tree.size - 1) - w.total
          let (u, s) := g.uniform s
          if u ≤ prob delta w.total then
            .ok { o := { o with
                    inf := { o.inf with prng := s, ctree := c', hyper := hyper', cost := k }
                    width := width'
                    slices := newSlices }
                  posB := posA
                  total := k.partialCost (c'.tree.size - 1) }
          else
            -- 315-319: swap back
            .ok { o := { o with
                    inf := { o.inf with
                      prng := s
                      ctree := { c' with
                        tree := c'.tree.swapWithNN posC
                        inds := Function.update c'.inds w.posB indsB }
                      cost := propagate o.inf.cost posA w.posB posC posD posE } }
                  posB := posA, total := w.total }
      else
        .ok { o := { o with inf := { o.inf with
                prng := s, cost := propagate o.inf.cost posA w.posB posC posD posE } }
              posB := posA, total := w.total }
  else
    .ok { o := { o with inf := { o.inf with
            cost := propagate o.inf.cost posA w.posB posC posD posE } }
          posB := posA, total := w.total }

/-- greedy/optimizer.hpp:144-335: the `while (true)` loop; `noReturn` = still running after
`fuel` iterations. -/
def FwWalk.run (g : FwPrng σ P) (m : CostModel R) (wm : WidthModel W) (prob : R → R → P) :
    ℕ → FwWalk σ R W → Except FwErr (FwWalk σ R W)
  | 0, _ => .error .noReturn
  | fuel + 1, w =>
    match getCtreeNN g.toPrng w.o.inf.ctree w.o.inf.disableShared w.o.inf.prng w.posB with
    | (none, s) => .ok { w with o := { w.o with inf := { w.o.inf with prng := s } } }
    | (some (a, c, d, e), s) =>
      match FwWalk.body g m wm prob { w with o := { w.o with inf := { w.o.inf with prng := s } } } a c d e with
      | .error e => .error e
      | .ok w => FwWalk.run g m wm prob fuel w

/-- greedy/optimizer.hpp:354-371: look for better slices. -/
def FwOpt.updateSlices (g : FwPrng σ P) (m : CostModel R) (wm : WidthModel W) (o : FwOpt σ R W)
    (updateSlices : Bool) : Except FwErr (FwOpt σ R W) :=
  if updateSlices && decide (o.slices ≠ ∅) then
    match getSlices g wm o.inf.ctree o.skip o.width o.inf.prng with
    | none => .error .noReturn
    | some (newSlices, s) =>
      match CostCache.make o.inf.ctree.fuel (m.sliced newSlices) o.inf.ctree with
      | none => .error .noReturn
      | some k =>
        if k.partialCost (o.inf.ctree.tree.size - 1) < o.inf.totalCost then
          .ok { o with slices := newSlices, inf := { o.inf with prng := s, cost := k } }
        else .ok { o with inf := { o.inf with prng := s } }
  else .ok o

/-- greedy/optimizer.hpp:379-384 -/
def FwOpt.updateMin (o : FwOpt σ R W) : FwOpt σ R W :=
  if o.inf.totalCost < o.inf.minTotal then
    { o with inf := { o.inf with minTotal := o.inf.totalCost, minCtree := o.inf.ctree }
             minSlices := o.slices }
  else o

/-- greedy/optimizer.hpp:117-385 `update(prob, update_slices)`. -/
def FwOpt.update (g : FwPrng σ P) (m : CostModel R) (wm : WidthModel W) (o : FwOpt σ R W)
    (prob : R → R → P) (updateSlices : Bool) : Except FwErr (FwOpt σ R W) :=
  let (n, s) := g.next o.inf.prng
  let o := { o with inf := { o.inf with prng := s } }
  match (o.inf.ctree.tree.nodes (n % o.inf.ctree.tree.nLeaves)).parent with
  | none => .ok o
  | some posB =>
    match FwWalk.run g m wm prob o.inf.ctree.tree.size ⟨o, posB, o.inf.totalCost⟩ with
    | .error e => .error e
    | .ok w =>
      match w.o.updateSlices g m wm updateSlices with
      | .error e => .error e
      | .ok o => .ok o.updateMin

/-- A history of updates; each has its own acceptance function and `update_slices` flag. -/
def FwOpt.run (g : FwPrng σ P) (m : CostModel R) (wm : WidthModel W) (o : FwOpt σ R W) :
    List ((R → R → P) × Bool) → Except FwErr (FwOpt σ R W)
  | [] => .ok o
  | (prob, u) :: ps =>
    match o.update g m wm prob u with
    | .error e => .error e
    | .ok o' => o'.run g m wm ps

/-- Errors of the constructors. -/
inductive FwMakeErr where
  | invalidArgument | domainError | tooManySkipped
deriving DecidableEq, Repr

/-- finite_width/utils.hpp:56-65: the `WidthCache` constructor. -/
def widthCache (wm : WidthModel W) (c : CTree) (p : ℕ) : W := wm.width (c.inds p)

/-- greedy/optimizer.hpp:401-418: every tensor fits after slicing. -/
def allFit (wm : WidthModel W) (c : CTree) (slices : ISet) : Bool :=
  (List.range c.tree.size).all fun p => decide (wm.width (c.inds p \ slices) ≤ wm.maxWidth)

/-- greedy/optimizer.hpp:87-93: the given slices, or greedy ones. -/
def initSlices (g : FwPrng σ P) (wm : WidthModel W) (ctree : CTree) (skip : Option ISet) (seed : σ) :
    Option ISet → Option (ISet × σ)
  | some sl => some (sl, seed)
  | none => getSlices g wm ctree skip (widthCache wm ctree) seed

/-- greedy/optimizer.hpp:72-115: constructor; `slices`, `minSlices` and `minCtree` are the
optional arguments used when unpickling. Of the final `is_valid` only the width checks are not
trivially satisfied by the fresh caches. `bad x`: `log2(x)` is infinite or NaN. `none`: a
traversal does not stop. -/
def FwOpt.makeWith (bad : R → Prop) [DecidablePred bad] (g : FwPrng σ P) (m : CostModel R) (wm : WidthModel W) (ctree : CTree) (maxNew : ℕ)
    (seed : σ) (disableShared : Bool) (skip : Option ISet) (minCtree : Option CTree)
    (slices minSlices : Option ISet) : Option (Except FwMakeErr (FwOpt σ R W)) := do
  let minC := minCtree.getD ctree
  if !(ctree.isValid !disableShared) || !(minC.isValid !disableShared) then
    return .error .invalidArgument
  let width := widthCache wm ctree
  let (sl, s) ← initSlices g wm ctree skip seed slices
  let minSl := minSlices.getD sl
  let k ← CostCache.make ctree.fuel (m.sliced sl) ctree
  let mt ← getCost minC.fuel (m.sliced minSl) minC
  let o : FwOpt σ R W :=
    ⟨⟨ctree, disableShared, s, minC, k, hyperCache ctree, mt⟩, maxNew, width, skip, sl, minSl⟩
  if bad o.inf.totalCost ∨ bad mt then return .error .domainError
  if !(allFit wm ctree sl) || !(allFit wm minC minSl) then return .error .invalidArgument
  return .ok o

/-- tnco/optimize/finite_width/optimizer.py:102-109: the additional check of the Python
constructor (`skip_slices` empty is passed on as `None`, 120-121). `over w`: the width `w` is larger than `cmodel.max_width` in Python. -/
def FwOpt.pyMakeWith (bad : R → Prop) [DecidablePred bad] (over : W → Prop) [DecidablePred over] (g : FwPrng σ P) (m : CostModel R)
    (wm : WidthModel W) (ctree : CTree) (maxNew : ℕ) (seed : σ) (disableShared : Bool) (skip : ISet) (minCtree : Option CTree)
    (slices minSlices : Option ISet) : Option (Except FwMakeErr (FwOpt σ R W)) :=
  if (List.range ctree.tree.size).any fun p => decide (over (wm.width (ctree.inds p ∩ skip))) then some (.error .tooManySkipped)
  else FwOpt.makeWith bad g m wm ctree maxNew seed disableShared (if skip = ∅ then none else some skip) minCtree slices minSlices

end

section
variable [AddCommGroup R] [LinearOrder R] [LinearOrder P] [AddCommGroup W] [LinearOrder W]

/-- The constructor for exact costs. -/
def FwOpt.make (g : FwPrng σ P) (m : CostModel R) (wm : WidthModel W) (ctree : CTree) (maxNew : ℕ)
    (seed : σ) (disableShared : Bool) (skip : Option ISet) (minCtree : Option CTree)
    (slices minSlices : Option ISet) : Option (Except FwMakeErr (FwOpt σ R W)) :=
  FwOpt.makeWith (· ≤ 0) g m wm ctree maxNew seed disableShared skip minCtree slices minSlices

/-- The Python constructor for exact costs and widths. -/
def FwOpt.pyMake (g : FwPrng σ P) (m : CostModel R) (wm : WidthModel W) (ctree : CTree) (maxNew : ℕ)
    (seed : σ) (disableShared : Bool) (skip : ISet) (minCtree : Option CTree)
    (slices minSlices : Option ISet) : Option (Except FwMakeErr (FwOpt σ R W)) :=
  FwOpt.pyMakeWith (· ≤ 0) (wm.maxWidth < ·) g m wm ctree maxNew seed disableShared skip minCtree slices minSlices

end
end TNCO
