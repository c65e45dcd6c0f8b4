import Verif.Model.RandomPath
import Verif.Model.Contract

/-!
# Fusing tensors: `tnco/utils/tn.py` 549-777

Simplifications: progress bars are not modelled; `hyper_count` is a function, which is only read at indices of the network;
widths are of any type with `+` and `<` (floats included), `log2` is a parameter. The random generator is an arbitrary state machine,
`enum` is the iteration order of a set of tensor numbers. The `while` loop takes a bound on the number of iterations
(`none`: bound exceeded).
-/

namespace TNCO
variable {ι σ W : Type} [DecidableEq ι]

/-- The variables of the loop. A dictionary is a function to `Option`. -/
structure FuseState (ι : Type) where
  ts : ℕ → Option (List ι)
  i2t : ι → Option (Finset ℕ)
  hc : ι → ℤ
  tIdx : ℕ
  avail : List ι
  mergedInds : Finset ι
  merged : List (ℕ × ℕ × List ι)

/-- tn.py:616-617: `math.log2(0)` is an error. -/
def fuseWidth [Zero W] [Add W] (log2 : ℕ → W) (dims : ι → ℕ) (xs : List ι) : Except PyErr W :=
  if ∃ x ∈ xs, dims x = 0 then .error .valueError else .ok ((xs.map fun x => log2 (dims x)).foldl (· + ·) 0)

/-- tn.py:704-718: the indices of the fused tensor. -/
def fusedInds (hc : ι → ℤ) (out : Finset ι) (tx ty : List ι) : List ι :=
  let X := tx.toFinset
  let Y := ty.toFinset
  let z := ((X \ Y) ∪ (Y \ X)) ∪ (X ∩ Y).filter (fun x => 1 < hc x) ∪ (out ∩ (X ∪ Y))
  uniqueEverseen (tx.filter (· ∈ z) ++ ty.filter (· ∈ z))

/-- tn.py:672-754: the loop. -/
def fuseLoop [LT W] [DecidableLT W] (g : PyRng σ) (enum : Finset ℕ → List ℕ) (out excl : Finset ι) (width : List ι → Except PyErr W)
    (maxW : W) : ℕ → σ → FuseState ι → Option (Except PyErr (FuseState ι))
  | 0, _, _ => none
  | fuel + 1, s, st =>
    if st.avail = [] then some (.ok st)
    else
      let r := g.randrange st.avail.length s
      match st.avail[r.1]? with
      | none => some (.error .indexError)
      | some index =>
        let avail := st.avail.eraseIdx r.1
        if st.hc index = 0 then fuseLoop g enum out excl width maxW fuel r.2 { st with avail := avail }       -- 677-679
        else
          match st.i2t index with
          | none => some (.error .keyError)
          | some S =>
            if (enum S).length < 2 then some (.error .valueError)                                             -- `sample`
            else
              let q := g.sample2 (enum S).length r.2
              match (enum S)[q.1.1]?, (enum S)[q.1.2]? with
              | some px, some py =>
                match st.ts px, st.ts py with
                | some tx, some ty =>
                  if ∃ x ∈ excl, x ∈ tx ∨ x ∈ ty then                                                         -- 689-690
                    fuseLoop g enum out excl width maxW fuel q.2 { st with avail := avail }
                  else if index ∉ tx.toFinset ∩ ty.toFinset then some (.error .assertionError)                -- 696
                  else if !countsOk st.hc tx ty then some (.error .assertionError)                            -- 699-701
                  else
                    let tz := fusedInds st.hc out tx ty
                    match width tz with
                    | .error e => some (.error e)
                    | .ok w =>
                      if maxW < w then fuseLoop g enum out excl width maxW fuel q.2 { st with avail := avail } -- 721-722
                      else
                        let gone := ((tx.toFinset ∩ ty.toFinset).filter fun x => ¬ 1 < st.hc x) \ out
                        if ∃ x ∈ tz.toFinset ∪ gone, st.i2t x = none then some (.error .keyError)
                        else
                          let hc := lowerCount st.hc tx ty
                          fuseLoop g enum out excl width maxW fuel q.2
                            { ts := Function.update (Function.update (Function.update st.ts px none) py none) st.tIdx (some tz)
                              i2t := fun x =>
                                if x ∈ gone then none
                                else if x ∈ tz then (st.i2t x).map fun S => (S \ {px, py}) ∪ {st.tIdx}
                                else st.i2t x
                              hc := hc
                              tIdx := st.tIdx + 1
                              avail := if hc index = 0 then avail else avail ++ [index]                       -- 747-748
                              mergedInds := st.mergedInds ∪ (tx.toFinset ∩ ty.toFinset)
                              merged := st.merged ++ [(px, py, tz)] }
                | _, _ => some (.error .keyError)
              | _, _ => some (.error .indexError)

/-- tn.py:768-773: positions of the fused tensors. -/
def fuseNorm : List ℕ → List (ℕ × ℕ × List ι) → Except PyErr (List (ℕ × ℕ))
  | _, [] => .ok []
  | pos, (px, py, _) :: c =>
    let a := min px py
    let b := max px py
    if b ∉ pos then .error .valueError
    else
      let pos1 := pos.eraseIdx (pos.idxOf b)
      if a ∉ pos1 then .error .valueError
      else
        match fuseNorm (pos1.eraseIdx (pos1.idxOf a)) c with
        | .error e => .error e
        | .ok p => .ok ((pos1.idxOf a, pos.idxOf b) :: p)

/-- tn.py:595-662: the variables before the loop. -/
def fuseInit (tsInds : List (List ι)) (excl : Finset ι) : FuseState ι where
  ts k := tsInds[k]?
  i2t x := if x ∈ tsInds.flatten then some ((Finset.range tsInds.length).filter fun k => x ∈ tsInds.getD k []) else none
  hc := hyperCount tsInds.flatten
  tIdx := tsInds.length
  avail := (uniqueEverseen tsInds.flatten).filter fun x => x ∉ excl ∧ hyperCount tsInds.flatten x ≠ 0
  mergedInds := ∅
  merged := []

/-- tn.py:549-777 `fuse`; returns both the path and the fused indices. `contractOutput` models 624-641, which is the
same code as in `contract`. -/
def fuse [Zero W] [Add W] [LT W] [DecidableLT W] (g : PyRng σ) (enum : Finset ℕ → List ℕ) (fuel : ℕ) (s : σ) (log2 : ℕ → W)
    (tsInds : List (List ι)) (dims : PyDims ι) (maxW : W) (output : Option (List ι)) (exclude : List ι) :
    Option (Except PyErr (List (ℕ × ℕ) × List (List ι))) :=
  if ¬ exclude.toFinset ⊆ tsInds.flatten.toFinset then some (.error .valueError)                              -- 604-605
  else if ∃ x ∈ tsInds.flatten, dims.get? x = none then some (.error .valueError)                             -- 612-613
  else
    match contractOutput tsInds.flatten output with
    | .error e => some (.error e)
    | .ok out =>
      match fuseLoop g enum out exclude.toFinset (fuseWidth log2 fun x => (dims.get? x).getD 0) maxW fuel s
          (fuseInit tsInds exclude.toFinset) with
      | none => none
      | some (.error e) => some (.error e)
      | some (.ok st) =>
        if st.mergedInds ∩ exclude.toFinset ≠ ∅ then some (.error .assertionError)                            -- 760
        else if ∃ x ∈ tsInds.flatten, st.hc x < 0 then some (.error .assertionError)                          -- 763
        else
          match fuseNorm (List.range st.tIdx) st.merged with
          | .error e => some (.error e)
          | .ok path => some (.ok (path, st.merged.map fun m => m.2.2))

end TNCO
