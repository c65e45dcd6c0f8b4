import Verif.Model.MergeSplit

/-!
# Random contraction paths: `tnco/utils/tn.py` 42-248

Simplifications: progress bars and the deprecated argument `output_inds` are not modelled. The
random generator is an arbitrary state machine. The `while` loop takes a bound on the number of
iterations (`none`: bound exceeded).
-/

namespace TNCO
variable {ι σ : Type} [DecidableEq ι]

/-- `random.Random`: `randrange(n)`, and the two positions chosen by `sample(l, k=2)` if `len(l) == n`. -/
structure PyRng (σ : Type) where
  randrange : ℕ → σ → ℕ × σ
  sample2 : ℕ → σ → (ℕ × ℕ) × σ

/-- What the Python documentation says of `randrange` and `sample`. -/
structure PyRng.Ok (g : PyRng σ) : Prop where
  range : ∀ n s, 0 < n → (g.randrange n s).1 < n
  sample : ∀ n s, 2 ≤ n → (g.sample2 n s).1.1 < n ∧ (g.sample2 n s).1.2 < n ∧ (g.sample2 n s).1.1 ≠ (g.sample2 n s).1.2

/-- tn.py:99-103: indices are mapped to numbers, tensors to sets of numbers. -/
def remapInds (tsInds : List (List ι)) : List (Finset ℕ) :=
  tsInds.map fun xs => (xs.map fun x => (uniqueEverseen tsInds.flatten).idxOf x).toFinset

/-- The variables `ts_inds`, `index2tensors` and `hyper_count` (a dictionary; `none`: not a key). -/
structure RState where
  ts : List (Finset ℕ)
  i2t : ℕ → List ℕ
  hc : ℕ → Option ℤ

/-- tn.py:105-117 -/
def initR (ts : List (Finset ℕ)) : RState :=
  let i2t := fun x => (List.range ts.length).filter fun t => x ∈ ts.getD t ∅
  ⟨ts, i2t, fun x => if (i2t x).length = 0 ∨ ((i2t x).length : ℤ) - 1 = 0 then none else some (((i2t x).length : ℤ) - 1)⟩

/-- tn.py:119-135: the loop that merges colours; returns `index2color`. `enum` is the iteration order
of a set, `mit.first` takes its first element. -/
def colorInds (enum : Finset ℕ → List ℕ) : (ℕ → ℕ) → (ℕ → Finset ℕ) → List (Finset ℕ) → ℕ → ℕ
  | i2c, _, [] => i2c
  | i2c, c2i, xs :: rest =>
    if xs = ∅ then colorInds enum i2c c2i rest
    else
      let colors := xs.image i2c
      let c := (enum colors).headD 0
      let ys := colors.biUnion c2i
      colorInds enum (fun x => if x ∈ ys then c else i2c x) (Function.update c2i c ys) rest

/-- tn.py:144-146: indices grouped by colour; `m` is the number of indices. -/
def groupInds (col : ℕ → ℕ) (m : ℕ) : List (List ℕ) :=
  (uniqueEverseen ((List.range m).map col)).map fun c => (List.range m).filter fun x => col x = c

/-- tn.py:140-142, with the last position as `y`. -/
def swapLast (a : List ℕ) (i : ℕ) : List ℕ :=
  (a.set i (a.getD (a.length - 1) 0)).set (a.length - 1) (a.getD i 0)

/-- tn.py:193-197 -/
def lowerR (hc : ℕ → Option ℤ) (shared : Finset ℕ) (x : ℕ) : Option ℤ :=
  if x ∈ shared then
    match hc x with
    | none => none
    | some n => if n - 1 = 0 then none else some (n - 1)
  else hc x

/-- tn.py:167-215: the loop over the indices of a component. -/
def rcLoop (g : PyRng σ) : ℕ → σ → RState → List ℕ → Finset ℕ → List (ℕ × ℕ × ℕ) →
    Option (Except PyErr (σ × RState × List (ℕ × ℕ × ℕ)))
  | 0, _, _, _, _, _ => none
  | fuel + 1, s, st, avail, contracted, path =>
    if avail = [] then some (.ok (s, st, path))
    else
      let r := g.randrange avail.length s
      let av := swapLast avail r.1
      let index := av.getD (av.length - 1) 0
      if st.hc index = none ∨ (st.i2t index).length ≤ 1 then
        rcLoop g fuel r.2 st av.dropLast contracted path                                -- 171-173
      else
        let cand := (st.i2t index).filter (· ∉ contracted)
        if cand.length < 2 then some (.error .valueError)                               -- `sample`
        else
          let q := g.sample2 cand.length r.2
          match cand[q.1.1]?, cand[q.1.2]? with
          | some tx, some ty =>
            match st.ts[tx]?, st.ts[ty]? with
            | some xs, some ys =>
              let shared := xs ∩ ys
              if shared = ∅ then some (.error .assertionError)
              else if ∃ x ∈ shared, st.hc x = none then some (.error .keyError)
              else
                let hc := lowerR st.hc shared
                let tz := st.ts.length
                let zs := ((xs \ ys) ∪ (ys \ xs)) ∪ shared.filter fun x => hc x ≠ none
                rcLoop g fuel q.2 ⟨st.ts ++ [zs], fun x => if x ∈ zs then st.i2t x ++ [tz] else st.i2t x, hc⟩ av
                  (contracted ∪ {tx, ty}) (path ++ [(tx, ty, tz)])
            | _, _ => some (.error .indexError)
          | _, _ => some (.error .indexError)

/-- tn.py:148-221: the loop over the components. -/
def rcAll (g : PyRng σ) (fuel : ℕ) : σ → RState → List (List ℕ) → Option (Except PyErr (σ × List (List (ℕ × ℕ × ℕ))))
  | s, _, [] => some (.ok (s, []))
  | s, st, avail :: rest =>
    match rcLoop g fuel s st avail ∅ [] with
    | none => none
    | some (.error e) => some (.error e)
    | some (.ok (s, st, path)) =>
      match rcAll g fuel s st rest with
      | none => none
      | some (.error e) => some (.error e)
      | some (.ok (s, paths)) => some (.ok (s, path :: paths))

/-- `bisect_left(a, x)` between `lo` and `hi`. -/
def bisectLoop (a : List ℕ) (x lo hi : ℕ) : ℕ :=
  if h : lo < hi then
    let mid := (lo + hi) / 2
    if a.getD mid 0 < x then bisectLoop a x (mid + 1) hi else bisectLoop a x lo mid
  else lo
termination_by hi - lo

/-- `bisect_left(a, x)` -/
def bisectLeft (a : List ℕ) (x : ℕ) : ℕ := bisectLoop a x 0 a.length

/-- tn.py:229-243: one path in linear format. -/
def linearize : List ℕ → List (ℕ × ℕ × ℕ) → Except PyErr (List (ℕ × ℕ))
  | _, [] => .ok []
  | loc, (x, y, z) :: c =>
    let px := min (bisectLeft loc x) (bisectLeft loc y)
    let py := max (bisectLeft loc x) (bisectLeft loc y)
    match popPair loc px py with
    | none => .error .indexError
    | some (_, _, rest) =>
      match linearize (rest ++ [z]) c with
      | .error e => .error e
      | .ok p => .ok ((px, py) :: p)

/-- tn.py:42-248 `get_random_contraction_path` with `merge_paths=False`. -/
def randomPaths (g : PyRng σ) (enum : Finset ℕ → List ℕ) (fuel : ℕ) (s : σ) (tsInds : List (List ι)) :
    Option (Except PyErr (List (List (ℕ × ℕ)))) :=
  let ts := remapInds tsInds
  let m := (uniqueEverseen tsInds.flatten).length
  let col := colorInds enum id (fun x => {x}) ts
  match rcAll g fuel s (initR ts) (groupInds col m) with
  | none => none
  | some (.error e) => some (.error e)
  | some (.ok (_, paths)) => some (paths.mapM (linearize (List.range ts.length)))

/-- tn.py:42-248 `get_random_contraction_path` with `merge_paths=True`. -/
def randomPath (g : PyRng σ) (enum : Finset ℕ → List ℕ) (fuel : ℕ) (s : σ) (tsInds : List (List ι)) (auto : Bool) :
    Option (Except PyErr (List (ℕ × ℕ))) :=
  match randomPaths g enum fuel s tsInds with
  | none => none
  | some (.error e) => some (.error e)
  | some (.ok paths) => some (mergePaths tsInds.length paths auto)

end TNCO
