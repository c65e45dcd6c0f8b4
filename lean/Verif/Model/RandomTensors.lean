import Verif.Model.PathBuild
import Verif.Model.Dict

/-!
# Random tensor networks: `tnco/testing/utils.py` 137-357

Simplifications: the numbers `n_tensors`, `n_inds`, `k`, `n_output_inds` and `n_cc` are natural numbers; progress bars are not modelled; the random generator
is an arbitrary state machine; the `while` loop of `generate_random_inds` takes a bound on the number of iterations (`none`: bound exceeded).
-/

namespace TNCO
variable {σ ν : Type} [DecidableEq ν]

/-- `random.Random`: `randrange(n)`, the positions chosen by `sample(l, k)` if `len(l) == n`, and the order in which `shuffle(l)` leaves `l`. -/
structure GenRng (σ : Type) where
  randrange : ℕ → σ → ℕ × σ
  sample : ℕ → ℕ → σ → List ℕ × σ
  shuffle : ℕ → σ → List ℕ × σ

/-- What the Python documentation says of `randrange`, `sample` and `shuffle`. -/
structure GenRng.Ok (g : GenRng σ) : Prop where
  range : ∀ n s, 0 < n → (g.randrange n s).1 < n
  sample : ∀ n k s, k ≤ n → (g.sample n k s).1.Nodup ∧ (g.sample n k s).1.length = k ∧ ∀ i ∈ (g.sample n k s).1, i < n
  shuffle : ∀ n s, (g.shuffle n s).1.Perm (List.range n)

variable (g : GenRng σ)

/-- The entries of a list at some positions. -/
def pick {α : Type} (l : List α) (is : List ℕ) : List α := is.filterMap (l[·]?)

/-- `rng.sample(l, k=k)`: `ValueError` if `k` is negative or larger than the list. -/
def rngSample {α : Type} (l : List α) (k : ℤ) (s : σ) : Except PyErr (List α × σ) :=
  if k < 0 ∨ (l.length : ℤ) < k then .error .valueError
  else .ok (pick l (g.sample l.length k.toNat s).1, (g.sample l.length k.toNat s).2)

/-- `rng.randrange(n)`: `ValueError` if there is nothing to choose from. -/
def rngRange (n : ℕ) (s : σ) : Except PyErr (ℕ × σ) := if n = 0 then .error .valueError else .ok (g.randrange n s)

/-- An entry of a list in `inds`: a tensor, or `'*'`. -/
abbrev Owner := Option ℕ

/-- `avail_tensors`, `used_tensors`, `inds` -/
structure Grow where
  avail : Finset ℕ
  used : Finset ℕ
  inds : List (List Owner)

variable (enum : Finset ℕ → List ℕ)

/-- utils.py:248-254: the first index. -/
def growInit (n k : ℕ) (s : σ) : Except PyErr (Grow × σ) := do
  let (row, s) ← rngSample g (enum (Finset.range n)) k s
  .ok (⟨Finset.range n \ row.toFinset, row.toFinset, [row.map some]⟩, s)

/-- utils.py:256-259: an index that joins a new tensor to the used ones. -/
def growStep (k : ℕ) (G : Grow) (s : σ) : Except PyErr (Grow × σ) := do
  let (xs, s) ← rngSample g (enum G.avail) 1 s
  match xs with
  | [] => .error .indexError
  | x :: _ =>
    let (row, s) ← rngSample g (enum G.used) (k - 1) s
    .ok (⟨G.avail \ {x}, G.used ∪ {x}, G.inds ++ [(row ++ [x]).map some]⟩, s)

/-- utils.py:255: `m` more tensors. -/
def growLoop (k : ℕ) : ℕ → Grow → σ → Except PyErr (Grow × σ)
  | 0, G, s => .ok (G, s)
  | m + 1, G, s => do
    let (G, s) ← growStep g enum k G s
    growLoop k m G s

/-- utils.py:270-272: `m` more indices, for `k` random tensors each. -/
def innerRows (n k : ℕ) : ℕ → σ → Except PyErr (List (List Owner) × σ)
  | 0, s => .ok ([], s)
  | m + 1, s => do
    let (row, s) ← rngSample g (List.range n) k s
    let (rows, s) ← innerRows n k m s
    .ok (row.map some :: rows, s)

/-- utils.py:275-276: output indices of one tensor. -/
def outRows (n : ℕ) : ℕ → σ → Except PyErr (List (List Owner) × σ)
  | 0, s => .ok ([], s)
  | m + 1, s => do
    let (t, s) ← rngRange g n s
    let (rows, s) ← outRows n m s
    .ok ([some t, none] :: rows, s)

/-- utils.py:279-281: output hyper-indices. -/
def hyperRows (n k : ℕ) : ℕ → σ → Except PyErr (List (List Owner) × σ)
  | 0, s => .ok ([], s)
  | m + 1, s => do
    let (row, s) ← rngSample g (List.range n) (k - 1) s
    let (rows, s) ← hyperRows n k m s
    .ok ((row.map some ++ [none]) :: rows, s)

/-- utils.py:287-291: `tensors[t].append(x)` for every `t` in every list. -/
def addOwner (D : List (Owner × List ℕ)) (t : Owner) (x : ℕ) : List (Owner × List ℕ) := dset D t ((dget D t).getD [] ++ [x])

def byOwner (rows : List (List Owner)) : List (Owner × List ℕ) :=
  ((rows.zipIdx).flatMap fun e => e.1.map fun t => (t, e.2)).foldl (fun D e => addOwner D e.1 e.2) []

/-- utils.py:300: `list(map(tuple, map(permutation, tensors.values())))`. -/
def permuteAll : List (List ℕ) → σ → Except PyErr (List (List ℕ) × σ)
  | [], s => .ok ([], s)
  | xs :: r, s => do
    let (ys, s) ← rngSample g xs xs.length s
    let (zs, s) ← permuteAll r s
    .ok (ys :: zs, s)

/-- `assert b` -/
def pyAssert (b : Prop) [Decidable b] : Except PyErr Unit := if b then .ok () else .error .assertionError

/-- `n_hyper_output_inds` (utils.py:222-223) -/
def nHyper (k nOut : ℕ) : ℕ := if k ≤ 2 then 0 else nOut / 2 + nOut % 2

/-- `n_nhyper_output_inds` (utils.py:224) -/
def nPlain (k nOut : ℕ) : ℕ := if k ≤ 2 then nOut else nOut / 2

/-- utils.py:248-300: one attempt to generate a component. -/
def attempt (n nInds k nOut : ℕ) (s : σ) : Except PyErr ((List (List ℕ) × Finset ℕ) × σ) := do
  let (G, s) ← growInit g enum n k s
  let (G, s) ← growLoop g enum k (n - k) G s
  pyAssert (G.used = Finset.range n ∧ G.avail = ∅ ∧ G.inds.flatten.toFinset = (Finset.range n).image some)      -- 262-264
  pyAssert ((G.inds.length : ℤ) = (n : ℤ) + 1 - k)                                                              -- 267
  let (r1, s) ← innerRows g n k ((nInds : ℤ) - G.inds.length - nOut).toNat s
  let (r2, s) ← outRows g n (nPlain k nOut) s
  let (r3, s) ← hyperRows g n k (nHyper k nOut) s
  let inds := G.inds ++ r1 ++ r2 ++ r3
  pyAssert (inds.length = nInds)                                                                                -- 284
  let D := byOwner inds
  pyAssert (((dget D none).getD []).length = nOut)                                                              -- 294
  let (ts, s) ← permuteAll g ((dpop D none).map Prod.snd) s
  .ok ((ts, ((dget D none).getD []).toFinset), s)

/-- utils.py:245-310: at most `tries` attempts. -/
def component (n nInds k nOut : ℕ) : ℕ → σ → Except PyErr ((List (List ℕ) × Finset ℕ) × σ)
  | 0, _ => .error .valueError                                                                                  -- 310
  | tries + 1, s => do
    let (c, s) ← attempt g enum n nInds k nOut s
    if (uniqueEverseen c.1).length = n then .ok (c, s)                                                          -- 303-306
    else component n nInds k nOut tries s

/-- utils.py:240-310: all components. -/
def components (n nInds k nOut : ℕ) : ℕ → σ → Except PyErr (List (List (List ℕ) × Finset ℕ) × σ)
  | 0, s => .ok ([], s)
  | m + 1, s => do
    let (c, s) ← component g enum n nInds k nOut 10 s
    let (cs, s) ← components n nInds k nOut m s
    .ok (c :: cs, s)

/-- utils.py:313-318: the tensors of all components; `reduce` of nothing is a `TypeError`. -/
def joinTensors (nInds : ℕ) (cs : List (List (List ℕ) × Finset ℕ)) : Except PyErr (List (List ℕ)) :=
  if cs = [] then .error .typeError
  else .ok (cs.zipIdx.flatMap fun e => e.1.1.map fun xs => xs.map fun x => x + e.2 * nInds)

/-- utils.py:322-327: the output indices of all components. -/
def joinOutput (nInds : ℕ) (cs : List (List (List ℕ) × Finset ℕ)) : Finset ℕ :=
  cs.zipIdx.foldr (fun e o => e.1.2.image (fun x => x + e.2 * nInds) ∪ o) ∅

/-- Index names: how numbers are used as names, Python's `None`, and `generate_random_inds(n, seed)` (`none`: it does not end). -/
structure Namer (ν : Type) where
  ofNat : ℕ → ν
  pyNone : ν
  random : ℕ → ℕ → Option (List ν)

/-- utils.py:336-341: the renaming, a dictionary. -/
def nameMap (names : List ν) (ts : List (List ℕ)) : List (ℕ × ν) := dupdate [] ((uniqueEverseen ts.flatten).zip names)

/-- utils.py:330-352; `none`: `generate_random_inds` does not end. -/
def nameTensors (N : Namer ν) (randomize : Bool) (ts : List (List ℕ)) (out : Finset ℕ) (s : σ) : Option (List (List ν) × Finset ν) :=
  if randomize then
    (N.random (uniqueEverseen ts.flatten).length (g.randrange (2 ^ 32) s).1).map fun names =>
      (ts.map fun xs => xs.map fun x => (dget (nameMap names ts) x).getD N.pyNone,
        out.image fun x => (dget (nameMap names ts) x).getD N.pyNone)
  else some (ts.map fun xs => xs.map N.ofNat, out.image N.ofNat)

/-- utils.py:355: all tensors are different. -/
def checkTensors (r : List (List ν) × Finset ν) : Except PyErr (List (List ν) × Finset ν) :=
  if (uniqueEverseen r.1).length = r.1.length then .ok r else .error .assertionError

/-- utils.py:181-357 `generate_random_tensors`; `none`: it does not end. -/
def randomTensors (N : Namer ν) (n nInds k nOut nCc : ℕ) (randomize : Bool) (s : σ) : Option (Except PyErr (List (List ν) × Finset ν)) :=
  if (nInds : ℤ) - nOut < (n : ℤ) + 1 - k ∨ n < k then some (.error .valueError)                                -- 232-233
  else match components g enum n nInds k nOut nCc s with
    | .error e => some (.error e)
    | .ok (cs, s) =>
      match joinTensors nInds cs with
      | .error e => some (.error e)
      | .ok ts =>
        let ts' := pick ts (g.shuffle ts.length s).1                                                            -- 319
        (nameTensors g N randomize ts' (joinOutput nInds cs) (g.shuffle ts.length s).2).map checkTensors

/-- utils.py:173-175: the loop that collects `n` different names; `fuel` bounds the number of iterations. -/
def namesLoop (get : σ → ν × σ) (n : ℕ) : ℕ → List ν → σ → Option (List ν)
  | 0, _, _ => none
  | fuel + 1, names, s =>
    let names' := uniqueEverseen (names ++ [(get s).1])
    if names'.length ≠ n then namesLoop get n fuel names' (get s).2 else some names'

/-- utils.py:137-178 `generate_random_inds`; `get` is the function `get_`. -/
def randomInds (get : σ → ν × σ) (fuel n : ℕ) (s : σ) : Option (List ν) := if n = 0 then some [] else namesLoop get n fuel [] s

end TNCO
