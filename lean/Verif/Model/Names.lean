import Verif.Model.PathBuild

/-!
# Names: `tnco/utils/tn.py` 251-306 and 497-546, `tnco/utils/tensor.py` 145-172 and 303-320

Simplifications: a character is its code point, a string is a list of code points. In `read_inds` the dimension of an entry is a natural
number and an entry is a pair of a dimension and names. In `svd`, only the choice of the index name is modelled: `draw k` is the
name drawn in iteration `k` (`none`: bound on iterations exceeded).
-/

namespace TNCO
variable {ι τ : Type} [DecidableEq ι] [DecidableEq τ]

/-- `abcdefghijklmnopqrstuvwxyzABCDEFGHIJKLMNOPQRSTUVWXYZ` -/
def asciiLetters : List ℕ := (List.range 26).map (97 + ·) ++ (List.range 26).map (65 + ·)

/-- `chr(i)` -/
def chr (i : ℤ) : Except PyErr ℕ := if 0 ≤ i ∧ i ≤ 1114111 then .ok i.toNat else .error .valueError

/-- `l[i]` for an integer: negative positions count from the end. -/
def pyIndex (l : List ℕ) (i : ℤ) : Except PyErr ℕ :=
  match (if 0 ≤ i then l[i.toNat]? else if 0 ≤ l.length + i then l[(l.length + i).toNat]? else none) with
  | some c => .ok c
  | none => .error .indexError

/-- tn.py:251-275 `get_symbol`. -/
def getSymbol (i : ℤ) : Except PyErr ℕ :=
  if i < 52 then pyIndex asciiLetters i
  else if i ≥ 55296 then chr (i + 2048)
  else chr (i + 140)

/-- `sep.join(parts)` -/
def joinWith (sep : ℕ) : List (List ℕ) → List ℕ
  | [] => []
  | [a] => a
  | a :: b :: l => a ++ sep :: joinWith sep (b :: l)

/-- tn.py:278-306 `get_einsum_subscripts`: `,` is 44, `-` is 45, `>` is 62. The symbols of all indices are computed first. -/
def einsumSubscripts (tsInds : List (List ι)) (output : List ι) : Except PyErr (List ℕ) :=
  let order := uniqueEverseen (tsInds.flatten ++ output)
  match (List.range order.length).mapM fun i : ℕ => getSymbol i with
  | .error e => .error e
  | .ok syms =>
    let get := fun x => syms.getD (order.idxOf x) 0
    .ok (joinWith 44 (tsInds.map fun xs => xs.map get) ++ [45, 62] ++ output.map get)

/-- tensor.py:145-172 `get_einsum_subscripts`: `zip` stops after 52 letters, a missing index gives `None`, which
cannot be joined. -/
def pairSubscripts (xs ys zs : List ι) : Except PyErr (List ℕ) :=
  let order := uniqueEverseen (xs ++ ys ++ zs)
  let get := fun x => asciiLetters[order.idxOf x]?
  match xs.mapM get, ys.mapM get, zs.mapM get with
  | some a, some b, some c => .ok (a ++ [44] ++ b ++ [45, 62] ++ c)
  | _, _, _ => .error .typeError

/-- `tensor_map[t].append(i)` for a `defaultdict(list)`; entries are kept in order of insertion. -/
def pushName (m : List (τ × List ι)) (t : τ) (i : ι) : List (τ × List ι) :=
  if t ∈ m.map Prod.fst then m.map fun e => if e.1 = t then (e.1, e.2 ++ [i]) else e
  else m ++ [(t, [i])]

/-- tn.py:532-535: the loop over the map, with `dims` and `tensor_map`. -/
def readLoop : List (ι × ℕ × List τ) → List (ι × ℕ) → List (τ × List ι) → List (ι × ℕ) × List (τ × List ι)
  | [], dims, m => (dims, m)
  | (i, d, ts) :: rest, dims, m => readLoop rest (dims ++ [(i, d)]) (ts.foldl (fun m t => pushName m t i) m)

/-- Value of a key, if present. -/
def lookupName (m : List (τ × List ι)) (t : τ) : Option (List ι) := (m.find? fun e => e.1 = t).map Prod.snd

/-- `m.pop(t, ())` -/
def popName (m : List (τ × List ι)) (t : τ) : List ι × List (τ × List ι) :=
  ((lookupName m t).getD [], m.filter fun e => e.1 ≠ t)

/-- tn.py:497-546 `read_inds`. -/
def readInds (indsMap : List (ι × ℕ × List τ)) (outTok sparseTok : τ) :
    Except PyErr (List (τ × List ι) × List (ι × ℕ) × Finset ι × Finset ι) :=
  if outTok = sparseTok then .error .valueError
  else
    let r := readLoop indsMap [] []
    let o := popName r.2 outTok
    let s := popName o.2 sparseTok
    .ok (s.2, r.1, o.1.toFinset, s.1.toFinset)

/-- tensor.py:318-320: the loop that draws a name. -/
def svdDraw {ν : Type} [DecidableEq ν] (draw : ℕ → ν) (inds : List ν) : ℕ → ℕ → Option ν
  | 0, _ => none
  | fuel + 1, k => if draw k ∈ inds then svdDraw draw inds fuel (k + 1) else some (draw k)

/-- tensor.py:313-320: the name of the new index. Every `Random(seed)` with a fixed seed draws the same name. -/
def svdName {ν : Type} [DecidableEq ν] (name : Option ν) (seeded : Bool) (draw : ℕ → ν) (inds : List ν) (fuel : ℕ) :
    Option (Except PyErr ν) :=
  match name with
  | some a => if a ∈ inds then some (.error .valueError) else some (.ok a)
  | none => (svdDraw (if seeded then fun _ => draw 0 else draw) inds fuel 0).map .ok

end TNCO
