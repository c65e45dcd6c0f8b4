import Verif.Model.Circuit
import Verif.Model.Decompose
import Verif.Model.Fuse

/-!
# The tensor network of a circuit: `tnco/utils/circuit.py` 200-515, `load`

Simplifications: entries are exact (`atol = 0`), `dtype` and `backend` do nothing, progress bars are not modelled. `1 / sqrt(2)` is a parameter
`r`. `qubit_map` is a function. The private argument `_qubits` is only given by the recursive call. The value of `output_inds` before line 494 is
not modelled: it is overwritten there. Bounds on recursion and on iterations are one parameter `fuel` (`none`: exceeded).
-/

namespace TNCO
variable {Q K : Type} [DecidableEq Q] [Field K] [StarRing K] [DecidableEq K]

/-- The second components of the indices: a number, or `'i'`, or `'f'`. -/
inductive Stage where
  | num (n : ℕ) | i | f
deriving DecidableEq, Repr

/-- A value in a dictionary of states: a string or an array. -/
inductive StateVal (K : Type) where
  | token (s : String)
  | vec (a : NDArray K)

/-- The arguments `initial_state` and `final_state`. -/
inductive PyState (Q K : Type) where
  | none
  | str (s : String)
  | dict (l : List (Q × StateVal K))
  | other

/-- circuit.py:266-279 `valid_token`. -/
def validToken (r : K) (s : String) : Option (NDArray K) :=
  if s = "0" then some ⟨[2], fun k => if k = 0 then 1 else 0⟩
  else if s = "1" then some ⟨[2], fun k => if k = 0 then 0 else 1⟩
  else if s = "+" then some ⟨[2], fun _ => r⟩
  else if s = "-" then some ⟨[2], fun k => if k = 0 then r else -r⟩
  else none

/-- circuit.py:301-302: `valid_token[x] if isinstance(x, str) else asarray(x)`; tokens were checked before. -/
def stateArray (r : K) : StateVal K → Option (NDArray K)
  | .token s => validToken r s
  | .vec a => some a

/-- circuit.py:282-314 `get_state`. A dictionary lists its entries, with distinct keys. -/
def getState (r : K) (qubits : List Q) (tag : Stage) : PyState Q K → Except PyErr (List ((Q × Stage) × NDArray K))
  | .none => .ok []                                                                     -- 283-284
  | .str s =>
    match validToken r s with
    | some a => .ok (qubits.map fun q => ((q, tag), a))                                 -- 286-289
    | none => .error .notImplemented                                                    -- 314
  | .dict l =>
    match l.mapM fun e => (stateArray r e.2).map fun a => (e.1, a) with
    | none => .error .valueError                                                        -- 294-297
    | some l =>
      let s := (l.filter fun e => e.1 ∈ qubits).map fun e => ((e.1, tag), e.2)          -- 300-304
      if ∀ e ∈ s, e.2.shape = [2] ∧ star (e.2.data 0) * e.2.data 0 + star (e.2.data 1) * e.2.data 1 = 1 then .ok s
      else .error .valueError                                                           -- 307-310
  | .other => .error .notImplemented                                                    -- 314

/-- circuit.py:316-324 `get_delta`, used for `n ≥ 2`. -/
def deltaArray (n : ℕ) : NDArray K := ⟨List.replicate n 2, fun k => if k = 0 ∨ k = 2 ^ n - 1 then 1 else 0⟩

/-- circuit.py:407-408: the identity of one qubit. -/
def eyeGate (q : Q) : Gate Q K := (⟨[2, 2], fun k => if k = 0 ∨ k = 3 then 1 else 0⟩, [q])

/-- circuit.py:411-424: the tensors of the gates; `c` is `qubit_map`. -/
def buildLoop : List (Gate Q K) → (Q → ℕ) → Except PyErr (List (NDArray K × List (Q × ℕ)) × (Q → ℕ))
  | [], c => .ok ([], c)
  | g :: rest, c =>
    match g.1.reshape (List.replicate (2 * g.2.length) 2) with
    | .error e => .error e
    | .ok a =>
      match buildLoop rest fun q => c q + g.2.count q with
      | .error e => .error e
      | .ok (ts, c') => .ok ((a, (g.2.map fun q => (q, c q + 1)) ++ g.2.map fun q => (q, c q)) :: ts, c')

/-- circuit.py:432-437 `output_inds_map.get(x, x)`, for an index `(q, n)` of the network. -/
def relabel (c : Q → ℕ) (x : Q × ℕ) : Q × Stage :=
  if x.2 = 0 then (x.1, .i) else if x.2 = c x.1 then (x.1, .f) else (x.1, .num x.2)

/-- circuit.py:453-456 `open_qubits`. -/
def openQubits (qubits : List Q) (closed : List (Q × Stage)) : List (Q × Stage) :=
  (qubits.flatMap fun q => [(q, Stage.i), (q, Stage.f)]).filter (· ∉ closed)

/-- circuit.py:410-456: the tensors of gates and states, and the open indices. -/
def rawNetwork (r : K) (gates : List (Gate Q K)) (qubits : List Q) (init fin : PyState Q K) :
    Except PyErr (List (NDArray K × List (Q × Stage)) × List (Q × Stage)) :=
  match buildLoop gates fun _ => 0 with
  | .error e => .error e
  | .ok (ts, c) =>
    match getState r qubits .i init with
    | .error e => .error e
    | .ok si =>
      match getState r qubits .f fin with
      | .error e => .error e
      | .ok sf =>
        let states := si ++ sf.map fun e => (e.1, NDArray.mk e.2.shape fun k => star (e.2.data k))
        .ok ((ts.map fun t => (t.1, t.2.map (relabel c))) ++ states.map fun e => (e.2, [e.1]),
          openQubits qubits (states.map Prod.fst))

/-- circuit.py:466-468: the items of the groups of `map_reduce`, which keeps the order of the first items. -/
def groupItems {α : Type} (p : α → Bool) : List α → List α
  | [] => []
  | e :: l =>
    if p e then (e :: l).filter p ++ (e :: l).filter fun x => !p x else ((e :: l).filter fun x => !p x) ++ (e :: l).filter p

/-- circuit.py:466-473: `hyper_inds_map` with open indices as representatives, and `hyper_remap`. -/
def remapOpen {ι : Type} [DecidableEq ι] (hmap : List (ι × ι)) (op : List ι) : List (ι × ι) × List (ι × ι) :=
  let p := fun e : ι × ι => decide (e.1 ∈ op ∧ e.2 ∉ op)
  let remap := dupdate [] ((hmap.filter p).map fun e => (e.2, e.1))                     -- 471
  ((groupItems p hmap).map fun e => (e.1, (dget remap e.2).getD e.2), remap)

/-- circuit.py:481-485 `kronecker_delta_inds`. -/
def deltaInds {ι : Type} [DecidableEq ι] (hmap : List (ι × ι)) (op : List ι) : List (List ι) :=
  let l := hmap.filter fun e => decide (e.1 ∈ op ∧ e.2 ∈ op ∧ e.1 ≠ e.2)
  (uniqueEverseen (l.map Prod.snd)).map fun y => y :: (l.filter fun e => e.2 = y).map Prod.fst

/-- circuit.py:459-491: hyper-indices, with Kronecker deltas for open indices that were merged. -/
def decomposeOpen {ι : Type} [DecidableEq ι] (fuel : ℕ) (ts : List (NDArray K × List ι)) (op : List ι) :
    Option (Except PyErr (List (NDArray K × List ι))) :=
  match decomposeNetwork fuel (ts.map Prod.fst) (ts.map Prod.snd) with
  | none => none
  | some (.error e) => some (.error e)
  | some (.ok (arrs, new, hmap)) =>
    let h := remapOpen hmap op
    let new := new.map fun xs => xs.map fun x => (dget h.2 x).getD x                    -- 476-477
    let ds := deltaInds h.1 op
    some (.ok (arrs.zip new ++ ds.map fun xs => (deltaArray xs.length, xs)))            -- 488-491

/-- circuit.py:497-512: fusing tensors. -/
def fuseNetwork {ι σ W : Type} [DecidableEq ι] [Zero W] [Add W] [LT W] [DecidableLT W] (g : PyRng σ) (enumN : Finset ℕ → List ℕ)
    (enum : Finset ι → List ι) (log2 : ℕ → W) (fuel : ℕ) (s : σ) (ts : List (NDArray K × List ι)) (op : List ι) (maxW : W) :
    Option (Except PyErr (List (NDArray K) × List (List ι) × Finset ι)) :=
  match fuse g enumN fuel s log2 (ts.map Prod.snd) (.int 2) maxW (some op) [] with
  | none => none
  | some (.error e) => some (.error e)
  | some (.ok (path, _)) =>
    match contract enum path (ts.map Prod.snd) (some op) (ts.map Prod.fst) none with
    | .error e => some (.error e)
    | .ok (inds, out, arrs) => some (.ok (arrs, inds, out))

/-- The arguments of `load` which do not describe the circuit, and what it uses of its environment. -/
structure LoadArgs (Q K S σ W : Type) where
  simplify : Bool
  useMatrix : Bool
  decompose : Bool
  fuse : Option W
  r : K
  reseed : S → S
  start : S → σ
  g : PyRng σ
  enumN : Finset ℕ → List ℕ
  enum : Finset (Q × Stage) → List (Q × Stage)
  log2 : ℕ → W
  fuel : ℕ

/-- circuit.py:202-515 `load`. -/
def load {S σ W : Type} [Zero W] [Add W] [LT W] [DecidableLT W] (A : LoadArgs Q K S σ W) (seed : S) (circuit : List (Gate Q K))
    (init fin : PyState Q K) : Option (Except PyErr (List (NDArray K) × List (List (Q × Stage)) × Finset (Q × Stage))) :=
  let qubits := uniqueEverseen (circuit.flatMap Prod.snd)                               -- 339-341
  match (if A.simplify then simplifyAll A.reseed A.useMatrix A.fuel seed circuit else some (.ok (circuit, seed))) with
  | none => none
  | some (.error e) => some (.error e)
  | some (.ok (all, seed)) =>
    let gates := all ++ (qubits.filter fun q => q ∉ all.flatMap Prod.snd).map eyeGate   -- 405-408
    match rawNetwork A.r gates qubits init fin with
    | .error e => some (.error e)
    | .ok (ts, op) =>
      match (if A.decompose then decomposeOpen A.fuel ts op else some (.ok ts)) with
      | none => none
      | some (.error e) => some (.error e)
      | some (.ok ts) =>
        match A.fuse with
        | none => some (.ok (ts.map Prod.fst, ts.map Prod.snd, op.toFinset))
        | some w =>
          if 0 < w then fuseNetwork A.g A.enumN A.enum A.log2 A.fuel (A.start seed) ts op w
          else some (.ok (ts.map Prod.fst, ts.map Prod.snd, op.toFinset))

end TNCO
