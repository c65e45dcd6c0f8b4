import Verif.Model.CircuitLoad
import Verif.Spec.Circuit
import Mathlib.Data.List.Sort

/-!
# Sampling bitstrings: `tnco/app/circuit/sampling.py`

Simplifications: exact arithmetic; `abs(x)**2` is a function `sq`, with values in an ordered field. The optimizer is a function from the number of the
call and the indices of a network to a path (any function, see `Model/Sampler.lean` for that of the code). Each network is loaded and optimized before the next one is loaded; this matters
only for which exception is raised first. `dtype`, backends and progress bars do nothing. Bitstrings are lists of bits. Where NumPy would compute
`0/0`, the model reports `zeroDivision`.
-/

namespace TNCO
variable {Q K R : Type} [DecidableEq Q] [Field K] [StarRing K] [DecidableEq K] [Field R] [LinearOrder R]

/-- sampling.py:55 `where(m)`: the positions of the entries that are not zero, row by row. -/
def nonzeros (m : NDArray K) (r c : ℕ) : List (ℕ × ℕ) :=
  (List.range r).flatMap fun i => ((List.range c).filter fun j => m.get [i, j] ≠ 0).map fun j => (i, j)

/-- sampling.py:37-66 `is_classical_operation`. The test at 50-51 reads `ndim != 2 or (shape[0] != shape[1] and log2(shape[0]) is not an integer)`;
`log2(0)` raises `ValueError`. -/
def isClassical (sq : K → R) (m : NDArray K) : Except PyErr Bool :=
  match m.shape with
  | [r, c] =>
    if r ≠ c ∧ r = 0 then .error .valueError
    else if r ≠ c ∧ 2 ^ Nat.log2 r ≠ r then .ok false                                   -- 50-52
    else
      let nz := nonzeros m r c                                                          -- 55
      if (nz.map Prod.fst).insertionSort (· ≤ ·) = List.range r ∧ (nz.map Prod.snd).insertionSort (· ≤ ·) = List.range r then    -- 58-59
        .ok (nz.all fun p => sq (m.get [p.1, p.2]) = 1)                                 -- 62-66
      else .ok false
  | _ => .ok false

/-- sampling.py:69-90: an entry of the intermediate state: a classical operation, or a network with a path. -/
inductive SampleStep (Q K : Type) where
  | classical (m : NDArray ℕ) (qs : List Q)
  | quantum (arrs : List (NDArray K)) (inds : List (List (Q × Stage))) (path : List (ℕ × ℕ)) (outQ : List Q) (qs : List Q)

/-- The options of `sample`, and what it uses of its environment. -/
structure SampleArgs (Q K R S σ W : Type) where
  load : LoadArgs Q K S σ W
  seed : ℕ → S
  sq : K → R
  iter : Finset (Q × Stage) → List (Q × Stage)
  optimize : ℕ → List (List (Q × Stage)) → Option (Except PyErr (List (ℕ × ℕ)))

section
variable {S σ W : Type} [Zero W] [Add W] [LT W] [DecidableLT W]

/-- sampling.py:186-231: the gate number `n` of the circuit. -/
def prepareGate (A : SampleArgs Q K R S σ W) (circuit : List (Gate Q K)) (n : ℕ) (g : Gate Q K) : Option (Except PyErr (SampleStep Q K)) :=
  match isClassical A.sq g.1 with
  | .error e => some (.error e)
  | .ok true => some (.ok (.classical ⟨g.1.shape, fun k => if g.1.data k ≠ 0 then 1 else 0⟩ g.2))         -- 187
  | .ok false =>
    match load A.load (A.seed n) (circuit.take (n + 1)) (.str "0") .none with                             -- 187-194
    | none => none
    | some (.error e) => some (.error e)
    | some (.ok (arrs, inds, out)) =>
      let inds := inds ++ (A.iter out).map fun x => [x]                                                   -- 203-207
      match A.optimize n inds with                                                                        -- 211-219
      | none => none
      | some (.error e) => some (.error e)
      | some (.ok path) => some (.ok (.quantum arrs inds path ((A.iter out).map Prod.fst) g.2))

/-- sampling.py:171-172: one-qubit gates or classical operations only. -/
def allowed (sq : K → R) : List (Gate Q K) → Except PyErr Bool
  | [] => .ok true
  | g :: rest =>
    if g.2.length = 1 then allowed sq rest
    else match isClassical sq g.1 with
      | .error e => .error e
      | .ok false => .ok false
      | .ok true => allowed sq rest

def prepareLoop (A : SampleArgs Q K R S σ W) (circuit : List (Gate Q K)) : ℕ → List (Gate Q K) → Option (Except PyErr (List (SampleStep Q K)))
  | _, [] => some (.ok [])
  | n, g :: rest =>
    match prepareGate A circuit n g with
    | none => none
    | some (.error e) => some (.error e)
    | some (.ok s) =>
      match prepareLoop A circuit (n + 1) rest with
      | none => none
      | some (.error e) => some (.error e)
      | some (.ok ss) => some (.ok (s :: ss))

/-- sampling.py:164-231: the intermediate state, and its qubits. -/
def prepare (A : SampleArgs Q K R S σ W) (circuit : List (Gate Q K)) (order : Option (List Q)) :
    Option (Except PyErr (List (SampleStep Q K) × Finset Q)) :=
  match allowed A.sq circuit with
  | .error e => some (.error e)
  | .ok false => some (.error .valueError)                                              -- 173-175
  | .ok true =>
    let qubits := (circuit.flatMap Prod.snd).toFinset                                   -- 178
    if order.all fun o => o.toFinset = qubits then                                      -- 181-183
      match prepareLoop A circuit 0 circuit with
      | none => none
      | some (.error e) => some (.error e)
      | some (.ok ss) => some (.ok (ss, qubits))
    else some (.error .valueError)

/-- sampling.py:285-287 `bin(k)[2:].zfill(n)`, for `k < 2 ** n`. -/
def bitList (n k : ℕ) : List ℕ := (List.range n).map fun i => k / 2 ^ (n - 1 - i) % 2

/-- `bitstring[loc] = bits` -/
def setBits : List ℕ → List ℕ → List ℕ → List ℕ
  | b, l :: loc, v :: vs => setBits (b.set l v) loc vs
  | b, _, _ => b

/-- `map(qubits.index, qs)` -/
def locate (qubits qs : List Q) : Except PyErr (List ℕ) :=
  if ∀ q ∈ qs, q ∈ qubits then .ok (qs.map fun q => qubits.idxOf q) else .error .valueError

/-- sampling.py:271-293: a classical operation. -/
def stepClassical (qubits : List Q) (m : NDArray ℕ) (qs : List Q) (bits : List ℕ) : Except PyErr (List ℕ) :=
  match locate qubits qs with
  | .error e => .error e
  | .ok loc =>
    let k := binVal (loc.map fun i => bits.getD i 0)                                    -- 276-280
    match m.shape with
    | [r, c] =>
      if qs = [] then .error .valueError                                                -- 280 `int('', 2)`
      else if c = 2 ^ qs.length then
        match (List.range r).filter fun i => m.get [i, k] % 2 ≠ 0 with                  -- 283-284
        | [j] => .ok (setBits bits loc (bitList qs.length j))                            -- 285-290
        | _ => .error .valueError
      else .error .valueError
    | _ => .error .valueError

/-- sampling.py:310-312, 324-326: the vector of a bit. -/
def bitVec (b : ℕ) : NDArray K := ⟨[2], fun k => if b ≠ 0 then (if k = 0 then 0 else 1) else if k = 0 then 1 else 0⟩

/-- sampling.py:315-320, 329-334: `_, _, [prob] = contract(...)`; an array that is not a number cannot be compared later on. -/
def amplitudeOf (enum : Finset (Q × Stage) → List (Q × Stage)) (path : List (ℕ × ℕ)) (inds : List (List (Q × Stage))) (arrays : List (NDArray K)) :
    Except PyErr K :=
  match contract enum path inds (some []) arrays none with
  | .error e => .error e
  | .ok (_, _, [a]) => if a.shape = [] then .ok (a.get []) else .error .valueError
  | .ok _ => .error .valueError

/-- sampling.py:306-335: the squared amplitudes for the bitstring and for that with one bit flipped, and the place of that bit. -/
def stepProbs (sq : K → R) (enum : Finset (Q × Stage) → List (Q × Stage)) (qubits : List Q) (arrs : List (NDArray K)) (inds : List (List (Q × Stage)))
    (path : List (ℕ × ℕ)) (outQ qs : List Q) (bits : List ℕ) : Except PyErr (ℕ × R × R) :=
  match qs with
  | [q] =>
    match locate qubits [q], locate qubits outQ with
    | .error e, _ => .error e
    | .ok _, .error e => .error e
    | .ok loc, .ok outLoc =>
      let l := loc.headD 0
      let vecs := outLoc.map fun x => bitVec (bits.getD x 0)                            -- 310-312
      match amplitudeOf enum path inds (arrs ++ vecs) with
      | .error e => .error e
      | .ok a0 =>
        if q ∈ outQ then
          match amplitudeOf enum path inds (arrs ++ vecs.set (outQ.idxOf q) (bitVec (if bits.getD l 0 ≠ 0 then 0 else 1))) with    -- 324-334
          | .error e => .error e
          | .ok a1 => .ok (l, sq a0, sq a1)
        else .error .valueError
  | _ => .error .valueError

variable {M : Type → Type} [Monad M]

/-- sampling.py:265-346: one sample. `flip p` stands for `rng.random() < p`. -/
def runSteps (flip : R → M Bool) (sq : K → R) (enum : Finset (Q × Stage) → List (Q × Stage)) (qubits : List Q) :
    List (SampleStep Q K) → List ℕ → M (Except PyErr (List ℕ))
  | [], bits => pure (.ok bits)
  | .classical m qs :: rest, bits =>
    match stepClassical qubits m qs bits with
    | .error e => pure (.error e)
    | .ok bits => runSteps flip sq enum qubits rest bits
  | .quantum arrs inds path outQ qs :: rest, bits =>
    match stepProbs sq enum qubits arrs inds path outQ qs bits with
    | .error e => pure (.error e)
    | .ok (l, p0, p1) =>
      if p0 + p1 = 0 then pure (.error .zeroDivision)
      else do
        let b ← flip (p1 / (p0 + p1))                                                   -- 338
        runSteps flip sq enum qubits rest (if b then bits.set l (bits.getD l 0 ^^^ 1) else bits)       -- 339

/-- sampling.py:240, 338: the random number generator of the code. -/
def rngFlip {τ : Type} (random : τ → R × τ) (p : R) : StateM τ Bool := fun s => (decide ((random s).1 < p), (random s).2)

/-- sampling.py:253-349: the loop over the samples; the dictionary of counts. -/
def sampleLoop {τ : Type} (random : τ → R × τ) (sq : K → R) (enum : Finset (Q × Stage) → List (Q × Stage)) (qubits : List Q)
    (steps : List (SampleStep Q K)) : ℕ → τ → List (List ℕ × ℕ) → Except PyErr (List (List ℕ × ℕ) × τ)
  | 0, s, d => .ok (d, s)
  | n + 1, s, d =>
    match runSteps (rngFlip random) sq enum qubits steps (List.replicate qubits.length 0) s with
    | (.error e, _) => .error e
    | (.ok b, s) => sampleLoop random sq enum qubits steps n s (dset d b ((dget d b).getD 0 + 1))

/-- sampling.py:239-369: from the intermediate state to the counts. `tuple(partial_tn.qubits)` lists the set in an unspecified order. -/
def sampleFrom {τ : Type} (random : τ → R × τ) (s : τ) (sq : K → R) (enum : Finset (Q × Stage) → List (Q × Stage)) (enumQ : Finset Q → List Q)
    (steps : List (SampleStep Q K)) (qset : Finset Q) (order : Option (List Q)) (nSamples : ℕ) (normalize : Bool) :
    Except PyErr (List (List ℕ × R) × List Q) :=
  if order.all fun o => o.toFinset = qset then                                          -- 243-246
    let qubits := order.getD (enumQ qset)                                               -- 247-249
    match sampleLoop random sq enum qubits steps nSamples s [] with
    | .error e => .error e
    | .ok (d, _) =>
      let r := d.map fun e => (e.1, if normalize then (e.2 : R) / (nSamples : R) else (e.2 : R))          -- 361-364
      .ok (r.insertionSort (fun a b => b.2 ≤ a.2), qubits)                              -- 367-369 (both sorts are stable)
  else .error .valueError

/-- sampling.py:93-369 `sample`. -/
def sample {τ : Type} (A : SampleArgs Q K R S σ W) (random : τ → R × τ) (s : τ) (enumQ : Finset Q → List Q) (circuit : List (Gate Q K))
    (order : Option (List Q)) (nSamples : ℕ) (normalize : Bool) : Option (Except PyErr (List (List ℕ × R) × List Q)) :=
  match prepare A circuit order with
  | none => none
  | some (.error e) => some (.error e)
  | some (.ok (steps, qset)) => some (sampleFrom random s A.sq A.load.enum enumQ steps qset order nSamples normalize)

end
end TNCO
