import Verif.Model.Contract
import Mathlib.Algebra.Field.Basic
import Mathlib.Algebra.Star.Basic

/-!
# Simplification of circuits: `tnco/utils/circuit.py` 37-199 and 346-398

Simplifications: entries are exact (`atol = 0`, no relative tolerance): `allclose` is equality and `abs(x) > atol` is `x ≠ 0`; `conj` is the star of a
field with an involution; the backend is NumPy.
-/

namespace TNCO
variable {Q K : Type} [DecidableEq Q] [Field K] [StarRing K] [DecidableEq K]

/-- A gate: a matrix and the qubits it acts on. -/
abbrev Gate (Q K : Type) := NDArray K × List Q

/-- circuit.py:69-72 and 160-163 `is_valid_gate`. -/
def isValidGate (g : Gate Q K) : Bool :=
  decide (0 < g.2.length) && (match g.1.shape with
    | [n, m] => decide (n = m) && decide (n = 2 ^ g.2.length)
    | _ => false) && decide g.2.Nodup

/-- The second components of the indices in circuit.py:102-114. -/
inductive Tag where
  | i | f | shared
deriving DecidableEq, Repr

/-- `a.transpose(tuple(map(inds.index, new)))`; `index` raises `ValueError`. -/
def transposeNames {ι : Type} [DecidableEq ι] (a : NDArray K) (inds new : List ι) : Except PyErr (NDArray K) :=
  if ∃ x ∈ new, x ∉ inds then .error .valueError else a.transpose (new.map fun x => inds.idxOf x)

/-- circuit.py:101-119 `contract`, the inner function of `commute`. -/
def commuteContract (shared all : List Q) (a : NDArray K) (qa : List Q) (b : NDArray K) (qb : List Q) : Except PyErr (NDArray K) :=
  let xa := (qa.map fun q => (q, Tag.i)) ++ qa.map fun q => (q, if q ∈ shared then Tag.shared else Tag.f)
  let xb := (qb.map fun q => (q, if q ∈ shared then Tag.shared else Tag.i)) ++ qb.map fun q => (q, Tag.f)
  let xab := (all.map fun q => (q, Tag.i)) ++ all.map fun q => (q, Tag.f)
  match tensordot a xa b xb [] with
  | .error e => .error e
  | .ok (ab, inds) => transposeNames ab inds xab

/-- `allclose(a, b)` for arrays of the same shape, exact. -/
def allEqual (a b : NDArray K) : Bool := decide (∀ k < a.shape.prod, a.data k = b.data k)

/-- circuit.py:37-130 `commute`. -/
def commute (useMatrix : Bool) (A B : Gate Q K) : Except PyErr Bool :=
  if !isValidGate A then .error .valueError                                             -- 81-82
  else if !isValidGate B then .error .valueError                                        -- 83-84
  else
    let all := uniqueEverseen (A.2 ++ B.2)                                              -- 87
    let shared := A.2.filter (· ∈ B.2)                                                  -- 90
    if shared = [] then .ok true                                                        -- 93-94
    else if !useMatrix then .ok false                                                   -- 97-98
    else
      match A.1.reshape (List.replicate (2 * A.2.length) 2), B.1.reshape (List.replicate (2 * B.2.length) 2) with   -- 122-123
      | .ok a, .ok b =>
        match commuteContract shared all a A.2 b B.2, commuteContract shared all b B.2 a A.2 with                   -- 126-127
        | .ok ab, .ok ba => .ok (allEqual ab ba)                                        -- 130
        | .error e, _ => .error e
        | _, .error e => .error e
      | .error e, _ => .error e
      | _, .error e => .error e

/-- circuit.py:133-199 `same`. -/
def same (A B : Gate Q K) : Except PyErr Bool :=
  if !isValidGate A then .error .valueError                                             -- 172-173
  else if !isValidGate B then .error .valueError                                        -- 174-175
  else if A.2.length ≠ B.2.length ∨ ∃ q ∈ B.2, q ∉ A.2 then .ok false                   -- 178-180
  else if ∃ q ∈ A.2, q ∉ B.2 then .error .valueError                                    -- `index` at 183
  else
    let order := A.2.map fun q => B.2.idxOf q
    let order := order ++ order.map (· + A.2.length)                                    -- 183-184
    match B.1.reshape (List.replicate (2 * B.2.length) 2) with
    | .error e => .error e
    | .ok b =>
      match b.transpose order with
      | .error e => .error e
      | .ok b =>
        let n := A.1.shape.prod                                                         -- 185-187
        if ∃ k < n, ¬ (A.1.data k ≠ 0 ↔ b.data k ≠ 0) then .ok false                    -- 190-195
        else
          let W := ((List.range n).filter fun k => A.1.data k ≠ 0).map fun k => A.1.data k / b.data k
          match W with                                                                  -- 198-199
          | [] => .error .indexError
          | w :: _ => .ok (decide (∀ x ∈ W, x = w))

/-- circuit.py:363 `(gate_[0].conj().T, gate_[1])`. -/
def gateAdjoint (g : Gate Q K) : Except PyErr (Gate Q K) :=
  match (NDArray.mk g.1.shape fun k => star (g.1.data k)).transpose (List.range g.1.ndim).reverse with
  | .error e => .error e
  | .ok a => .ok (a, g.2)

/-- circuit.py:366-373: the position, in the reversed list, of the gate to remove. -/
def findCancel (useMatrix : Bool) (g adj : Gate Q K) : List (Gate Q K) → ℕ → Except PyErr (Option ℕ)
  | [], _ => .ok none
  | h :: rest, i =>
    match same h adj with
    | .error e => .error e
    | .ok true => .ok (some i)
    | .ok false =>
      match commute useMatrix h g with
      | .error e => .error e
      | .ok false => .ok none
      | .ok true => findCancel useMatrix g adj rest (i + 1)

/-- circuit.py:349-382: one pass over the circuit; returns `all_gates` and `changes`. -/
def simplifyPass (useMatrix : Bool) : List (Gate Q K) → List (Gate Q K) → Bool → Except PyErr (List (Gate Q K) × Bool)
  | [], all, changes => .ok (all, changes)
  | g :: rest, all, changes =>
    match gateAdjoint g with
    | .error e => .error e
    | .ok adj =>
      match findCancel useMatrix g adj all.reverse 0 with
      | .error e => .error e
      | .ok (some pos) => simplifyPass useMatrix rest (all.eraseIdx (all.length - pos - 1)) true
      | .ok none => simplifyPass useMatrix rest (all ++ [g]) changes

/-- circuit.py:346-398: passes until nothing changes. `reseed` is what line 396 does to the seed. `none`: more passes than `fuel`. -/
def simplifyAll {σ : Type} (reseed : σ → σ) (useMatrix : Bool) : ℕ → σ → List (Gate Q K) → Option (Except PyErr (List (Gate Q K) × σ))
  | 0, _, _ => none
  | fuel + 1, s, circuit =>
    match simplifyPass useMatrix circuit [] false with
    | .error e => some (.error e)
    | .ok (all, true) => simplifyAll reseed useMatrix fuel (reseed s) all
    | .ok (all, false) => some (.ok (all, s))

end TNCO
