import Verif.Model.LoadText

/-!
# The choice of the format in `load_tn` (`tnco/app/app.py:259-308`, `418-474`, `489`, `511-513`, `538-539`, `564`)

Objects are modelled as far as `load_tn` looks at them. Parameters: standard input, the file system with `load_file`, `json.loads`,
`circuit_from_qasm` and `cirq.read_json`; a fuel stands for the limit on recursion. `bytes` behave as the tuple of their numbers.
Moments of circuits and members of networks are opaque. The entries of arrays are numbers.
-/

namespace TNCO

/-- The exceptions of this file; `library` stands for the ones of the parameters. -/
inductive ObjErr where
  | typeError | valueError | indexError | keyError | overflow | notImplemented | recursion | library
deriving DecidableEq, Repr

/-- A Python number: a finite real number, an infinite one, not a number, a number that is not real. -/
inductive Scalar where
  | rat (q : ℚ) | inf | nan | complex
deriving DecidableEq

/-- A Python object. -/
inductive PyObj where
  | iterator
  | none
  /-- An object that has no length and is not iterable. -/
  | opaque
  | num (x : Scalar)
  | str (s : List ℕ)
  /-- A `TensorNetwork` with `size` tensors. -/
  | network (size : ℕ)
  /-- A circuit of `cirq` or `qiskit`. -/
  | circuit (size : ℕ)
  /-- A list or a tuple. -/
  | seq (xs : List PyObj)
  | set (xs : List PyObj)
  | dict (keys vals : List PyObj)
  | array (shape : List ℕ) (data : List Scalar)

namespace PyObj

/-- `len(x)`; `none` is a `TypeError`. -/
def len : PyObj → Option ℕ
  | .str s => some s.length
  | .network n => some n
  | .circuit n => some n
  | .seq xs => some xs.length
  | .set xs => some xs.length
  | .dict ks _ => some ks.length
  | .array (n :: _) _ => some n
  | _ => Option.none

/-- Whether a key equals the number `k`. -/
def isKey (k : ℕ) : PyObj → Bool
  | .num (.rat q) => decide (q = k)
  | _ => false

/-- The part `k` of an array along its first axis. -/
def sub (shape : List ℕ) (data : List Scalar) (k : ℕ) : PyObj :=
  match shape with
  | [] => .num ((data[k]?).getD (.rat 0))
  | n :: sh => .array (n :: sh) ((data.drop (k * (n :: sh).prod)).take (n :: sh).prod)

/-- `x[k]` -/
def item (k : ℕ) : PyObj → Except ObjErr PyObj
  | .str s =>
    match s[k]? with
    | some c => .ok (.str [c])
    | Option.none => .error .indexError
  | .network n => if k < n then .ok .opaque else .error .indexError
  | .circuit n => if k < n then .ok .opaque else .error .indexError
  | .seq xs =>
    match xs[k]? with
    | some x => .ok x
    | Option.none => .error .indexError
  | .dict ks vs =>
    match (ks.zip vs).find? fun e => e.1.isKey k with
    | some e => .ok e.2
    | Option.none => .error .keyError
  | .array [] _ => .error .indexError
  | .array (n :: sh) data => if k < n then .ok (sub sh data k) else .error .indexError
  | _ => .error .typeError

/-- The members in the order of iteration; `none` is a `TypeError`. -/
def members : PyObj → Option (List PyObj)
  | .str s => some (s.map fun c => .str [c])
  | .network n => some (List.replicate n .opaque)
  | .circuit n => some (List.replicate n .opaque)
  | .seq xs => some xs
  | .set xs => some xs
  | .dict ks _ => some ks
  | .array (n :: sh) data => some ((List.range n).map (sub sh data))
  | _ => Option.none

/-- app.py:264-268 `is_int` of a number. -/
def scalarInt : Scalar → Except ObjErr Bool
  | .rat q => .ok q.isInt
  | .inf => .error .overflow           -- `OverflowError` is not caught
  | _ => .ok false

/-- app.py:264-268 `is_int`; `int` accepts arrays with one entry, and the text of a number does not equal the number. -/
def isInt : PyObj → Except ObjErr Bool
  | .num x => scalarInt x
  | .array sh [x] => if sh.prod = 1 then scalarInt x else .ok false
  | _ => .ok false

/-- app.py:279-287 `is_random_access`; `is_iterator` looks at the argument of `load_tn`, which is none here. -/
def randomAccess (x : PyObj) : Except ObjErr Bool :=
  match x.len with
  | Option.none => .ok false
  | some _ =>
    match x.item 0 with
    | .ok _ => .ok true
    | .error .typeError => .ok false
    | .error e => .error e

/-- app.py:472-474: the test for a row of a list of indices. -/
def isRow (x : PyObj) : Except ObjErr Bool :=
  match x.randomAccess with
  | .error e => .error e
  | .ok false => .ok false
  | .ok true =>
    if x.len.getD 0 > 1 then
      match x.item 0 with
      | .error e => .error e
      | .ok y => y.isInt
    else .ok false

/-- app.py:293-300 `is_array`, `is_matrix`, for an object that has `is_random_access`. -/
def squareSize : PyObj → Option ℕ
  | .array [n, m] _ => if n = m then some n else Option.none
  | _ => Option.none

/-- app.py:293-300 `is_array`, `is_matrix`, with the size of the matrix. -/
def isMatrix (x : PyObj) : Except ObjErr (Option ℕ) :=
  match x.randomAccess with
  | .error e => .error e
  | .ok false => .ok Option.none
  | .ok true => .ok x.squareSize

/-- app.py:303-305 `is_gate`. -/
def isGate (x : PyObj) : Except ObjErr Bool :=
  match x.randomAccess with
  | .error e => .error e
  | .ok false => .ok false
  | .ok true =>
    if x.len.getD 0 = 2 then
      match x.item 0 with
      | .error e => .error e
      | .ok a =>
        match a.isMatrix with
        | .error e => .error e
        | .ok Option.none => .ok false
        | .ok (some n) =>
          match x.item 1 with
          | .error e => .error e
          | .ok qs =>
            match qs.randomAccess with
            | .error e => .error e
            | .ok false => .ok false
            | .ok true => .ok (decide (2 ^ qs.len.getD 0 = n))
    else .ok false

/-- `'cirq_type' in obj` -/
def isCirqKey : PyObj → Bool
  | .str s => decide (s = [99, 105, 114, 113, 95, 116, 121, 112, 101])
  | _ => false

end PyObj

/-- `all(map(f, l))` -/
def allMap {α ε : Type} (f : α → Except ε Bool) : List α → Except ε Bool
  | [] => .ok true
  | x :: l =>
    match f x with
    | .error e => .error e
    | .ok false => .ok false
    | .ok true => allMap f l

/-- How an object is loaded. -/
inductive LoadKind where
  | network | rows | gates | circuit
deriving DecidableEq, Repr

/-- app.py:511-513, 538-539, 564: circuits are told by the name of their class. -/
def circuitOr : PyObj → Except ObjErr (LoadKind × PyObj)
  | .circuit n => .ok (.circuit, .circuit n)
  | _ => .error .typeError

/-- app.py:472-564: an object that is no `TensorNetwork`, no text that is recognised and no circuit as JSON. -/
def classify (o : PyObj) : Except ObjErr (LoadKind × PyObj) :=
  match o.members with
  | none => .error .typeError
  | some xs =>
    match allMap PyObj.isRow xs with
    | .error e => .error e
    | .ok true => .ok (.rows, o)
    | .ok false =>
      match allMap PyObj.isGate xs with
      | .error e => .error e
      | .ok true => .ok (.gates, o)
      | .ok false => circuitOr o

/-- What `load_tn` uses of its surroundings. `file` is `none` if the text is no valid path or if there is no such file. -/
structure ObjEnv where
  digit : ℕ → Option ℕ
  upper : ℕ → List ℕ
  qasm : List ℕ → Except ObjErr PyObj
  file : List ℕ → Option (Except ObjErr PyObj)
  json : List ℕ → Option PyObj
  readJson : PyObj → Except ObjErr PyObj

/-- app.py:441-443: a row as a tuple. -/
def rowObj (r : ℕ × List (List ℕ)) : PyObj := .seq (.num (.rat r.1) :: r.2.map .str)

/-- `load_tn` up to the choice of the loader; `inp` is what can be read from standard input. -/
def loadObj (env : ObjEnv) : ℕ → List ℕ → PyObj → Except ObjErr (LoadKind × PyObj)
  | 0, _, _ => .error .recursion
  | f + 1, inp, o =>
    match o with
    | .iterator => .error .notImplemented                                                 -- 290-291
    | .network n => .ok (.network, .network n)                                            -- 308
    | .str s =>
      match textKind env.digit env.upper s with
      | .error _ => .error .valueError
      | .ok .stdin => loadObj env f [] (.str (strip inp))                                 -- 422-423
      | .ok .qasm =>
        match env.qasm s with
        | .error e => .error e
        | .ok o => loadObj env f inp o                                                    -- 430
      | .ok (.inds rows) => loadObj env f inp (.seq (rows.map rowObj))                    -- 447
      | .ok .other =>
        match env.file s with
        | some (.error e) => .error e
        | some (.ok o) => loadObj env f inp o                                             -- 453
        | none =>
          match env.json s with
          | some o => loadObj env f inp o                                                 -- 459
          | none => classify (.str s)
    | .dict ks vs =>
      if ks.any PyObj.isCirqKey then
        match env.readJson (.dict ks vs) with
        | .error e => .error e
        | .ok o => loadObj env f inp o                                                    -- 469
      else classify (.dict ks vs)
    | o => classify o

end TNCO
