import Verif.Model.NetEq
import Verif.Model.AppIO
import Mathlib.Data.Nat.Digits.Defs

/-!
# Output in the JSON format

`json.dumps` follows the documentation of the module `json` with its default options (`ensure_ascii`, separators `, ` and `: `); it belongs to the trusted
base. Texts are lists of code points. How Python writes a `float` is a parameter: floats are given by their text. The check for circular
references is left out.
-/

namespace TNCO

/-- The keys of a dictionary that `json.dumps` takes; others raise `TypeError`. -/
inductive KeyJ where
  | none | bool (b : Bool) | int (z : ℤ) | float (repr : List ℕ) | str (s : List ℕ) | other

/-- Python objects as far as the encoders look at them. `frozenset` has its members in the order of iteration, `complex` the texts of its parts, `decimal`
its `str`, `cirqQubit` its `repr` and `toJson` the result of its method `to_json`. -/
inductive PyJ where
  | none
  | bool (b : Bool)
  | int (z : ℤ)
  | float (repr : List ℕ)
  | str (s : List ℕ)
  | list (l : List PyJ)
  | tuple (l : List PyJ)
  | dict (m : List (KeyJ × PyJ))
  | frozenset (l : List PyJ)
  | complex (re im : List ℕ)
  | decimal (s : List ℕ)
  | cirqQubit (repr : List ℕ)
  | toJson (s : List ℕ)
  | other

/-! ## `json.dumps` -/

/-- The decimal digits of a number. -/
def decText (n : ℕ) : List ℕ := if n = 0 then [48] else ((Nat.digits 10 n).map (48 + ·)).reverse

/-- `int.__repr__` -/
def intText : ℤ → List ℕ
  | .ofNat n => decText n
  | .negSucc n => 45 :: decText (n + 1)

/-- One hexadecimal digit, in lower case. -/
def hexDigit (n : ℕ) : ℕ := if n < 10 then 48 + n else 87 + n

/-- `\uXXXX` -/
def hexEscape (n : ℕ) : List ℕ := [92, 117, hexDigit (n / 4096 % 16), hexDigit (n / 256 % 16), hexDigit (n / 16 % 16), hexDigit (n % 16)]

/-- One code point in a string. -/
def escapeChar (c : ℕ) : List ℕ :=
  if c = 34 then [92, 34]
  else if c = 92 then [92, 92]
  else if c = 10 then [92, 110]
  else if c = 13 then [92, 114]
  else if c = 9 then [92, 116]
  else if c = 12 then [92, 102]
  else if c = 8 then [92, 98]
  else if 32 ≤ c ∧ c ≤ 126 then [c]
  else if c < 65536 then hexEscape c
  else hexEscape (55296 + (c - 65536) / 1024 % 1024) ++ hexEscape (56320 + (c - 65536) % 1024)

/-- A string. -/
def strText (s : List ℕ) : List ℕ := 34 :: s.flatMap escapeChar ++ [34]

/-- `null`, `true` and `false` -/
def nullText : List ℕ := [110, 117, 108, 108]
def boolText (b : Bool) : List ℕ := if b then [116, 114, 117, 101] else [102, 97, 108, 115, 101]

/-- A key of a dictionary; `none` for `TypeError`. -/
def keyText : KeyJ → Option (List ℕ)
  | .none => some nullText
  | .bool b => some (boolText b)
  | .int z => some (intText z)
  | .float r => some r
  | .str s => some s
  | .other => Option.none

/-- The three classes `JSONEncoder`: of `tnco/app/tn.py`, of `tnco/app/infinite_memory/sa.py` and of `tnco/app/finite_width/sa.py`. -/
inductive EncoderJ where
  | network | infinite | finite
deriving DecidableEq

/-- What `default` returns for an object that is not a standard one (`none` for `TypeError`): tn.py:50-69, infinite_memory/sa.py:51-57 and
finite_width/sa.py:54-67, with app.py:47-55. Tensors, networks and results have their own definitions below. -/
inductive DefaultJ where
  | members | text (s : List ℕ) | error

/-- tn.py:50-69, infinite_memory/sa.py:51-57, finite_width/sa.py:54-67, app.py:47-55: the branches for objects without members; a frozenset becomes the tuple of
its members. -/
def EncoderJ.default (e : EncoderJ) : PyJ → DefaultJ
  | .complex re im =>
    match e with
    | .network => .text (re ++ [32, 43, 32] ++ im ++ [106])           -- tn.py:50-51 '{} + {}j'
    | _ => .error
  | .frozenset _ =>
    match e with
    | .infinite => .error
    | _ => .members                                                     -- tn.py:52-53, finite_width/sa.py:54-55
  | .decimal s =>
    match e with
    | .network => .error
    | _ => .text s                                                      -- app.py:48-49
  | .cirqQubit r =>
    match e with
    | .infinite => .error
    | _ => .text r                                                      -- tn.py:63-65, finite_width/sa.py:61-63
  | .toJson s => .text s                                                -- tn.py:66-67, app.py:52-53
  | _ => .error

/-- `', '.join` -/
def joinComma : List (List ℕ) → List ℕ
  | [] => []
  | [s] => s
  | s :: t :: l => s ++ [44, 32] ++ joinComma (t :: l)

def arrayText (l : List (List ℕ)) : List ℕ := 91 :: joinComma l ++ [93]

/-- A member of an object. -/
def memberText (k v : List ℕ) : List ℕ := strText k ++ [58, 32] ++ v

def objectText (l : List (List ℕ × List ℕ)) : List ℕ := 123 :: joinComma (l.map fun p => memberText p.1 p.2) ++ [125]

mutual
/-- `json.dumps(obj, cls=JSONEncoder)` -/
def PyJ.dumps (e : EncoderJ) : PyJ → Except AppErr (List ℕ)
  | .none => .ok nullText
  | .bool b => .ok (boolText b)
  | .int z => .ok (intText z)
  | .float r => .ok r
  | .str s => .ok (strText s)
  | .list l => (PyJ.dumpsList e l).map arrayText
  | .tuple l => (PyJ.dumpsList e l).map arrayText
  | .dict m => (PyJ.dumpsDict e m).map objectText
  | .frozenset l =>
    match e.default (.frozenset l) with
    | .members => (PyJ.dumpsList e l).map arrayText
    | .text s => .ok (strText s)
    | .error => .error .typeError
  | .complex re im =>
    match e.default (.complex re im) with
    | .text s => .ok (strText s)
    | _ => .error .typeError
  | .decimal s =>
    match e.default (.decimal s) with
    | .text s => .ok (strText s)
    | _ => .error .typeError
  | .cirqQubit r =>
    match e.default (.cirqQubit r) with
    | .text s => .ok (strText s)
    | _ => .error .typeError
  | .toJson s =>
    match e.default (.toJson s) with
    | .text s => .ok (strText s)
    | _ => .error .typeError
  | .other => .error .typeError
/-- The members of a list, in order. -/
def PyJ.dumpsList (e : EncoderJ) : List PyJ → Except AppErr (List (List ℕ))
  | [] => .ok []
  | o :: l =>
    match PyJ.dumps e o with
    | .error x => .error x
    | .ok s =>
      match PyJ.dumpsList e l with
      | .error x => .error x
      | .ok ss => .ok (s :: ss)
/-- The items of a dictionary, in order. -/
def PyJ.dumpsDict (e : EncoderJ) : List (KeyJ × PyJ) → Except AppErr (List (List ℕ × List ℕ))
  | [] => .ok []
  | (k, o) :: m =>
    match keyText k with
    | Option.none => .error .typeError
    | some ks =>
      match PyJ.dumps e o with
      | .error x => .error x
      | .ok s =>
        match PyJ.dumpsDict e m with
        | .error x => .error x
        | .ok ss => .ok ((ks, s) :: ss)
end

/-! ## Tensors and networks -/

/-- The names of members. -/
def keyInds : List ℕ := [105, 110, 100, 115]
def keyDims : List ℕ := [100, 105, 109, 115]
def keyArray : List ℕ := [97, 114, 114, 97, 121]
def keyTags : List ℕ := [116, 97, 103, 115]
def keyTensors : List ℕ := [116, 101, 110, 115, 111, 114, 115]
def keyOutput : List ℕ := [111, 117, 116, 112, 117, 116, 95, 105, 110, 100, 115]
def keySparse : List ℕ := [115, 112, 97, 114, 115, 101, 95, 105, 110, 100, 115]
def keyCost : List ℕ := [99, 111, 115, 116]
def keyRuntime : List ℕ := [114, 117, 110, 116, 105, 109, 101, 95, 115]
def keyPath : List ℕ := [112, 97, 116, 104]
def keyPaths : List ℕ := [100, 105, 115, 99, 111, 110, 110, 101, 99, 116, 101, 100, 95, 112, 97, 116, 104, 115]
def keyDSlices : List ℕ := [100, 105, 115, 99, 111, 110, 110, 101, 99, 116, 101, 100, 95, 115, 108, 105, 99, 101, 115]
def keySlices : List ℕ := [115, 108, 105, 99, 101, 115]
def keyTn : List ℕ := [116, 110]
def keyRes : List ℕ := [114, 101, 115]

/-- `a.tolist()`: nested lists of the entries; the entry itself for an array without axes. -/
def nestedList : List ℕ → (List ℕ → PyJ) → PyJ
  | [], f => f []
  | d :: ds, f => .list ((List.range d).map fun i => nestedList ds fun idx => f (i :: idx))

/-- A tensor as the encoder sees it: entries are Python numbers. -/
structure TensorJ where
  inds : List PyJ
  dims : List ℕ
  array : Option (NDArray PyJ)
  tags : List (KeyJ × PyJ)

/-- A network as the encoder sees it; the sets have the order of iteration. -/
structure NetworkJ where
  tensors : List TensorJ
  output : List PyJ
  sparse : List PyJ
  tags : List (KeyJ × PyJ)

/-- tn.py:54-58 -/
def TensorJ.default (t : TensorJ) : PyJ :=
  .dict [(.str keyInds, .tuple t.inds), (.str keyDims, .tuple (t.dims.map fun d : ℕ => PyJ.int d)),
    (.str keyArray, match t.array with
      | none => .none
      | some a => nestedList a.shape a.get),
    (.str keyTags, .dict t.tags)]

/-- tn.py:59-62; the tags are left out by the code. -/
def NetworkJ.default (N : NetworkJ) : PyJ :=
  .dict [(.str keyTensors, .tuple (N.tensors.map TensorJ.default)), (.str keyOutput, .frozenset N.output), (.str keySparse, .frozenset N.sparse)]

/-- tn.py:164-173 `Tensor.to_json` -/
def TensorJ.toJson (t : TensorJ) : Except AppErr (List ℕ) := t.default.dumps .network

/-- tn.py:360-361 `TensorNetwork.to_json` -/
def NetworkJ.toJson (N : NetworkJ) : Except AppErr (List ℕ) := N.default.dumps .network

/-! ## Results -/

/-- A path in linear format. -/
def pathJ (p : List (ℕ × ℕ)) : PyJ := .list (p.map fun q => .tuple [.int q.1, .int q.2])

/-- A result of either optimizer (app.py:74-76, infinite_memory/sa.py:75-76, finite_width/sa.py:89-92): `slices` and `disconnectedSlices` are there for finite
width only, and sets have the order of iteration. -/
structure ResultJ where
  cost : PyJ
  runtime : PyJ
  path : List (ℕ × ℕ)
  disconnectedCosts : List PyJ
  disconnectedPaths : List (List (ℕ × ℕ))
  finite : Option (List (List PyJ) × List PyJ)

/-- app.py:50-51 -/
def ResultJ.base (r : ResultJ) : List (KeyJ × PyJ) := [(.str keyCost, r.cost), (.str keyRuntime, r.runtime), (.str keyPath, pathJ r.path)]

/-- infinite_memory/sa.py:51-53, finite_width/sa.py:56-60; the costs of the parts are left out by the code. -/
def ResultJ.default (r : ResultJ) : PyJ :=
  match r.finite with
  | none => .dict (r.base ++ [(.str keyPaths, .list (r.disconnectedPaths.map pathJ))])
  | some (ds, s) =>
    .dict (r.base ++ [(.str keyPaths, .list (r.disconnectedPaths.map pathJ)), (.str keyDSlices, .list (ds.map PyJ.frozenset)), (.str keySlices, .frozenset s)])

/-- infinite_memory/sa.py:78-86, finite_width/sa.py:94-102 `to_json` -/
def ResultJ.toJson (r : ResultJ) : Except AppErr (List ℕ) :=
  match r.finite with
  | none => r.default.dumps .infinite
  | some _ => r.default.dumps .finite

end TNCO
