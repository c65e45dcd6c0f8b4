import Verif.Model.Json

/-!
# Specification: reading JSON

A reader for JSON texts (RFC 8259), with `NaN`, `Infinity` and `-Infinity` as in Python. Numbers are kept as they are written.
-/

namespace TNCO

/-- A JSON value. -/
inductive Json where
  | null
  | bool (b : Bool)
  | num (token : List ℕ)
  | str (s : List ℕ)
  | arr (l : List Json)
  | obj (m : List (List ℕ × Json))

def isWs (c : ℕ) : Bool := c == 32 || c == 9 || c == 10 || c == 13

def skipWs : List ℕ → List ℕ
  | [] => []
  | c :: s => if isWs c then skipWs s else c :: s

def isDec (c : ℕ) : Bool := decide (48 ≤ c) && decide (c ≤ 57)

/-- Characters of numbers: digits, `+`, `-`, `.`, `e` and `E`. -/
def isNumChar (c : ℕ) : Bool := isDec c || c == 43 || c == 45 || c == 46 || c == 101 || c == 69

/-- An exponent, or nothing. -/
def exponentOk : List ℕ → Bool
  | [] => true
  | e :: s =>
    (e == 101 || e == 69) &&
      match s with
      | 43 :: d => !d.isEmpty && d.all isDec
      | 45 :: d => !d.isEmpty && d.all isDec
      | d => !d.isEmpty && d.all isDec

/-- A fraction or nothing, and an exponent or nothing. -/
def fractionOk : List ℕ → Bool
  | 46 :: s => !(s.takeWhile isDec).isEmpty && exponentOk (s.dropWhile isDec)
  | s => exponentOk s

/-- A number without sign: no leading zeros. -/
def unsignedOk (s : List ℕ) : Bool :=
  match s.takeWhile isDec with
  | [] => false
  | [_] => fractionOk (s.dropWhile isDec)
  | c :: _ :: _ => c != 48 && fractionOk (s.dropWhile isDec)

def numberOk : List ℕ → Bool
  | 45 :: s => unsignedOk s
  | s => unsignedOk s

def nanText : List ℕ := [78, 97, 78]
def infText : List ℕ := [73, 110, 102, 105, 110, 105, 116, 121]

/-- A number or one of the three names. -/
def readNumber (s : List ℕ) : Option (Json × List ℕ) :=
  if s.take 3 = nanText then some (.num nanText, s.drop 3)
  else if s.take 8 = infText then some (.num infText, s.drop 8)
  else if s.take 9 = 45 :: infText then some (.num (45 :: infText), s.drop 9)
  else if numberOk (s.takeWhile isNumChar) then some (.num (s.takeWhile isNumChar), s.dropWhile isNumChar)
  else none

/-- The value of a hexadecimal digit. -/
def hexValue (c : ℕ) : Option ℕ :=
  if isDec c then some (c - 48)
  else if 97 ≤ c ∧ c ≤ 102 then some (c - 87)
  else if 65 ≤ c ∧ c ≤ 70 then some (c - 55)
  else none

/-- Four hexadecimal digits. -/
def readHex : List ℕ → Option (ℕ × List ℕ)
  | a :: b :: c :: d :: s =>
    match hexValue a, hexValue b, hexValue c, hexValue d with
    | some a, some b, some c, some d => some (a * 4096 + b * 256 + c * 16 + d, s)
    | _, _, _, _ => none
  | _ => none

/-- What follows a backslash that is not a `u`. -/
def simpleEscape (c : ℕ) : Option ℕ :=
  if c = 34 then some 34 else if c = 92 then some 92 else if c = 47 then some 47 else if c = 98 then some 8 else if c = 102 then some 12
  else if c = 110 then some 10 else if c = 114 then some 13 else if c = 116 then some 9 else none

/-- `\uXXXX` after the `u`: a code point, or two halves of one. -/
def readUnicode (s : List ℕ) : Option (ℕ × List ℕ) :=
  match readHex s with
  | none => none
  | some (h, r) =>
    if 55296 ≤ h ∧ h < 56320 then
      match r with
      | 92 :: 117 :: r' =>
        match readHex r' with
        | some (l, r'') => if 56320 ≤ l ∧ l < 57344 then some (65536 + (h - 55296) * 1024 + (l - 56320), r'') else some (h, r)
        | none => some (h, r)
      | _ => some (h, r)
    else some (h, r)

/-- A string after its opening quote; the number bounds the code points. -/
def readString : ℕ → List ℕ → Option (List ℕ × List ℕ)
  | 0, _ => none
  | _ + 1, [] => none
  | n + 1, c :: s =>
    if c = 34 then some ([], s)
    else if c < 32 then none
    else if c = 92 then
      match s with
      | [] => none
      | x :: r =>
        if x = 117 then
          match readUnicode r with
          | none => none
          | some (u, r') => (readString n r').map fun p => (u :: p.1, p.2)
        else
          match simpleEscape x with
          | none => none
          | some u => (readString n r).map fun p => (u :: p.1, p.2)
    else (readString n s).map fun p => (c :: p.1, p.2)

mutual
/-- A value and what follows; the number bounds the nesting and the numbers of members. -/
def readValue : ℕ → List ℕ → Option (Json × List ℕ)
  | 0, _ => none
  | n + 1, s =>
    match skipWs s with
    | [] => none
    | c :: r =>
      if c = 34 then (readString (r.length + 1) r).map fun p => (.str p.1, p.2)
      else if c = 91 then
        if (skipWs r).head? = some 93 then some (.arr [], (skipWs r).tail) else (readElements n r).map fun p => (.arr p.1, p.2)
      else if c = 123 then
        if (skipWs r).head? = some 125 then some (.obj [], (skipWs r).tail) else (readMembers n r).map fun p => (.obj p.1, p.2)
      else if (c :: r).take 4 = nullText then some (.null, (c :: r).drop 4)
      else if (c :: r).take 4 = boolText true then some (.bool true, (c :: r).drop 4)
      else if (c :: r).take 5 = boolText false then some (.bool false, (c :: r).drop 5)
      else readNumber (c :: r)
/-- The elements of an array and its bracket. -/
def readElements : ℕ → List ℕ → Option (List Json × List ℕ)
  | 0, _ => none
  | n + 1, s =>
    match readValue n s with
    | none => none
    | some (v, r) =>
      if (skipWs r).head? = some 93 then some ([v], (skipWs r).tail)
      else if (skipWs r).head? = some 44 then (readElements n (skipWs r).tail).map fun p => (v :: p.1, p.2)
      else none
/-- The members of an object and its brace. -/
def readMembers : ℕ → List ℕ → Option (List (List ℕ × Json) × List ℕ)
  | 0, _ => none
  | n + 1, s =>
    if (skipWs s).head? = some 34 then
      match readString (s.length + 1) (skipWs s).tail with
      | none => none
      | some (k, r) =>
        if (skipWs r).head? = some 58 then
          match readValue n (skipWs r).tail with
          | none => none
          | some (v, r') =>
            if (skipWs r').head? = some 125 then some ([(k, v)], (skipWs r').tail)
            else if (skipWs r').head? = some 44 then (readMembers n (skipWs r').tail).map fun p => ((k, v) :: p.1, p.2)
            else none
        else none
    else none
end

/-- `json.loads`, with the members of an object in order. -/
def readJson (s : List ℕ) : Option Json :=
  match readValue (s.length + 1) s with
  | some (v, r) => if skipWs r = [] then some v else none
  | none => none

/-! ## The values of Python objects -/

/-- The text of a Python float: a number, or the names of infinities and NaN. -/
def FloatOk (r : List ℕ) : Prop := numberOk r = true ∨ r = nanText ∨ r = infText ∨ r = 45 :: infText

/-- A code point that is not half of another one. -/
def CharOk (c : ℕ) : Prop := c < 55296 ∨ (57344 ≤ c ∧ c < 1114112)

def TextOk (s : List ℕ) : Prop := ∀ c ∈ s, CharOk c

def KeyJ.Ok : KeyJ → Prop
  | .float r => FloatOk r
  | .str s => TextOk s
  | _ => True

mutual
/-- The texts in an object are texts, and its floats are numbers. -/
def PyJ.Ok : PyJ → Prop
  | .float r => FloatOk r
  | .str s => TextOk s
  | .list l => PyJ.OkAll l
  | .tuple l => PyJ.OkAll l
  | .dict m => PyJ.OkDict m
  | .frozenset l => PyJ.OkAll l
  | .complex re im => TextOk re ∧ TextOk im
  | .decimal s => TextOk s
  | .cirqQubit r => TextOk r
  | .toJson s => TextOk s
  | _ => True
def PyJ.OkAll : List PyJ → Prop
  | [] => True
  | o :: l => o.Ok ∧ PyJ.OkAll l
def PyJ.OkDict : List (KeyJ × PyJ) → Prop
  | [] => True
  | (k, o) :: m => k.Ok ∧ o.Ok ∧ PyJ.OkDict m
end

mutual
/-- The value of an object for an encoder; `none` if there is none. -/
def PyJ.value (e : EncoderJ) : PyJ → Option Json
  | .none => some .null
  | .bool b => some (.bool b)
  | .int z => some (.num (intText z))
  | .float r => some (.num r)
  | .str s => some (.str s)
  | .list l => (PyJ.values e l).map .arr
  | .tuple l => (PyJ.values e l).map .arr
  | .dict m => (PyJ.members e m).map .obj
  | .frozenset l => if e = .infinite then Option.none else (PyJ.values e l).map .arr
  | .complex re im => if e = .network then some (.str (re ++ [32, 43, 32] ++ im ++ [106])) else Option.none
  | .decimal s => if e = .network then Option.none else some (.str s)
  | .cirqQubit r => if e = .infinite then Option.none else some (.str r)
  | .toJson s => some (.str s)
  | .other => Option.none
def PyJ.values (e : EncoderJ) : List PyJ → Option (List Json)
  | [] => some []
  | o :: l => (PyJ.value e o).bind fun v => (PyJ.values e l).map (v :: ·)
def PyJ.members (e : EncoderJ) : List (KeyJ × PyJ) → Option (List (List ℕ × Json))
  | [] => some []
  | (k, o) :: m => (keyText k).bind fun k => (PyJ.value e o).bind fun v => (PyJ.members e m).map ((k, v) :: ·)
end

/-- The integer that a token stands for. -/
def natValue (s : List ℕ) : ℕ := s.foldl (fun n c => 10 * n + (c - 48)) 0

def intValue : List ℕ → ℤ
  | 45 :: s => -(natValue s : ℤ)
  | s => natValue s

/-- Members of objects and arrays. -/
def Json.field (k : List ℕ) : Json → Option Json
  | .obj m => (m.find? fun p => p.1 == k).map Prod.snd
  | _ => none

/-- The value at a position of nested arrays. -/
def Json.entry : Json → List ℕ → Option Json
  | j, [] => some j
  | .arr l, i :: idx => (l[i]?).bind fun j => j.entry idx
  | _, _ :: _ => none

mutual
/-- Indices that differ if their values do: `None`, Booleans, integers, strings and tuples of such. -/
def PyJ.Plain : PyJ → Prop
  | .none => True
  | .bool _ => True
  | .int _ => True
  | .str _ => True
  | .tuple l => PyJ.PlainAll l
  | _ => False
def PyJ.PlainAll : List PyJ → Prop
  | [] => True
  | o :: l => o.Plain ∧ PyJ.PlainAll l
end

/-- Python numbers. -/
def PyJ.IsNumber : PyJ → Prop
  | .bool _ => True
  | .int _ => True
  | .float _ => True
  | .complex _ _ => True
  | _ => False

/-- A key and an object that can be written. -/
def ItemWritable (e : EncoderJ) (p : KeyJ × PyJ) : Prop := keyText p.1 ≠ none ∧ p.2.value e ≠ none

/-- The members of a dictionary. -/
def WrittenItem (e : EncoderJ) (p : KeyJ × PyJ) (q : List ℕ × Json) : Prop := keyText p.1 = some q.1 ∧ p.2.value e = some q.2

/-- The members of a list. -/
def Written (e : EncoderJ) (o : PyJ) (v : Json) : Prop := o.value e = some v

/-- Nested arrays of a shape. -/
def Json.HasShape : Json → List ℕ → Prop
  | _, [] => True
  | .arr l, d :: ds => l.length = d ∧ ∀ j ∈ l, j.HasShape ds
  | _, _ :: _ => False

def natJson (n : ℕ) : Json := .num (intText n)

/-- The nested arrays of a tensor; `null` without array. -/
structure WrittenArray (a : Option (NDArray PyJ)) (j : Json) : Prop where
  null : a = none → j = .null
  shape : ∀ A, a = some A → j.HasShape A.shape
  entries : ∀ A, a = some A → ∀ idx, List.Forall₂ (· < ·) idx A.shape → ∃ v, (A.get idx).value .network = some v ∧ j.entry idx = some v

/-- The object of a tensor. -/
def WrittenTensor (t : TensorJ) (j : Json) : Prop :=
  ∃ is a tags, j = .obj [(keyInds, .arr is), (keyDims, .arr (t.dims.map natJson)), (keyArray, a), (keyTags, .obj tags)] ∧
    List.Forall₂ (Written .network) t.inds is ∧ WrittenArray t.array a ∧ List.Forall₂ (WrittenItem .network) t.tags tags

/-- The object of a network. -/
def WrittenNetwork (N : NetworkJ) (j : Json) : Prop :=
  ∃ ts out sp, j = .obj [(keyTensors, .arr ts), (keyOutput, .arr out), (keySparse, .arr sp)] ∧
    List.Forall₂ WrittenTensor N.tensors ts ∧ List.Forall₂ (Written .network) N.output out ∧ List.Forall₂ (Written .network) N.sparse sp

/-- Something in a tensor that cannot be written: an index, an entry or a tag. -/
def TensorJ.Unwritable (t : TensorJ) : Prop :=
  (∃ o ∈ t.inds, o.value .network = none) ∨ (∃ A, t.array = some A ∧ ∃ idx, List.Forall₂ (· < ·) idx A.shape ∧ (A.get idx).value .network = none) ∨
    ∃ p ∈ t.tags, ¬ ItemWritable .network p

/-- The texts and floats of a tensor are texts and floats. -/
structure TensorJ.Ok (t : TensorJ) : Prop where
  inds : ∀ o ∈ t.inds, o.Ok
  entries : ∀ A, t.array = some A → ∀ idx, List.Forall₂ (· < ·) idx A.shape → (A.get idx).Ok
  tags : ∀ p ∈ t.tags, p.1.Ok ∧ p.2.Ok

structure NetworkJ.Ok (N : NetworkJ) : Prop where
  tensors : ∀ t ∈ N.tensors, t.Ok
  output : ∀ o ∈ N.output, o.Ok
  sparse : ∀ o ∈ N.sparse, o.Ok

/-- A path as an array of pairs. -/
def pathJson (p : List (ℕ × ℕ)) : Json := .arr (p.map fun q => .arr [natJson q.1, natJson q.2])

/-- The encoder of a result. -/
def ResultJ.encoder (r : ResultJ) : EncoderJ := if r.finite.isNone then .infinite else .finite

/-- The object of a result. -/
def WrittenResult (r : ResultJ) (j : Json) : Prop :=
  ∃ c t more, j = .obj ([(keyCost, c), (keyRuntime, t), (keyPath, pathJson r.path), (keyPaths, .arr (r.disconnectedPaths.map pathJson))] ++ more) ∧
    Written r.encoder r.cost c ∧ Written r.encoder r.runtime t ∧
    (r.finite = none → more = []) ∧
    ∀ ds s, r.finite = some (ds, s) → ∃ js j', more = [(keyDSlices, .arr js), (keySlices, .arr j')] ∧ List.Forall₂ (Written .finite) s j' ∧
      List.Forall₂ (fun d j => ∃ l, j = Json.arr l ∧ List.Forall₂ (Written .finite) d l) ds js

/-- The texts and floats of a result are texts and floats. -/
structure ResultJ.Ok (r : ResultJ) : Prop where
  cost : r.cost.Ok
  runtime : r.runtime.Ok
  slices : ∀ ds s, r.finite = some (ds, s) → (∀ o ∈ s, o.Ok) ∧ ∀ d ∈ ds, ∀ o ∈ d, o.Ok

/-- Something in a result that cannot be written. -/
def ResultJ.Unwritable (r : ResultJ) : Prop :=
  r.cost.value r.encoder = none ∨ r.runtime.value r.encoder = none ∨
    ∃ ds s, r.finite = some (ds, s) ∧ ((∃ o ∈ s, o.value .finite = none) ∨ ∃ d ∈ ds, ∃ o ∈ d, o.value .finite = none)

end TNCO
