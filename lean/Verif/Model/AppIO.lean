import Mathlib.Data.Rat.Defs
import Mathlib.Data.List.Basic

/-!
# `tnco/app/app.py`: the choice of the optimizer, `dump_results` and `load_file`

Strings are lists of code points, bytes lists of numbers. The libraries for JSON, pickle, gzip and bz2, the file system and the case
tables are parameters.
-/

namespace TNCO

/-- The exceptions of this file. `dataError` stands for the ones of `gzip.decompress` and `bz2.decompress`, `osError` for the ones of `open`. -/
inductive AppErr where
  | typeError | valueError | fileExists | osError | unicodeDecode | recursion | dataError
deriving DecidableEq, Repr

/-! ## Choice of the optimizer -/

/-- The argument `max_width`: `None` or a float. -/
inductive WidthArg where
  | none | nan | negInf | posInf | num (q : ℚ)
deriving DecidableEq

/-- `w < float('inf')`; not asked for `None`. -/
def WidthArg.ltInf : WidthArg → Bool
  | .none => false
  | .nan => false
  | .negInf => true
  | .posInf => false
  | .num _ => true

/-- app.py:857-861: `true` for `tnco.app.finite_width`, `false` for `tnco.app.infinite_memory`. -/
def finiteWidthModule (w : WidthArg) : Bool := decide (w ≠ .none) && w.ltInf

/-! ## `dump_results` -/

/-- What `dump_results` uses of its surroundings: `str.lower`, `validate_filepath`, `Path.exists`, opening a file for writing, `str.encode`, `gzip`, `bz2`,
`pickle` and the two `to_json`. -/
structure DumpEnv (T R : Type) where
  lower : List ℕ → List ℕ
  valid : List ℕ → Bool
  present : List ℕ → Bool
  writable : List ℕ → Bool
  encode : List ℕ → List ℕ
  gz : List ℕ → List ℕ
  bz : List ℕ → List ℕ
  pickle : T × List R → List ℕ
  tnJson : T → Except AppErr (List ℕ)
  resJson : R → Except AppErr (List ℕ)

/-- The arguments of `dump_results` (app.py:567-574); `extra` says whether there are other keyword arguments. -/
structure DumpArgs where
  format : Option (List ℕ) := none
  filename : Option (List ℕ) := none
  compression : List ℕ := [97, 117, 116, 111]
  overwrite : Bool := false
  checkOnly : Bool := false
  extra : Bool := false

/-- What is returned or written. -/
inductive DumpOut (T R : Type) where
  | nothing
  | object (o : T × List R)
  | text (s : List ℕ)
  | file (name bytes : List ℕ)
deriving DecidableEq

/-- `'raw'` -/
def rawText : List ℕ := [114, 97, 119]
/-- `'json'` -/
def jsonText : List ℕ := [106, 115, 111, 110]
/-- `'auto'` -/
def autoText : List ℕ := [97, 117, 116, 111]
/-- `'none'` -/
def noneText : List ℕ := [110, 111, 110, 101]
/-- `'bz2'` -/
def bz2Text : List ℕ := [98, 122, 50]
/-- `'gzip'` -/
def gzipText : List ℕ := [103, 122, 105, 112]

/-- `str.split('/')` -/
def splitSlash : List ℕ → List (List ℕ)
  | [] => [[]]
  | c :: s =>
    if c = 47 then [] :: splitSlash s
    else
      match splitSlash s with
      | [] => [[c]]
      | l :: ls => (c :: l) :: ls

/-- `Path(p).name`: the last part that is neither empty nor `.`. -/
def pathName (p : List ℕ) : List ℕ := (((splitSlash p).filter fun l => l ≠ [] ∧ l ≠ [46]).getLast?).getD []

/-- `Path(p).suffix` of a name: what starts at the last dot, if there is something on both sides of it. -/
def nameSuffix (name : List ℕ) : List ℕ :=
  if (name.reverse.takeWhile (· ≠ 46)).reverse = [] ∨ name.length ≤ (name.reverse.takeWhile (· ≠ 46)).reverse.length + 1 then []
  else 46 :: (name.reverse.takeWhile (· ≠ 46)).reverse

/-- app.py:628-629: the format, `raw` if there is none. -/
def dumpFormat {T R : Type} (env : DumpEnv T R) (a : DumpArgs) : List ℕ :=
  match a.format with
  | none => rawText
  | some f => env.lower f

/-- app.py:634-638: whether the file name is rejected; the empty one is not looked at. -/
def badFilename {T R : Type} (env : DumpEnv T R) (a : DumpArgs) : Bool :=
  match a.filename with
  | none => false
  | some f => decide (f ≠ []) && !env.valid f

/-- app.py:641-646: whether the file is there already; a `Path` is true, also the empty one. -/
def fileTaken {T R : Type} (env : DumpEnv T R) (a : DumpArgs) : Bool :=
  match a.filename with
  | none => false
  | some f => !a.overwrite && env.present f

/-- app.py:620-654: all that is done before the check for `check_only`; the format, the file name and the compression. Line 651 asks for an empty
`output_compression` instead of an empty `output_filename`. -/
def dumpCheck {T R : Type} (env : DumpEnv T R) (a : DumpArgs) : Except AppErr (List ℕ × Option (List ℕ) × List ℕ) :=
  if a.extra then .error .typeError
  else if dumpFormat env a ∉ [rawText, jsonText] then .error .valueError
  else if badFilename env a then .error .valueError
  else if fileTaken env a then .error .fileExists
  else if env.lower a.compression ∉ [autoText, noneText, bz2Text, gzipText] then .error .valueError
  else if env.lower a.compression ∉ [autoText, noneText] ∧ env.lower a.compression = [] then .error .valueError
  else .ok (dumpFormat env a, a.filename, env.lower a.compression)

/-- `', '.join(map(lambda r: r.to_json(), res))` -/
def joinRes {T R : Type} (env : DumpEnv T R) : List R → Except AppErr (List ℕ)
  | [] => .ok []
  | [r] => env.resJson r
  | r :: r' :: rs =>
    match env.resJson r with
    | .error e => .error e
    | .ok s =>
      match joinRes env (r' :: rs) with
      | .error e => .error e
      | .ok t => .ok (s ++ [44, 32] ++ t)

/-- app.py:660-667: `{"tn" : ..., "res" : [...]}`. -/
def dumpJson {T R : Type} (env : DumpEnv T R) (tn : T) (res : List R) : Except AppErr (List ℕ) :=
  match env.tnJson tn with
  | .error e => .error e
  | .ok s =>
    match joinRes env res with
    | .error e => .error e
    | .ok t => .ok ([123, 34, 116, 110, 34, 32, 58, 32] ++ s ++ [44, 32, 34, 114, 101, 115, 34, 32, 58, 32] ++ ([91] ++ t ++ [93]) ++ [125])

/-- app.py:671-681: how the file is compressed. -/
inductive Compress where
  | gzip | bz2 | plain
deriving DecidableEq

/-- app.py:671-681. -/
def chooseCompress (name compression : List ℕ) : Compress :=
  let suffix := if compression = autoText then (nameSuffix (pathName name)).drop 1 else compression
  if suffix = gzipText then .gzip else if suffix = bz2Text then .bz2 else .plain

/-- What `write` leaves in the file. -/
def compressBytes {T R : Type} (env : DumpEnv T R) : Compress → List ℕ → List ℕ
  | .gzip, b => env.gz b
  | .bz2, b => env.bz b
  | .plain, b => b

/-- app.py:567-704. A text that is not compressed is encoded by `io.open`. -/
def dumpResults {T R : Type} (env : DumpEnv T R) (a : DumpArgs) (tn : T) (res : List R) : Except AppErr (DumpOut T R) :=
  match dumpCheck env a with
  | .error e => .error e
  | .ok (format, filename, compression) =>
    if a.checkOnly then .ok .nothing
    else
      match if format = jsonText then (dumpJson env tn res).map some else .ok none with
      | .error e => .error e
      | .ok output =>
        match filename with
        | none =>
          match output with
          | some s => .ok (.text s)
          | none => .ok (.object (tn, res))
        | some f =>
          if env.writable f = false then .error .osError
          else
            match output with
            | some s => .ok (.file f (compressBytes env (chooseCompress f compression) (env.encode s)))
            | none => .ok (.file f (compressBytes env (chooseCompress f compression) (env.pickle (tn, res))))

/-! ## `load_file` -/

/-- What `load_file` uses: `gzip.decompress`, `bz2.decompress`, `bytes.decode`, `json.loads`. -/
structure LoadEnv (V : Type) where
  gunzip : List ℕ → Option (List ℕ)
  bunzip : List ℕ → Option (List ℕ)
  decode : List ℕ → Option (List ℕ)
  loads : List ℕ → Option V

/-- What `load_file` returns. -/
inductive Loaded (V : Type) where
  | json (v : V)
  | text (s : List ℕ)
  | binary (b : List ℕ)
deriving DecidableEq

/-- app.py:115-141: `load`; `fuel` is the recursion limit of the interpreter. Only `JSONDecodeError` is caught in the attempt to read JSON, so that the
`UnicodeDecodeError` of `decode` is passed on. -/
def loadBytes {V : Type} (env : LoadEnv V) : ℕ → List ℕ → Except AppErr (Loaded V)
  | 0, _ => .error .recursion
  | fuel + 1, b =>
    if b.take 2 = [31, 139] then
      match env.gunzip b with
      | none => .error .dataError
      | some b' => loadBytes env fuel b'
    else if b.take 2 = [66, 90] then
      match env.bunzip b with
      | none => .error .dataError
      | some b' => loadBytes env fuel b'
    else
      match env.decode b with
      | none => .error .unicodeDecode
      | some s =>
        match env.loads s with
        | some v => .ok (.json v)
        | none =>
          match env.decode b with
          | some s => .ok (.text s)
          | none => .ok (.binary b)

/-- app.py:90-145. `read` is `open` and `read`; the condition of lines 110-112 is never met, since `exists` is not called. -/
def loadFile {V : Type} (env : LoadEnv V) (valid : List ℕ → Bool) (read : List ℕ → Option (List ℕ)) (fuel : ℕ) (name : List ℕ) : Except AppErr (Loaded V) :=
  if valid name = false then .error .valueError
  else
    match read name with
    | none => .error .osError
    | some b => loadBytes env fuel b

end TNCO
