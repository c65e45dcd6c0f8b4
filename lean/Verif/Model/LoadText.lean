import Verif.Model.Names
import Verif.Model.TensorNetwork

/-!
# Reading a tensor network from text: `tnco/app/app.py` 419-486

A character is its code point. Parameters of the model: `digit`, the value of a decimal digit (`\d` of `re` and `int` use the same table of
Unicode), and `upper`, `str.upper` of one character. Simplifications: `int` accepts any number of digits; the branches for QASM, files and
JSON are only named.
-/

namespace TNCO

/-- `str.isspace`, and `\s` of `re`. -/
def isSpace (c : ℕ) : Bool :=
  decide ((9 ≤ c ∧ c ≤ 13) ∨ (28 ≤ c ∧ c ≤ 32) ∨ c = 133 ∨ c = 160 ∨ c = 5760 ∨ (8192 ≤ c ∧ c ≤ 8202) ∨ c = 8232 ∨ c = 8233 ∨ c = 8239 ∨
    c = 8287 ∨ c = 12288)

/-- The characters where `str.splitlines` ends a line; `\r\n` is one end. -/
def isBreak (c : ℕ) : Bool :=
  decide ((10 ≤ c ∧ c ≤ 13) ∨ (28 ≤ c ∧ c ≤ 30) ∨ c = 133 ∨ c = 8232 ∨ c = 8233)

/-- The loop of `str.splitlines`: whether the last character was `\r`, and the characters of the current line. -/
def splitGo : Bool → List ℕ → List ℕ → List (List ℕ)
  | _, [], [] => []
  | _, c :: cur, [] => [c :: cur]
  | cr, cur, c :: cs =>
    if cr && decide (c = 10) then splitGo false cur cs
    else if isBreak c then cur :: splitGo (decide (c = 13)) [] cs
    else splitGo false (cur ++ [c]) cs

/-- `str.splitlines()` -/
def splitlines (s : List ℕ) : List (List ℕ) := splitGo false [] s

/-- `str.split()`: the words of the rest of a line, the first of which begins with `cur`. -/
def splitWords : List ℕ → List ℕ → List (List ℕ)
  | [], [] => []
  | c :: cur, [] => [c :: cur]
  | [], c :: cs => if isSpace c then splitWords [] cs else splitWords [c] cs
  | d :: cur, c :: cs => if isSpace c then (d :: cur) :: splitWords [] cs else splitWords (d :: cur ++ [c]) cs

/-- `re.sub(r'\s+', ' ', s)`; the flag tells whether the last character was a space. -/
def collapse : Bool → List ℕ → List ℕ
  | _, [] => []
  | sp, c :: cs => if isSpace c then (if sp then collapse true cs else 32 :: collapse true cs) else c :: collapse false cs

/-- `str.strip()` -/
def strip (s : List ℕ) : List ℕ := ((s.dropWhile isSpace).reverse.dropWhile isSpace).reverse

section
variable (digit : ℕ → Option ℕ)

/-- `re.match(r'\d+(\s+\S+)*\s*$', line)` for a line without line ends: after the digits, the line ends or goes on with a space. -/
def isDataLine (l : List ℕ) : Bool :=
  match l with
  | [] => false
  | c :: cs =>
    (digit c).isSome &&
      match cs.dropWhile fun c => (digit c).isSome with
      | [] => true
      | d :: _ => isSpace d

/-- app.py:436 `re.match(r'^(?=\s*\S)(?!#)(?!\d+(\s+\S+)*\s*$).*', line)`: a line that is not blank, does not start with `#` and is not a data
line. -/
def isBadLine (l : List ℕ) : Bool := l.any (fun c => !isSpace c) && !decide (l.head? = some 35) && !isDataLine digit l

/-- `int(word)` for a word of digits. -/
def wordVal (w : List ℕ) : ℕ := w.foldl (fun n c => 10 * n + (digit c).getD 0) 0

/-- app.py:441-443: a data line. -/
def dataRow (l : List ℕ) : ℕ × List (List ℕ) :=
  match splitWords [] (strip (collapse false l)) with
  | [] => (0, [])        -- not reached: the line has digits
  | d :: ts => (wordVal digit d, ts)

/-- What `load_tn` does with a text. -/
inductive TextKind where
  | stdin
  | qasm
  | inds (rows : List (ℕ × List (List ℕ)))
  | other
deriving DecidableEq

/-- `stdin` -/
def stdinText : List ℕ := [115, 116, 100, 105, 110]

/-- `OPENQASM` -/
def qasmText : List ℕ := [79, 80, 69, 78, 81, 65, 83, 77]

/-- app.py:419-461, up to the choice of the format; `mit.first` of nothing is a `ValueError`. -/
def textKind (upper : ℕ → List ℕ) (s : List ℕ) : Except PyErr TextKind :=
  if s = stdinText then .ok .stdin
  else
    match (splitlines s).filter fun l => decide (l.length ≠ 0) && !([47, 47].isPrefixOf l) with
    | [] => .error .valueError                                                              -- 426-428
    | l :: _ =>
      if qasmText.isPrefixOf (l.flatMap upper) then .ok .qasm
      else if (splitlines s).any (isBadLine digit) then .ok .other                          -- 433-437
      else .ok (.inds (((splitlines s).filter (isDataLine digit)).map (dataRow digit)))     -- 439-445

end

/-- app.py:483: the dimension of index `x`, `None` if there is none. -/
def rowDimVal (dims : List (ℕ × ℕ)) (x : ℕ) : DimVal := match dget dims x with | some d => .num (d : ℚ) | none => .other

/-- app.py:480-486: the tensors. -/
def rowTensors (dims : List (ℕ × ℕ)) : List (List ℕ × List ℕ) → Except PyErr (List (Option (TensorRec ℕ)))
  | [] => .ok []
  | (_, xs) :: ts =>
    match mkTensor xs (.list (xs.map (rowDimVal dims))) none with
    | .error e => .error e
    | .ok t =>
      match rowTensors dims ts with
      | .error e => .error e
      | .ok l => .ok (some t :: l)

/-- app.py:471-486 for rows from a text: the network that is passed on to `load_tn`; index `k` is row `k`. A set is passed on as the
list of its elements. Rows without names go on to line 564. -/
def loadRows (rows : List (ℕ × List (List ℕ))) (outTok sparseTok : List ℕ) : Except PyErr (NetworkRec ℕ) :=
  if ∃ r ∈ rows, r.2 = [] then .error .typeError
  else
    match readInds (rows.zipIdx.map fun r => (r.2, r.1.1, r.1.2)) outTok sparseTok with
    | .error e => .error e
    | .ok (ts, dims, out, sparse) =>
      match rowTensors dims ts with
      | .error e => .error e
      | .ok l => mkNetwork l (some ((List.range rows.length).filter (· ∈ out))) (some ((List.range rows.length).filter (· ∈ sparse)))

end TNCO
