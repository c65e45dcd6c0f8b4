import Verif.Model.PathBuild
import Mathlib.Data.Nat.Digits.Defs

/-!
# `Node` as Python sees it

`include/tnco/node.hpp:107-181` (the binding) and `get_node` of `tnco/ctree.py:226-234`. `index_type` is `int_fast32_t` (globals.hpp:31), which has 64 bits with
glibc on a machine with 64 bits. An argument that fits no overload is a `TypeError` of pybind11; `invalid_argument` becomes `ValueError`.
-/

namespace TNCO

/-- An argument of `Node`: an integer, a sequence of integers, a node, or anything else. -/
inductive NodeArg where
  | int (z : ℤ)
  | seq (l : List ℤ)
  | node (n : Node)
  | other

/-- The integers that `index_type` (globals.hpp:31) holds. -/
def fitsIndex (z : ℤ) : Bool := decide (-2 ^ 63 ≤ z ∧ z < 2 ^ 63)

/-- The constructor (node.hpp:44-54), with its exception. -/
def nodeMake (x y p : ℤ) : Except PyErr Node :=
  match Node.make x y p with
  | none => .error .invalidArgument
  | some n => .ok n

/-- node.hpp:121-126, `Node(...)`: the overloads with no argument, the parent, the children, both, and a node. -/
def nodeCall : List NodeArg → Except PyErr Node
  | [] => nodeMake (-1) (-1) (-1)                                            -- 57
  | [.int p] => if fitsIndex p then nodeMake (-1) (-1) p else .error .typeError                -- 58
  | [.seq [x, y]] => if fitsIndex x && fitsIndex y then nodeMake x y (-1) else .error .typeError           -- 59
  | [.seq [x, y], .int p] => if fitsIndex x && fitsIndex y && fitsIndex p then nodeMake x y p else .error .typeError
  | [.node n] => .ok n                                                        -- 126
  | _ => .error .typeError

/-- What is stored for a position (node.hpp:38). -/
def storedIndex : Option ℕ → ℤ
  | none => -1
  | some x => x

/-- node.hpp:168-171: what is pickled, the children and the parent. -/
def Node.state (n : Node) : (ℤ × ℤ) × ℤ := ((storedIndex n.c0, storedIndex n.c1), storedIndex n.parent)

/-- node.hpp:172-176 -/
def Node.ofState (s : (ℤ × ℤ) × ℤ) : Except PyErr Node := nodeMake s.1.1 s.1.2 s.2

/-- An entry of the list of nodes that `ContractionTree` takes. -/
inductive NodeEntry where
  | node (n : Node)
  | items (l : List (Option ℤ))

/-- ctree.py:226-234 `get_node`. -/
def getNode : NodeEntry → Except PyErr Node
  | .node n => .ok n                                                          -- 228-230
  | .items [x, y, z] => nodeCall [.seq [x.getD (-1), y.getD (-1)], .int (z.getD (-1))]
  | .items _ => .error .valueError                                            -- 233, unpacking

/-- The decimal digits of a number, as characters. -/
def decChars (n : ℕ) : List Char := if n = 0 then ['0'] else (Nat.digits 10 n).reverse.map fun d => Char.ofNat (48 + d)

/-- `str` of a position or `None` (node.hpp:113-118). -/
def posText : Option ℕ → List Char
  | none => "None".toList
  | some x => decChars x

/-- node.hpp:128-138 `__repr__`. -/
def Node.text (n : Node) : List Char :=
  "Node(parent=".toList ++ posText n.parent ++ ", children=".toList ++ ("(".toList ++ posText n.c0 ++ ", ".toList ++ posText n.c1 ++ ")".toList) ++
    ")".toList

end TNCO
