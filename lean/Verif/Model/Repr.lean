import Verif.Model.CostModel
import Verif.Model.PyNode
import Verif.Model.CostText
import Verif.Model.CTree
import Verif.Model.OrderedFrozenSet

/-!
# What objects show

`__repr__` of the Python cost models (infinite_memory/cost_model.py, finite_width/cost_model.py), of trees and
optimizers (ctree.py, optimizer.py), networks (tn.py), ordered sets (ordered_frozenset.py) and of the C++ probabilities (prob/greedy.hpp, prob/mh.hpp).

Arguments: the `repr` of a `float` (`f`, and `w` for widths), and the `repr` of a `frozenset` (`show`), which
depends on the order in which Python iterates over it. `beta` only for whole numbers, as costs in
`Model/CostText.lean`.
-/

namespace TNCO

variable {ι W : Type}

/-- `str` of an `int`. -/
def intChars : ℤ → List Char
  | .ofNat n => decChars n
  | .negSucc n => '-' :: decChars (n + 1)

/-- `str` of a number. -/
def PyNum.text (f : ℚ → List Char) : PyNum → List Char
  | .int z => intChars z
  | .float q => f q

/-- `str` of `n_projs`. -/
def projsText (f : ℚ → List Char) : Option PyNum → List Char
  | none => "None".toList
  | some n => n.text f

/-- infinite_memory/cost_model.py:212-215, finite_width/cost_model.py:368-371. -/
def PyCost.tail (f : ℚ → List Char) (shows : Finset ι → List Char) (m : PyCost ι) : List Char :=
  match m.sparse with
  | none => ")".toList
  | some s => ", sparse_inds=".toList ++ (shows s ++ (", n_projs=".toList ++ (projsText f m.nProjs ++ ")".toList)))

/-- infinite_memory/cost_model.py:209-216 `__repr__`. -/
def PyCost.repr (f : ℚ → List Char) (shows : Finset ι → List Char) (m : PyCost ι) : List Char :=
  "SimpleCostModel(".toList ++ ("cost_type=".toList ++ (m.costType.toList ++ m.tail f shows))

/-- finite_width/cost_model.py:363-373 `__repr__`. -/
def PyFwCost.repr (f : ℚ → List Char) (w : W → List Char) (shows : Finset ι → List Char) (m : PyFwCost ι W) : List Char :=
  "SimpleCostModel(".toList ++ ("max_width=".toList ++ (w m.maxWidth ++ (", width_type=".toList ++ (m.widthType.toList ++
    (", cost_type=".toList ++ (m.costType.toList ++ m.tail f shows))))))

/-- ctree.py:266-267 `__repr__` (`len` is the number of nodes, tree.hpp:213; `n_inds`, ctree.hpp:154). -/
def CTree.repr (c : CTree) : List Char :=
  "ContractionTree(n_nodes=".toList ++ (decChars c.tree.size ++ (", n_inds=".toList ++ (decChars c.nInds ++ ")".toList)))

/-- tn.py:270-272 `__repr__`, from the numbers of tensors and of indices. -/
def networkRepr (tensors inds : ℕ) : List Char :=
  "TensorNetwork(n_tensors=".toList ++ (decChars tensors ++ (", n_inds=".toList ++ (decChars inds ++ ")".toList)))

/-- infinite_memory/optimizer.py:247-248, finite_width/optimizer.py:350-351 `__repr__`; `model` is the `repr` of the cost model. -/
def optimizerRepr (c : CTree) (model : List Char) : List Char :=
  "Optimizer(ctree=".toList ++ (c.repr ++ (", cmodel=".toList ++ (model ++ ")".toList)))

/-- The C++ probabilities: `Greedy`, or `MetropolisHastings` with a whole number `beta`. -/
inductive ProbCore where
  | greedy
  | mh (beta : ℕ)
deriving DecidableEq

/-- prob/greedy.hpp:57-60 and prob/mh.hpp:72-76 `__repr__`. -/
def ProbCore.repr (costType : String) : ProbCore → List Char
  | .greedy => "Greedy(cost_type=".toList ++ (costType.toList ++ ")".toList)
  | .mh b => "MetropolisHastings(beta=".toList ++ ((streamText b).map Char.ofNat ++ (", cost_type=".toList ++ (costType.toList ++ ")".toList)))

/-- The elements of a tuple after the first, and its end. -/
def tupleTail {α : Type} (r : α → List Char) : List α → List Char
  | [] => ")".toList
  | a :: l => ", ".toList ++ (r a ++ tupleTail r l)

/-- `str` of a tuple, from the `repr` of its elements; a single element is followed by a comma. -/
def tupleText {α : Type} (r : α → List Char) : List α → List Char
  | [] => "()".toList
  | [a] => "(".toList ++ (r a ++ ",)".toList)
  | a :: b :: l => "(".toList ++ (r a ++ tupleTail r (b :: l))

/-- ordered_frozenset.py:45-46 `__repr__` and 48-49 `__str__`. -/
def OFS.repr {α : Type} (r : α → List Char) (s : OFS α) : List Char :=
  "OrderedFrozenSet(".toList ++ (tupleText r s.order ++ ")".toList)

end TNCO
