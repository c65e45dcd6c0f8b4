import Verif.Model.LoadObj

/-!
# Specification: what `load_tn` takes for a list of indices or for a list of gates
-/

namespace TNCO

/-- An integer, or an array with one entry that is an integer. -/
inductive IntLike : PyObj → Prop where
  | num (n : ℤ) : IntLike (.num (.rat n))
  | array (sh : List ℕ) (n : ℤ) : sh.prod = 1 → IntLike (.array sh [.rat n])

/-- A dimension and at least one more entry: in a list or tuple, in an array, or under the keys of a dictionary. -/
inductive RowLike : PyObj → Prop where
  | seq (y : PyObj) (ys : List PyObj) : ys ≠ [] → IntLike y → RowLike (.seq (y :: ys))
  | array (n : ℕ) (sh : List ℕ) (data : List Scalar) : 1 < n → IntLike (PyObj.sub sh data 0) → RowLike (.array (n :: sh) data)
  | dict (ks vs : List PyObj) (y : PyObj) : 1 < ks.length → (PyObj.dict ks vs).item 0 = .ok y → IntLike y → RowLike (.dict ks vs)

/-- An object with `k` entries, which has a first one. -/
inductive Indexed : ℕ → PyObj → Prop where
  | str (s : List ℕ) : s ≠ [] → Indexed s.length (.str s)
  | network (n : ℕ) : 0 < n → Indexed n (.network n)
  | circuit (n : ℕ) : 0 < n → Indexed n (.circuit n)
  | seq (xs : List PyObj) : xs ≠ [] → Indexed xs.length (.seq xs)
  | dict (ks vs : List PyObj) (y : PyObj) : (PyObj.dict ks vs).item 0 = .ok y → Indexed ks.length (.dict ks vs)
  | array (n : ℕ) (sh : List ℕ) (data : List Scalar) : 0 < n → Indexed n (.array (n :: sh) data)

/-- A square matrix and as many qubits as it needs. -/
inductive GateLike : PyObj → Prop where
  | seq (k : ℕ) (data : List Scalar) (qs : PyObj) : Indexed k qs → GateLike (.seq [.array [2 ^ k, 2 ^ k] data, qs])
  | dict (ks vs : List PyObj) (k : ℕ) (data : List Scalar) (qs : PyObj) : ks.length = 2 → (PyObj.dict ks vs).item 0 = .ok (.array [2 ^ k, 2 ^ k] data) →
      (PyObj.dict ks vs).item 1 = .ok qs → Indexed k qs → GateLike (.dict ks vs)

/-- An object where `x[0]` raises an exception that `load_tn` does not expect. -/
def Hollow : PyObj → Prop
  | .str s => s = []
  | .network n => n = 0
  | .circuit n => n = 0
  | .seq xs => xs = []
  | .dict ks vs => ∀ e ∈ ks.zip vs, e.1 ≠ .num (.rat 0)
  | .array sh _ => sh.head? = some 0
  | _ => False

/-- A number which is not infinite, or an object which is no number. -/
def NotInf : PyObj → Prop
  | .num x => x ≠ .inf
  | .array _ data => .inf ∉ data
  | _ => True

/-- The objects in a list for which none of the tests raises an exception; dictionaries are left out. -/
def Tame : PyObj → Prop
  | .str s => s ≠ []
  | .network n => 0 < n
  | .circuit n => 0 < n
  | .seq xs => xs ≠ [] ∧ ∀ x ∈ xs, NotInf x ∧ ¬ Hollow x
  | .dict _ _ => False
  | .array sh data => 0 ∉ sh ∧ .inf ∉ data
  | _ => True

end TNCO
