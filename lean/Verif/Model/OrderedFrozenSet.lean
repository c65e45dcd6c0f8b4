import Mathlib.Data.Nat.Notation
import Mathlib.Data.List.Basic
import Mathlib.Data.Finset.Basic

/-!
# `tnco/ordered_frozenset.py`

Elements: a type with decidable equality. `_set` is determined by `_order`
(ordered_frozenset.py:41-43).
-/

namespace TNCO

/-- `more_itertools.unique_everseen`: a loop with a set of elements already seen. -/
def uniqueLoop {α : Type} [DecidableEq α] (seen : List α) : List α → List α
  | [] => []
  | x :: l => if x ∈ seen then uniqueLoop seen l else x :: uniqueLoop (x :: seen) l

def uniqueEverseen {α : Type} [DecidableEq α] (l : List α) : List α := uniqueLoop [] l

/-- ordered_frozenset.py:41-43 -/
structure OFS (α : Type) where
  order : List α

namespace OFS
variable {α : Type} [DecidableEq α]

/-- ordered_frozenset.py:41-43 -/
def make (l : List α) : OFS α := ⟨uniqueEverseen l⟩
/-- `self._set` -/
def set (s : OFS α) : Finset α := s.order.toFinset
/-- ordered_frozenset.py:51-52 `__iter__` -/
def iter (s : OFS α) : List α := s.order
/-- ordered_frozenset.py:57-58 `__len__` -/
def len (s : OFS α) : ℕ := s.order.length
/-- ordered_frozenset.py:54-55 `__hash__`, for an arbitrary hash of tuples. -/
def hash {H : Type} (h : List α → H) (s : OFS α) : H := h s.order
/-- ordered_frozenset.py:60-68 -/
def copy (s : OFS α) : OFS α := make s.iter
/-- ordered_frozenset.py:70-86; the other operand is any iterable, converted first. -/
def difference (s : OFS α) (l : List α) : OFS α :=
  make (s.order.filter fun x => x ∉ (make l).set)
/-- ordered_frozenset.py:88-103 -/
def intersection (s : OFS α) (l : List α) : OFS α :=
  make (s.order.filter fun x => x ∈ (make l).set)
/-- ordered_frozenset.py:105-117 -/
def isdisjoint (s : OFS α) (l : List α) : Bool := l.all fun x => x ∉ s.set
/-- ordered_frozenset.py:119-131 -/
def issubset (s : OFS α) (l : List α) : Bool := decide (s.set ⊆ l.toFinset)
/-- ordered_frozenset.py:133-145 -/
def issuperset (s : OFS α) (l : List α) : Bool := decide (l.toFinset ⊆ s.set)
/-- ordered_frozenset.py:147-164 -/
def symmetricDifference (s : OFS α) (l : List α) : OFS α :=
  let o := make l
  let sd := (s.set \ o.set) ∪ (o.set \ s.set)
  make ((s.order ++ o.order).filter fun x => x ∈ sd)
/-- ordered_frozenset.py:166-180 -/
def union (s : OFS α) (l : List α) : OFS α := make (s.order ++ (make l).order)

/-- The right operand of a binary operator. A plain set arrives in an arbitrary iteration
order. -/
inductive Operand (α : Type) where
  | ofs (o : OFS α)
  | set (l : List α)
  | other

/-- The common form of `|`, `&`, `^`, `-` (`none` = `TypeError`). -/
def binop (f : OFS α → List α → OFS α) (s : OFS α) : Operand α → Option (OFS α)
  | .ofs o => some (f s o.iter)
  | .set l => some (f s l)
  | .other => none

/-- The common form of `<`, `<=`, `>`, `>=`, `==` (`none` = `TypeError`). -/
def cmp (r : Finset α → Finset α → Bool) (s : OFS α) : Operand α → Option Bool
  | .ofs o => some (r s.set o.set)
  | .set l => some (r s.set l.toFinset)
  | .other => none

/-- ordered_frozenset.py:182-188 `__or__` -/
def or (s : OFS α) (o : Operand α) : Option (OFS α) := binop union s o
/-- ordered_frozenset.py:190-196 `__and__` -/
def and (s : OFS α) (o : Operand α) : Option (OFS α) := binop intersection s o
/-- ordered_frozenset.py:198-204 `__xor__` -/
def xor (s : OFS α) (o : Operand α) : Option (OFS α) := binop symmetricDifference s o
/-- ordered_frozenset.py:206-212 `__sub__` -/
def sub (s : OFS α) (o : Operand α) : Option (OFS α) := binop difference s o
/-- ordered_frozenset.py:214-222 `__lt__` -/
def lt (s : OFS α) (o : Operand α) : Option Bool := cmp (fun x y => decide (x ⊂ y)) s o
/-- ordered_frozenset.py:224-232 `__le__` -/
def le (s : OFS α) (o : Operand α) : Option Bool := cmp (fun x y => decide (x ⊆ y)) s o
/-- ordered_frozenset.py:234-242 `__gt__` -/
def gt (s : OFS α) (o : Operand α) : Option Bool := cmp (fun x y => decide (y ⊂ x)) s o
/-- ordered_frozenset.py:244-252 `__ge__` -/
def ge (s : OFS α) (o : Operand α) : Option Bool := cmp (fun x y => decide (y ⊆ x)) s o
/-- ordered_frozenset.py:254-262 `__eq__` -/
def eq (s : OFS α) (o : Operand α) : Option Bool := cmp (fun x y => decide (x = y)) s o

end OFS
end TNCO
