import Verif.Model.Tree

/-!
# Specification: what a contraction tree is

A `PTree` is an inductive binary tree whose nodes carry vector positions.
`WellFormed T t` says that the vector `T` is exactly the encoding of `t`: child
and parent pointers agree, each position of the vector is used exactly once,
leaves come first and the root is last.
-/

namespace TNCO

/-- Full binary trees with a position at every node. -/
inductive PTree where
  | leaf (p : ℕ)
  | node (p : ℕ) (l r : PTree)
deriving DecidableEq, Repr

namespace PTree

/-- The position of the root. -/
def root : PTree → ℕ
  | leaf p => p
  | node p _ _ => p

/-- All positions, children before parents, left before right. -/
def postorder : PTree → List ℕ
  | leaf p => [p]
  | node p l r => l.postorder ++ r.postorder ++ [p]

/-- Positions of the leaves, left to right. -/
def leaves : PTree → List ℕ
  | leaf p => [p]
  | node _ l r => l.leaves ++ r.leaves

/-- Positions of the internal nodes, children before parents. -/
def internals : PTree → List ℕ
  | leaf _ => []
  | node p l r => l.internals ++ r.internals ++ [p]

/-- The vector `N` stores the tree below a node whose parent field is `par`. -/
def Encodes (N : ℕ → Node) (par : Option ℕ) : PTree → Prop
  | leaf p => N p = ⟨none, none, par⟩
  | node p l r => N p = ⟨some l.root, some r.root, par⟩ ∧
      Encodes N (some p) l ∧ Encodes N (some p) r

/-- `s` occurs as a subtree. -/
inductive Sub (s : PTree) : PTree → Prop where
  | refl : Sub s s
  | left {p l r} : Sub s l → Sub s (node p l r)
  | right {p l r} : Sub s r → Sub s (node p l r)

end PTree

/-- The vector `T` is the encoding of the rooted full binary tree `t`. -/
structure WellFormed (T : Tree) (t : PTree) : Prop where
  enc : t.Encodes T.nodes none
  nodup : t.postorder.Nodup
  mem : ∀ p, p ∈ t.postorder ↔ p < T.size
  root : t.root = T.size - 1
  leaves : ∀ p, p ∈ t.leaves ↔ p < (T.size + 1) / 2

/-- `T` is a contraction tree: it encodes some rooted full binary tree. -/
def IsTree (T : Tree) : Prop := ∃ t, WellFormed T t

end TNCO
