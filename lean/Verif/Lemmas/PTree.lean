import Verif.Spec.PTree
import Mathlib.Data.List.Perm.Basic
import Mathlib.Data.List.Nodup
import Mathlib.Tactic.Tauto

/-! Helper lemmas on encoded trees and one-hole contexts. -/

namespace TNCO
namespace PTree

theorem root_mem (t : PTree) : t.root ∈ t.postorder := by
  cases t <;> simp [root, postorder]

theorem postorder_ne_nil (t : PTree) : t.postorder ≠ [] := by
  cases t <;> simp [postorder]

theorem leaves_subset (t : PTree) : ∀ p ∈ t.leaves, p ∈ t.postorder := by
  induction t with
  | leaf p => simp [leaves, postorder]
  | node p l r ihl ihr =>
    intro q hq
    simp only [leaves, postorder, List.mem_append] at *
    tauto

theorem postorder_perm (t : PTree) : t.postorder.Perm (t.leaves ++ t.internals) := by
  induction t with
  | leaf p => simp [leaves, postorder, internals]
  | node p l r ihl ihr =>
    simp only [leaves, postorder, internals]
    refine ((ihl.append ihr).append_right [p]).trans ?_
    rw [List.perm_iff_count]; intro a
    simp only [List.count_append]; omega

theorem length_internals (t : PTree) : t.leaves.length = t.internals.length + 1 := by
  induction t with
  | leaf p => simp [leaves, internals]
  | node p l r ihl ihr => simp [leaves, internals]; omega

theorem length_postorder (t : PTree) : t.postorder.length = 2 * t.leaves.length - 1 := by
  have h1 := t.postorder_perm.length_eq
  have h2 := t.length_internals
  simp at h1; omega

theorem length_leaves_pos (t : PTree) : 0 < t.leaves.length := by
  have := t.length_internals; omega

theorem encodes_congr {N N' : ℕ → Node} {t : PTree} {par}
    (h : ∀ p ∈ t.postorder, N' p = N p) (he : t.Encodes N par) : t.Encodes N' par := by
  induction t generalizing par with
  | leaf p => simp [Encodes, postorder] at *; rw [h, he]
  | node p l r ihl ihr =>
    simp only [Encodes, postorder, List.mem_append, List.mem_singleton] at *
    refine ⟨by rw [h p (by simp)]; exact he.1, ihl (fun q hq => h q (by tauto)) he.2.1,
      ihr (fun q hq => h q (by tauto)) he.2.2⟩

/-- Changing only the parent field of the root re-parents the tree. -/
theorem encodes_reparent {N N' : ℕ → Node} {t : PTree} {par par'}
    (hn : t.postorder.Nodup)
    (hr : N' t.root = { N t.root with parent := par' })
    (h : ∀ p ∈ t.postorder, p ≠ t.root → N' p = N p) (he : t.Encodes N par) :
    t.Encodes N' par' := by
  cases t with
  | leaf p => simp [Encodes, root] at *; rw [hr, he]
  | node p l r =>
    simp only [Encodes, postorder, root, List.mem_append, List.mem_singleton] at *
    have hp : p ∉ l.postorder ∧ p ∉ r.postorder := by
      rw [List.nodup_append] at hn
      constructor
      · intro hh; exact hn.2.2 p (by simp [hh]) p (by simp) rfl
      · intro hh; exact hn.2.2 p (by simp [hh]) p (by simp) rfl
    refine ⟨by rw [hr, he.1], encodes_congr ?_ he.2.1, encodes_congr ?_ he.2.2⟩
    · intro q hq; exact h q (by tauto) (by rintro rfl; exact hp.1 hq)
    · intro q hq; exact h q (by tauto) (by rintro rfl; exact hp.2 hq)

theorem encodes_root_parent {N : ℕ → Node} {t : PTree} {par} (h : t.Encodes N par) :
    (N t.root).parent = par := by
  cases t with
  | leaf p => simp only [Encodes, root] at *; rw [h]
  | node p l r => simp only [Encodes, root] at *; rw [h.1]

/-- A node with two subtrees in the orientation given by `o`. -/
def fork (o : Bool) (p : ℕ) (l r : PTree) : PTree := if o then node p l r else node p r l

@[simp] theorem root_fork (o p l r) : (fork o p l r).root = p := by cases o <;> rfl

theorem postorder_fork (o p l r) : (fork o p l r).postorder.Perm (p :: (l.postorder ++ r.postorder)) := by
  cases o
  · simp only [fork, postorder]
    refine (List.perm_append_singleton _ _).trans ?_
    exact List.Perm.cons _ List.perm_append_comm
  · simp only [fork, postorder]
    exact (List.perm_append_singleton _ _)

theorem leaves_fork (o p l r) : (fork o p l r).leaves.Perm (l.leaves ++ r.leaves) := by
  cases o
  · simp only [fork, leaves]; exact List.perm_append_comm
  · simp [fork, leaves]

/-- Children in orientation `o`. -/
def mkNode (o : Bool) (x y : ℕ) (par : Option ℕ) : Node :=
  if o then ⟨some x, some y, par⟩ else ⟨some y, some x, par⟩

theorem encodes_fork {N par o p l r} : (fork o p l r).Encodes N par ↔
    N p = mkNode o l.root r.root par ∧ l.Encodes N (some p) ∧ r.Encodes N (some p) := by
  cases o <;> simp [fork, mkNode, Encodes] <;> tauto

end PTree

open PTree

/-- One-hole contexts, innermost frame outside. -/
inductive Ctx where
  | top
  | frame (o : Bool) (p : ℕ) (s : PTree) (K : Ctx)
deriving Repr

namespace Ctx

def plug : Ctx → PTree → PTree
  | top, t => t
  | frame o p s K, t => K.plug (fork o p t s)

/-- Parent of the hole. -/
def par : Ctx → Option ℕ
  | top => none
  | frame _ p _ _ => some p

def poss : Ctx → List ℕ
  | top => []
  | frame _ p s K => p :: (s.postorder ++ K.poss)

def lvs : Ctx → List ℕ
  | top => []
  | frame _ _ s K => s.leaves ++ K.lvs

/-- The frames are encoded, with `h` the root of the hole. -/
def Enc (N : ℕ → Node) : Ctx → ℕ → Prop
  | top, _ => True
  | frame o p s K, h => N p = mkNode o h s.root K.par ∧ s.Encodes N (some p) ∧ K.Enc N p

theorem encodes_plug {N} (K : Ctx) (t : PTree) :
    (K.plug t).Encodes N none ↔ K.Enc N t.root ∧ t.Encodes N K.par := by
  induction K generalizing t with
  | top => simp [plug, Enc, par]
  | frame o p s K ih =>
    simp only [plug, Enc, par, ih, encodes_fork, root_fork]; tauto

theorem postorder_plug (K : Ctx) (t : PTree) :
    (K.plug t).postorder.Perm (t.postorder ++ K.poss) := by
  induction K generalizing t with
  | top => simp [plug, poss]
  | frame o p s K ih =>
    simp only [plug, poss]
    refine (ih _).trans ?_
    refine ((postorder_fork o p t s).append_right _).trans ?_
    simp only [List.cons_append, List.append_assoc]
    exact (List.perm_middle).symm

theorem leaves_plug (K : Ctx) (t : PTree) :
    (K.plug t).leaves.Perm (t.leaves ++ K.lvs) := by
  induction K generalizing t with
  | top => simp [plug, lvs]
  | frame o p s K ih =>
    simp only [plug, lvs]
    refine (ih _).trans ?_
    refine ((leaves_fork o p t s).append_right _).trans ?_
    simp

theorem root_plug_congr (K : Ctx) {t t' : PTree} (h : t.root = t'.root) :
    (K.plug t).root = (K.plug t').root := by
  induction K generalizing t t' with
  | top => simpa [plug]
  | frame o p s K ih => exact ih (by simp)

theorem enc_congr {N N' : ℕ → Node} {K : Ctx} {h : ℕ}
    (hN : ∀ p ∈ K.poss, N' p = N p) (he : K.Enc N h) : K.Enc N' h := by
  induction K generalizing h with
  | top => trivial
  | frame o p s K ih =>
    simp only [Enc, poss, List.mem_cons, List.mem_append] at *
    exact ⟨by rw [hN p (by simp)]; exact he.1,
      encodes_congr (fun q hq => hN q (by tauto)) he.2.1, ih (fun q hq => hN q (by tauto)) he.2.2⟩

end Ctx

theorem exists_plug_aux (p : ℕ) (t : PTree) (h : p ∈ t.postorder) (K0 : Ctx) :
    ∃ K s, K0.plug t = Ctx.plug K s ∧ s.root = p := by
  induction t generalizing K0 with
  | leaf q => simp [postorder] at h; exact ⟨K0, leaf q, rfl, h.symm⟩
  | node q l r ihl ihr =>
    simp only [postorder, List.mem_append, List.mem_singleton] at h
    rcases h with (h | h) | h
    · exact ihl h (Ctx.frame true q r K0)
    · exact ihr h (Ctx.frame false q l K0)
    · exact ⟨K0, _, rfl, by simp [root, h]⟩

/-- Every position is the root of a subtree. -/
theorem exists_plug {p : ℕ} {t : PTree} (h : p ∈ t.postorder) :
    ∃ K s, t = Ctx.plug K s ∧ s.root = p := by
  simpa [Ctx.plug] using exists_plug_aux p t h Ctx.top

end TNCO
