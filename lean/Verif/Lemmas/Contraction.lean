import Verif.Lemmas.Traverse
import Verif.Lemmas.IsTree
import Verif.Spec.Execute
import Mathlib.Data.Finset.SDiff

/-! Helper lemmas on `get_contraction`. -/

namespace TNCO
open PTree

/-- The contractions of a tree, children first. -/
def PTree.contr : PTree → List (ℕ × ℕ × ℕ)
  | leaf _ => []
  | node p l r => l.contr ++ r.contr ++ [(l.root, r.root, p)]

theorem filterMap_contr {T : Tree} {t : PTree} {par} (h : t.Encodes T.nodes par) :
    (t.postorder.filterMap fun pos =>
      match (T.nodes pos).c0, (T.nodes pos).c1 with
      | some a, some b => some (a, b, pos)
      | _, _ => none) = t.contr := by
  induction t generalizing par with
  | leaf p => have hN : T.nodes p = _ := h; simp [postorder, contr, hN]
  | node p l r ihl ihr =>
    obtain ⟨hN, hl, hr⟩ := h
    simp only [postorder, contr, List.filterMap_append, ihl hl, ihr hr]
    simp [hN]

theorem getContraction_eq {T : Tree} {t : PTree} (h : WellFormed T t) {fuel : ℕ}
    (hf : 2 * T.size ≤ fuel) : getContraction fuel T = some t.contr := by
  unfold getContraction
  rw [traverse_eq h hf, Option.map_some]
  exact congrArg some (filterMap_contr h.enc)

theorem contr_third (t : PTree) : t.contr.map (fun x => x.2.2) = t.internals := by
  induction t with
  | leaf p => simp [contr, internals]
  | node p l r ihl ihr => simp [contr, internals, ihl, ihr]

theorem PTree.root_cases (t : PTree) : t.root ∈ t.leaves ∨ t.root ∈ t.internals := by
  cases t <;> simp [root, leaves, internals]

theorem PTree.mem_postorder_iff (t : PTree) (p : ℕ) : p ∈ t.postorder ↔ p ∈ t.leaves ∨ p ∈ t.internals := by
  rw [t.postorder_perm.mem_iff]; simp

theorem execute_contr (s : PTree) (av : Finset ℕ) (rest : List (ℕ × ℕ × ℕ))
    (hnd : s.postorder.Nodup) (hl : ∀ x ∈ s.leaves, x ∈ av) (hi : ∀ x ∈ s.internals, x ∉ av) :
    execute av (s.contr ++ rest) = execute (insert s.root (av \ s.leaves.toFinset)) rest := by
  induction s generalizing av rest with
  | leaf p =>
    simp only [contr, List.nil_append, leaves, root] at *
    congr 1
    ext x; simp
    constructor
    · intro hx; tauto
    · rintro (rfl | h)
      · exact hl _ (by simp)
      · exact h.1
  | node p l r ihl ihr =>
    simp only [postorder, List.nodup_append, List.mem_append, List.mem_singleton,
      mem_postorder_iff] at hnd
    obtain ⟨⟨hndl, hndr, hlr⟩, -, hp⟩ := hnd
    simp only [leaves, internals, List.mem_append, List.mem_singleton] at hl hi
    have hlroot := l.root_cases
    have hrroot := r.root_cases
    simp only [contr, List.append_assoc]
    rw [ihl av _ hndl (fun x hx => hl x (Or.inl hx)) (fun x hx => hi x (by tauto))]
    rw [ihr _ _ hndr ?_ ?_]
    rotate_left
    · intro x hx
      simp only [Finset.mem_insert, Finset.mem_sdiff, List.mem_toFinset]
      refine Or.inr ⟨hl x (Or.inr hx), fun hx' => hlr x (Or.inl hx') x (Or.inl hx) rfl⟩
    · intro x hx
      simp only [Finset.mem_insert, Finset.mem_sdiff, List.mem_toFinset, not_or, not_and]
      refine ⟨fun hx' => hlr x (hx' ▸ hlroot) x (Or.inr hx) rfl, fun hx' => absurd hx' (hi x (by tauto))⟩
    have hlr' : l.root ≠ r.root := fun h => hlr _ hlroot _ hrroot h
    have hpl : p ≠ l.root := fun h => hp _ (Or.inl hlroot) _ rfl h.symm
    have hpr : p ≠ r.root := fun h => hp _ (Or.inr hrroot) _ rfl h.symm
    have hlr1 : l.root ∉ r.leaves := fun h => hlr _ hlroot _ (Or.inl h) rfl
    have hrl1 : r.root ∉ l.leaves := fun h => hlr _ (Or.inl h) _ hrroot rfl
    simp only [List.singleton_append, execute]
    rw [if_pos]
    · congr 1
      ext x
      simp only [root, leaves, Finset.mem_insert, Finset.mem_erase, Finset.mem_sdiff, List.mem_toFinset,
        List.mem_append, not_or]
      constructor
      · rintro (h | ⟨h1, h2, (h | ⟨h | h, h3⟩)⟩)
        · exact Or.inl h
        · exact absurd h h1
        · exact absurd h h2
        · exact Or.inr ⟨h.1, h.2, h3⟩
      · rintro (h | ⟨h, h1, h2⟩)
        · exact Or.inl h
        · refine Or.inr ⟨?_, ?_, Or.inr ⟨Or.inr ⟨h, h1⟩, h2⟩⟩
          · rintro rfl
            rcases hrroot with h' | h'
            · exact h2 h'
            · exact hi _ (by tauto) h
          · rintro rfl
            rcases hlroot with h' | h'
            · exact h1 h'
            · exact hi _ (by tauto) h
    · refine ⟨?_, ?_, hlr', ?_⟩
      · simp only [Finset.mem_insert, Finset.mem_sdiff, List.mem_toFinset]
        exact Or.inr ⟨Or.inl trivial, hlr1⟩
      · simp
      · simp only [Finset.mem_insert, Finset.mem_sdiff, List.mem_toFinset, not_or]
        refine ⟨hpr, ?_⟩
        rintro ⟨h | h, -⟩
        · exact hpl h
        · exact hi p (by tauto) h.1

end TNCO
