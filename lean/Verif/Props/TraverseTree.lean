import Verif.Lemmas.TraverseTree
import Verif.Props.Tree

/-!
# C85: `traverse_tree` runs the callback on every node
-/

namespace TNCO
open PTree

/-- C85: on every tree there is one order of the positions in which `traverse_tree` runs any callback that does not change the tree. Each
position comes once. The positions below the first child come first, one after the other, then those below the second child, then the
node itself. The calls go on to the end or to the first exception, which leaves `traverse_tree`; the state is what these calls have made of
it. The progress bar has the size of the tree as its total, and counts the calls begun. -/
theorem C85_calls (T : Tree) (h : IsTree T) :
    ∃ calls : List ℕ, calls.Perm (List.range T.size) ∧
      (∀ z x y, z < T.size → (T.nodes z).c0 = some x → (T.nodes z).c1 = some y →
        ∃ a L R b, calls = a ++ L ++ R ++ z :: b ∧ L.getLast? = some x ∧ R.getLast? = some y ∧
          (∀ p, p < T.size → (p ∈ L ↔ Under T p x)) ∧ ∀ p, p < T.size → (p ∈ R ↔ Under T p y)) ∧
      ∀ (σ E : Type) (tree : σ → Tree) (cb : Callback σ E) (verbose : Int) (s : σ) (fuel : ℕ), KeepsTree tree cb → tree s = T →
        2 * T.size ≤ fuel → traverseTree fuel tree cb verbose s =
          some ⟨(follow cb calls s).1, begun cb calls s, T.size, decide (0 < verbose), (follow cb calls s).2⟩ := by
  obtain ⟨t, ht⟩ := h
  have hl := ht.linked
  refine ⟨t.postorder, (List.perm_ext_iff_of_nodup ht.nodup List.nodup_range).2 (by simpa using ht.mem), ?_, ?_⟩
  · intro z x y hz hx hy
    rcases ht.split hz with ⟨K, _, hN, -⟩ | ⟨K, l, r, he, hN, hel, her, -⟩
    · rw [hN] at hx; simp at hx
    · rw [hN] at hx hy
      simp only [Option.some.injEq] at hx hy
      subst hx; subst hy
      obtain ⟨a, b, e⟩ := sub_infix (he ▸ sub_plug K _)
      have hlast : ∀ u : PTree, u.postorder.getLast? = some u.root := fun u => by cases u <;> simp [postorder, PTree.root]
      exact ⟨a, l.postorder, r.postorder, b, by rw [e]; simp [postorder], hlast l, hlast r,
        fun p hp => ⟨under_root _ hel, mem_under hl _ hel hp⟩, fun p hp => ⟨under_root _ her, mem_under hl _ her hp⟩⟩
  · intro σ E tree cb verbose s fuel hr hs hf
    obtain ⟨calls, hc, hw⟩ := walk_follow hr fuel [T.size - 1] (fun _ => false) [] t.postorder s 0 hs (traverse_eq ht hf)
    rw [List.nil_append] at hc
    subst hc
    unfold traverseTree
    rw [hs, hw]
    simp

/-- A callback that notes the positions; at position `bad` it raises. -/
def noting (bad : Option ℕ) : Callback (Tree × List ℕ) String := fun p s =>
  ((s.1, s.2 ++ [p]), if bad = some p then some "callback" else none)

example : IsTree exTree ∧ KeepsTree Prod.fst (noting (some 3)) := ⟨exTree_isTree, fun _ _ => rfl⟩
example : (traverseTree 10 Prod.fst (noting none) 1 (exTree, [])).map (fun w => (w.state.2, w.completed, w.total, w.shown, w.raised)) =
    some ([0, 1, 3, 2, 4], 5, 5, true, none) := by decide +kernel
example : (traverseTree 10 Prod.fst (noting (some 3)) 0 (exTree, [])).map
    (fun w => (w.state.2, w.completed, w.total, w.shown, w.raised)) = some ([0, 1, 3], 3, 5, false, some "callback") := by decide +kernel

/-- C85: if `traverse_tree` ends without an exception the bar is full, and every call has ended without one. -/
theorem C85_complete (T : Tree) (h : IsTree T) {σ E : Type} (tree : σ → Tree) (cb : Callback σ E) (hr : KeepsTree tree cb) (s : σ)
    (hs : tree s = T) (verbose : Int) (fuel : ℕ) (w : Walked σ E) (hw : traverseTree fuel tree cb verbose s = some w)
    (hf : 2 * T.size ≤ fuel) : w.completed ≤ w.total ∧ (w.raised = none → w.completed = w.total) ∧ tree w.state = T := by
  obtain ⟨calls, hp, -, hc⟩ := C85_calls T h
  rw [hc σ E tree cb verbose s fuel hr hs hf] at hw
  cases hw
  have hlen : calls.length = T.size := by simpa using hp.length_eq
  refine ⟨hlen ▸ begun_le cb calls s, fun hn => ?_, ?_⟩
  · exact ((follow_begun cb calls s).2.1 hn).trans hlen
  · have : ∀ (l : List ℕ) (s : σ), tree (follow cb l s).1 = tree s := by
      intro l
      induction l with
      | nil => intro s; rfl
      | cons p l ih =>
        intro s
        rw [follow]
        split
        · exact hr p s
        · rw [ih, hr]
    exact (this calls s).trans hs

/-- C85: an exception leaves `traverse_tree` exactly if some call raises it in the state made by the calls before, none of which has raised.
No position is called after it; the bar has counted this call. -/
theorem C85_exception (T : Tree) (h : IsTree T) {σ E : Type} (tree : σ → Tree) (cb : Callback σ E) (hr : KeepsTree tree cb) (s : σ)
    (hs : tree s = T) (verbose : Int) (fuel : ℕ) (w : Walked σ E) (hw : traverseTree fuel tree cb verbose s = some w)
    (hf : 2 * T.size ≤ fuel) (e : E) (he : w.raised = some e) :
    ∃ a p b, (a ++ p :: b).Perm (List.range T.size) ∧ w.completed = a.length + 1 ∧ (follow cb a s).2 = none ∧
      cb p (follow cb a s).1 = (w.state, some e) := by
  obtain ⟨calls, hp, -, hc⟩ := C85_calls T h
  rw [hc σ E tree cb verbose s fuel hr hs hf] at hw
  cases hw
  obtain ⟨a, p, b, e1, e2, e3, e4⟩ := (follow_begun cb calls s).2.2 e he
  exact ⟨a, p, b, e1 ▸ hp, e2, e3, by rw [e4, ← he]⟩

/-- A tree with two pairs of leaves. -/
def pairsTree : Tree := Tree.ofList
  [⟨none, none, some 4⟩, ⟨none, none, some 4⟩, ⟨none, none, some 5⟩, ⟨none, none, some 5⟩,
   ⟨some 0, some 1, some 6⟩, ⟨some 2, some 3, some 6⟩, ⟨some 4, some 5, none⟩]

/-- A callback that notes the positions, and in the first call swaps position 2 (`Tree.swap_with_nn`). -/
def swapping : Callback (Tree × List ℕ) String := fun p s => ((if p = 0 then s.1.swapWithNN 2 else s.1, s.2 ++ [p]), none)

/-- C85: the condition on the callback is needed. A callback may change the tree, which stays a contraction tree; then a position may be
called twice and another one not at all, without an exception and with a full progress bar. -/
theorem C85_needed :
    (traverseTree 14 Prod.fst swapping 1 (pairsTree, [])).map (fun w => (w.state.2, w.completed, w.total, w.raised)) =
      some ([0, 1, 4, 4, 3, 5, 6], 7, 7, none) ∧ IsTree pairsTree ∧ IsTree (pairsTree.swapWithNN 2) := by
  have ht : IsTree pairsTree := by
    refine ⟨.node 6 (.node 4 (.leaf 0) (.leaf 1)) (.node 5 (.leaf 2) (.leaf 3)), ?_, by decide, ?_, by decide, ?_⟩
    · simp [pairsTree, Encodes, Tree.ofList, PTree.root]
    · intro p
      have : pairsTree.size = 7 := rfl
      rw [this]; simp [postorder]; omega
    · intro p
      have : (pairsTree.size + 1) / 2 = 4 := rfl
      rw [this]; simp [leaves]; omega
  exact ⟨by decide +kernel, ht, (C06_swap_keeps_tree pairsTree ht 2).1⟩

end TNCO
