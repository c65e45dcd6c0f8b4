import Verif.Lemmas.Contraction
import Mathlib.Data.Finset.Range
import Mathlib.Tactic.IntervalCases

/-!
# Properties C05 - C08: trees, `swap_with_nn`, traversal, contraction order
-/

namespace TNCO
open PTree

/-! ## A running example: the tree `((0 1) 2)` stored as in the library -/

/-- `3 = (0, 1)`, `4 = (3, 2)`. -/
def exTree : Tree := Tree.ofList
  [⟨none, none, some 3⟩, ⟨none, none, some 3⟩, ⟨none, none, some 4⟩,
   ⟨some 0, some 1, some 4⟩, ⟨some 3, some 2, none⟩]

def exPTree : PTree := .node 4 (.node 3 (.leaf 0) (.leaf 1)) (.leaf 2)

theorem exTree_wf : WellFormed exTree exPTree := by
  refine ⟨by simp [exTree, exPTree, Encodes, Tree.ofList, root], by decide, ?_, by decide, ?_⟩
  · intro p
    have : exTree.size = 5 := rfl
    rw [this]; simp [exPTree, postorder]; omega
  · intro p
    have : (exTree.size + 1) / 2 = 3 := rfl
    rw [this]; simp [exPTree, leaves]; omega

theorem exTree_isTree : IsTree exTree := ⟨_, exTree_wf⟩

/-! ## C05 -/

/-- C05, completeness half: every rooted full binary tree stored leaves first and
root last is accepted by `Tree.is_valid`. -/
theorem C05_tree_is_accepted (T : Tree) (h : IsTree T) : T.isValid = true :=
  h.facts.2.1

example : IsTree exTree := exTree_isTree

/-- Nodes accepted by the constructor in which node 0 claims parent 4 although it is
listed as a child of 3. -/
def badParents : List Node :=
  [⟨none, none, some 4⟩, ⟨none, none, some 3⟩, ⟨none, none, some 4⟩,
   ⟨some 0, some 1, some 4⟩, ⟨some 2, some 3, none⟩]

/-- Nodes accepted by the constructor that contain a detached cycle 5 → 6 → 7 → 5. -/
def detachedCycle : List Node :=
  [⟨none, none, some 5⟩, ⟨none, none, some 6⟩, ⟨none, none, some 7⟩, ⟨none, none, some 8⟩,
   ⟨none, none, some 8⟩, ⟨some 6, some 0, some 7⟩, ⟨some 7, some 1, some 5⟩,
   ⟨some 5, some 2, some 6⟩, ⟨some 3, some 4, none⟩]

/-- **C05 is violated.** The constructor accepts a node list whose parent pointers
contradict its child pointers (operator-precedence slip at tree.hpp:120, 130). -/
theorem C05_violated_parents : (Tree.make badParents).isSome = true ∧
    ¬ IsTree (Tree.ofList badParents) := by
  refine ⟨by decide, fun h => ?_⟩
  have := h.facts.2.2.1 3 (by decide) 0 (Or.inl rfl)
  simp [Tree.ofList, badParents] at this

/-- **C05 is violated.** The constructor accepts a node list with a cycle that is not
reachable from the root (all pointers mutually consistent). -/
theorem C05_violated_cycle : (Tree.make detachedCycle).isSome = true ∧
    (Tree.ofList detachedCycle).ParentsAgree ∧ ¬ IsTree (Tree.ofList detachedCycle) := by
  refine ⟨by decide, ?_, fun h => ?_⟩
  · intro p hp c hc
    have hp' : p < 9 := hp
    interval_cases p <;>
      simp [Tree.IsChild, Tree.ofList, detachedCycle] at hc <;>
      rcases hc with rfl | rfl <;> simp [Tree.ofList, detachedCycle]
  · obtain ⟨rank, hr⟩ := h.facts.2.2.2
    have h1 := hr 5 (by decide) 6 (Or.inl rfl)
    have h2 := hr 6 (by decide) 7 (Or.inl rfl)
    have h3 := hr 7 (by decide) 5 (Or.inl rfl)
    omega

/-- C05 (partial): what acceptance by `is_valid` does guarantee for every node list.
Missing for the full property: parent pointers may disagree with child pointers, and
cycles detached from the root are possible (see the two witnesses). -/
theorem C05_is_valid_partial (T : Tree) (hpos : 0 < T.size) (h : T.isValid = true) :
    -- every position except the last is a child of exactly one node, the last of none
    (∀ i < T.size, i ≠ T.size - 1 → ∃! j, j < T.size ∧ T.IsChild i j) ∧
    (∀ j < T.size, ¬ T.IsChild (T.size - 1) j) ∧
    -- the first half are the leaves, the rest have two different children in range
    (∀ i < T.size, ((T.nodes i).c0 = none ∧ (T.nodes i).c1 = none ↔ i < (T.size + 1) / 2)) ∧
    (∀ i < T.size, (T.size + 1) / 2 ≤ i → ∃ a b, a < T.size ∧ b < T.size ∧ a ≠ b ∧
      (T.nodes i).c0 = some a ∧ (T.nodes i).c1 = some b) ∧
    -- the last node is the only one without parent
    (∀ i < T.size, ((T.nodes i).parent = none ↔ i = T.size - 1)) := by
  obtain ⟨hleaf, hroot, hcnt⟩ := Tree.isValid_counts h hpos
  have hiff := (Tree.isValid_iff T).1 h
  have hval : ∀ i < T.size, (T.nodes i).isValid = true := fun i hi => (hiff.1 i hi).2.2.2
  have hc1 : ∀ p < T.size, ((T.nodes p).c0 = none ↔ (T.nodes p).c1 = none) := by
    intro p hp
    have := hval p hp
    unfold Node.isValid at this
    cases h0 : (T.nodes p).c0 <;> cases h1 : (T.nodes p).c1 <;> simp [h0, h1] at this ⊢
  refine ⟨?_, ?_, ?_, ?_, hroot⟩
  · intro i hi hne
    have h1 := hcnt i hi
    rw [if_neg hne] at h1
    obtain ⟨j, hj, hc⟩ := Tree.countChildren_pos (T := T) (i := i) (by omega)
    refine ⟨j, ⟨hj, hc⟩, ?_⟩
    rintro k ⟨hk, hck⟩
    by_contra hne'
    have := Tree.countChildren_ge_two hk hj (hval k hk) (hval j hj) hck hc hne'
    omega
  · intro j hj hc
    have h1 := hcnt (T.size - 1) (by omega)
    have := Tree.countChildren_ge_one hj (hval j hj) hc
    simp at h1; omega
  · intro i hi
    rw [← hc1 i hi, and_self]; exact hleaf i hi
  · intro i hi hge
    have h0 : (T.nodes i).c0 ≠ none := fun h0 => by
      have := (hleaf i hi).1 h0; unfold Tree.nLeaves at this; omega
    have h1 : (T.nodes i).c1 ≠ none := fun h1 => h0 ((hc1 i hi).2 h1)
    obtain ⟨a, ha⟩ := Option.ne_none_iff_exists'.1 h0
    obtain ⟨b, hb⟩ := Option.ne_none_iff_exists'.1 h1
    have hr := hiff.1 i hi
    rw [ha, hb] at hr
    simp only [Tree.refOk, decide_eq_true_eq] at hr
    refine ⟨a, b, hr.2.1, hr.2.2.1, ?_, ha, hb⟩
    rintro rfl
    have := hval i hi
    unfold Node.isValid at this
    simp [ha, hb, Node.isLeaf] at this

example : 0 < (Tree.ofList detachedCycle).size ∧ (Tree.ofList detachedCycle).isValid = true := by
  decide

/-- C05: acceptance together with the two conditions the code fails to check is
exactly being a tree. -/
theorem C05_isTree_iff (T : Tree) : IsTree T ↔
    0 < T.size ∧ T.isValid = true ∧ T.ParentsAgree ∧ T.Acyclic :=
  ⟨IsTree.facts, fun ⟨h1, h2, h3, h4⟩ => isTree_of_isValid h1 h2 h3 h4⟩

example : 0 < exTree.size ∧ exTree.isValid = true ∧ exTree.ParentsAgree ∧ exTree.Acyclic :=
  exTree_isTree.facts

/-! ## C06 -/

/-- C06: `swap_with_nn` keeps a tree a tree, for every position (valid or not), with the
same number of nodes, the same leaves (first half) and the same root (last). -/
theorem C06_swap_keeps_tree (T : Tree) (h : IsTree T) (pos : ℕ) :
    IsTree (T.swapWithNN pos) ∧ (T.swapWithNN pos).size = T.size := by
  obtain ⟨t, ht⟩ := h
  by_cases h1 : T.size ≤ pos
  · rw [Tree.swapWithNN, if_pos h1]; exact ⟨⟨t, ht⟩, rfl⟩
  cases hB : (T.nodes pos).parent with
  | none => unfold Tree.swapWithNN; rw [if_neg h1, hB]; exact ⟨⟨t, ht⟩, rfl⟩
  | some B =>
    cases hA : (T.nodes B).parent with
    | none => unfold Tree.swapWithNN; rw [if_neg h1, hB]; simp only [hA]; exact ⟨⟨t, ht⟩, trivial⟩
    | some A =>
      obtain ⟨K, o, o', d, e, c, rfl, rfl⟩ := exists_rot ht (by omega) hB hA
      refine ⟨⟨_, wellFormed_swap ht⟩, ?_⟩
      have hp := rot_perm K o o' A B d e c
      exact (encodes_swap ⟨hp.nodup_iff.1 ht.nodup⟩ (by omega) ht.enc).2

example : IsTree exTree := exTree_isTree

/-- C06: no effect out of range, on the root and on children of the root. -/
theorem C06_swap_noop (T : Tree) (pos : ℕ)
    (h : T.size ≤ pos ∨ (T.nodes pos).parent = none ∨
      ∃ B, (T.nodes pos).parent = some B ∧ (T.nodes B).parent = none) :
    T.swapWithNN pos = T := by
  unfold Tree.swapWithNN
  split
  · rfl
  · rcases h with h | h | ⟨B, h1, h2⟩
    · contradiction
    · rw [h]
    · rw [h1]; simp only [h2]

example : (exTree.nodes 4).parent = none := rfl

/-- Replace child `x` by child `y`. -/
def Node.substChild (n : Node) (x y : ℕ) : Node :=
  { n with c0 := if n.c0 = some x then some y else n.c0,
           c1 := if n.c1 = some x then some y else n.c1 }

/-- C06: otherwise, with `B` the parent of `E`, `A` the parent of `B` and `C` the other
child of `A`, exactly `E` and `C` are exchanged and nothing else changes. -/
theorem C06_swap_exchanges (T : Tree) (h : IsTree T) (E B A C : ℕ) (hE : E < T.size)
    (hB : (T.nodes E).parent = some B) (hA : (T.nodes B).parent = some A)
    (hC : T.IsChild C A) (hCB : C ≠ B) :
    (T.swapWithNN E).nodes E = { T.nodes E with parent := some A } ∧
    (T.swapWithNN E).nodes C = { T.nodes C with parent := some B } ∧
    (T.swapWithNN E).nodes A = (T.nodes A).substChild C E ∧
    (T.swapWithNN E).nodes B = (T.nodes B).substChild E C ∧
    ∀ p, p ≠ A → p ≠ B → p ≠ C → p ≠ E → (T.swapWithNN E).nodes p = T.nodes p := by
  obtain ⟨t, ht⟩ := h
  obtain ⟨K, o, o', d, e, c, rfl, rfl⟩ := exists_rot ht hE hB hA
  have hp := rot_perm K o o' A B d e c
  have hd : RotDistinct K A B d e c := ⟨hp.nodup_iff.1 ht.nodup⟩
  have h5 := hd.five
  have henc := ht.enc
  rw [Ctx.encodes_plug, encodes_fork, encodes_fork] at henc
  simp only [root_fork] at henc
  obtain ⟨-, hNA, ⟨hNB, -, hee⟩, -⟩ := henc
  have hCc : C = c.root := by
    unfold Tree.IsChild at hC
    rw [hNA] at hC
    cases o <;> simp [mkNode] at hC <;> rcases hC with h | h <;> simp_all
  subst hCc
  rw [swapWithNN_local hE (encodes_root_parent hee) hNB hNA h5]
  simp only [List.nodup_cons, List.mem_cons, not_or, List.not_mem_nil,
    not_false_eq_true, List.nodup_nil, and_true] at h5
  obtain ⟨⟨hAB, hAC, hAD, hAE⟩, ⟨hBC, hBD, hBE⟩, ⟨hCD, hCE⟩, hDE⟩ := h5
  refine ⟨?_, ?_, ?_, ?_, ?_⟩
  · simp
  · simp [Function.update_of_ne hCE]
  · simp only [Function.update_of_ne hAE, Function.update_of_ne hAC, Function.update_of_ne hAB,
      Function.update_self, hNA]
    cases o <;> simp [mkNode, Node.substChild, hBC]
  · simp only [Function.update_of_ne hBE, Function.update_of_ne hBC, Function.update_self, hNB]
    cases o' <;> simp [mkNode, Node.substChild, hDE]
  · intro p h1 h2 h3 h4
    simp only [Function.update_of_ne h4, Function.update_of_ne h3, Function.update_of_ne h2,
      Function.update_of_ne h1]

example : (exTree.nodes 0).parent = some 3 ∧ (exTree.nodes 3).parent = some 4 ∧
    exTree.IsChild 2 4 ∧ (2 : ℕ) ≠ 3 := ⟨rfl, rfl, Or.inr rfl, by decide⟩

/-- C06: swapping the exchanged sibling back restores the tree exactly. -/
theorem C06_swap_undo (T : Tree) (h : IsTree T) (E B A C : ℕ) (hE : E < T.size)
    (hB : (T.nodes E).parent = some B) (hA : (T.nodes B).parent = some A)
    (hC : T.IsChild C A) (hCB : C ≠ B) :
    (T.swapWithNN E).swapWithNN C = T := by
  obtain ⟨hE', hC', hA', hB', hrest⟩ := C06_swap_exchanges T h E B A C hE hB hA hC hCB
  obtain ⟨hT', hsz⟩ := C06_swap_keeps_tree T h E
  obtain ⟨t, ht⟩ := h
  have hl := ht.linked
  have hBs := (hl.parent E hE B hB).1
  have hAs := (hl.parent B hBs A hA).1
  have hCs : C < T.size := by
    rcases hC with hC | hC
    · exact (hl.child0 A hAs C hC).1
    · exact (hl.child1 A hAs C hC).1
  have hCp : (T.nodes C).parent = some A := by
    rcases hC with hC | hC
    · exact (hl.child0 A hAs C hC).2
    · exact (hl.child1 A hAs C hC).2
  have self : ∀ p < T.size, ∀ q, (T.nodes p).parent = some q → p ≠ q := by
    rintro p hp q hq rfl
    rcases (hl.parent p hp p hq).2 with h | h
    · exact (hl.parent_ne p hp p hq).1 h
    · exact (hl.parent_ne p hp p hq).2 h
  have hEB : E ≠ B := self E hE B hB
  have hBA : B ≠ A := self B hBs A hA
  have hCA : C ≠ A := self C hCs A hCp
  have hEC : E ≠ C := by rintro rfl; rw [hB] at hCp; exact hBA (by simpa using hCp)
  have hEA : E ≠ A := by
    rintro rfl
    rcases (hl.parent B hBs E hA).2 with h | h
    · exact (hl.parent_ne E hE B hB).1 h
    · exact (hl.parent_ne E hE B hB).2 h
  -- E is now the other child of A
  have hch : (T.swapWithNN E).IsChild E A := by
    unfold Tree.IsChild
    rw [hA']
    rcases hC with hC | hC <;> simp [Node.substChild, hC]
  have hpB : ((T.swapWithNN E).nodes B).parent = some A := by
    rw [hB']; simpa [Node.substChild] using hA
  obtain ⟨g1, g2, g3, g4, g5⟩ := C06_swap_exchanges (T.swapWithNN E) hT' C B A E (hsz ▸ hCs)
    (by rw [hC']) hpB hch hEB
  have hfun : ((T.swapWithNN E).swapWithNN C).nodes = T.nodes := by
    funext p
    by_cases p1 : p = A
    · subst p1
      rw [g3, hA']
      -- slots: only the slot of C was touched
      have n0 : (T.nodes p).c0 ≠ some E := by
        intro hh; have := (hl.child0 p hAs E hh).2; rw [hB] at this; cases this; exact hBA rfl
      have n1 : (T.nodes p).c1 ≠ some E := by
        intro hh; have := (hl.child1 p hAs E hh).2; rw [hB] at this; cases this; exact hBA rfl
      cases hN : T.nodes p with
      | mk c0 c1 q =>
        rw [hN] at n0 n1
        simp only [Node.substChild, Node.mk.injEq, and_true]
        constructor
        · by_cases hh : c0 = some C <;> simp [hh, n0]
        · by_cases hh : c1 = some C <;> simp [hh, n1]
    by_cases p2 : p = B
    · subst p2
      rw [g4, hB']
      have n0 : (T.nodes p).c0 ≠ some C := by
        intro hh; have := (hl.child0 p hBs C hh).2; rw [hCp] at this; cases this; exact hBA rfl
      have n1 : (T.nodes p).c1 ≠ some C := by
        intro hh; have := (hl.child1 p hBs C hh).2; rw [hCp] at this; cases this; exact hBA rfl
      cases hN : T.nodes p with
      | mk c0 c1 q =>
        rw [hN] at n0 n1
        simp only [Node.substChild, Node.mk.injEq, and_true]
        constructor
        · by_cases hh : c0 = some E <;> simp [hh, n0]
        · by_cases hh : c1 = some E <;> simp [hh, n1]
    by_cases p3 : p = C
    · subst p3; rw [g1, hC', ← hCp]
    by_cases p4 : p = E
    · subst p4; rw [g2, hE', ← hB]
    · rw [g5 p p1 p2 p4 p3, hrest p p1 p2 p3 p4]
  have hs2 := (C06_swap_keeps_tree (T.swapWithNN E) hT' C).2
  cases hT : (T.swapWithNN E).swapWithNN C with
  | mk s n =>
    rw [hT] at hfun hs2
    simp only at hfun hs2
    rw [hfun, hs2, hsz]

example : (exTree.nodes 0).parent = some 3 ∧ (exTree.nodes 3).parent = some 4 ∧
    exTree.IsChild 2 4 ∧ (2 : ℕ) ≠ 3 := ⟨rfl, rfl, Or.inr rfl, by decide⟩

/-! ## C07 -/

/-- C07: on every tree the traversal loop stops (after at most `2 * size` iterations, and any
larger budget gives the same calls); the callback is called exactly once per position,
after the calls for both children, and on the last position last. -/
theorem C07_traverse (T : Tree) (h : IsTree T) :
    ∃ calls, (∀ fuel, 2 * T.size ≤ fuel → traverse fuel T = some calls) ∧
      (∀ p, p < T.size → calls.count p = 1) ∧ (∀ p, T.size ≤ p → p ∉ calls) ∧
      (∀ p q, p < T.size → (T.nodes p).parent = some q → calls.idxOf p < calls.idxOf q) ∧
      calls.getLast? = some (T.size - 1) := by
  obtain ⟨t, ht⟩ := h
  have hl := ht.linked
  refine ⟨t.postorder, fun fuel hf => traverse_eq ht hf, ?_, ?_, ?_, ?_⟩
  · intro p hp
    exact List.count_eq_one_of_mem ht.nodup ((ht.mem p).2 hp)
  · intro p hp hm; have := (ht.mem p).1 hm; omega
  · intro p q hp hq
    refine idxOf_child_lt none ht.enc ht.nodup ((ht.mem p).2 hp) ?_ hq
    intro hr; rw [hr, encodes_root_parent ht.enc] at hq; simp at hq
  · rw [← ht.root]; cases t <;> simp [postorder, PTree.root]

example : IsTree exTree := exTree_isTree

/-! ## C08 -/

/-- C08: `get_contraction` lists `(child, child, node)` for every internal node exactly once,
in an order that can be executed starting from the leaves and ends with the root alone. -/
theorem C08_get_contraction (T : Tree) (h : IsTree T) :
    ∃ cs, (∀ fuel, 2 * T.size ≤ fuel → getContraction fuel T = some cs) ∧
      execute (Finset.range ((T.size + 1) / 2)) cs = some {T.size - 1} ∧
      cs.length = (T.size + 1) / 2 - 1 ∧
      (∀ x y z, (x, y, z) ∈ cs ↔ z < T.size ∧ (T.nodes z).c0 = some x ∧ (T.nodes z).c1 = some y) ∧
      (cs.map fun c => c.2.2).Nodup := by
  obtain ⟨t, ht⟩ := h
  have hlv : t.leaves.toFinset = Finset.range ((T.size + 1) / 2) := by
    ext p; simp [ht.leaves]
  have hnd2 : (t.leaves ++ t.internals).Nodup := t.postorder_perm.nodup_iff.1 ht.nodup
  refine ⟨t.contr, fun fuel hf => getContraction_eq ht hf, ?_, ?_, ?_, ?_⟩
  · have := execute_contr t (Finset.range ((T.size + 1) / 2)) [] ht.nodup
      (fun x hx => by simpa using (ht.leaves x).1 hx) (by
        intro x hx hx'
        rw [List.nodup_append] at hnd2
        exact hnd2.2.2 x ((ht.leaves x).2 (by simpa using hx')) x hx rfl)
    rw [List.append_nil] at this
    rw [this, hlv, ht.root]; simp [execute]
  · have h1 : t.contr.length = t.internals.length := by rw [← contr_third]; simp
    have h2 := t.length_internals
    have h3 := ht.size_eq.2.1
    unfold Tree.nLeaves at h3
    omega
  · intro x y z
    rw [← filterMap_contr ht.enc, List.mem_filterMap]
    constructor
    · rintro ⟨p, hp, hh⟩
      cases h0 : (T.nodes p).c0 <;> cases h1 : (T.nodes p).c1 <;> rw [h0, h1] at hh <;>
        simp at hh
      obtain ⟨rfl, rfl, rfl⟩ := hh
      exact ⟨(ht.mem p).1 hp, h0, h1⟩
    · rintro ⟨hz, h0, h1⟩
      exact ⟨z, (ht.mem z).2 hz, by rw [h0, h1]⟩
  · rw [contr_third]; rw [List.nodup_append] at hnd2; exact hnd2.2.1

example : IsTree exTree := exTree_isTree

end TNCO
