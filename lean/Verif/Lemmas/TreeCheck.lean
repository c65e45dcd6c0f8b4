import Verif.Model.TreeCheck
import Verif.Spec.Names
import Verif.Lemmas.Crossings
import Verif.Lemmas.Pickle

/-! What the parts of `is_valid_contraction_tree` compute. -/

namespace TNCO
open PTree

variable {ι : Type} [DecidableEq ι]

theorem filterMap_of_mapM {α β : Type} {f : α → Option β} {l : List α} {r : List β} (h : l.mapM f = some r) :
    l.filterMap f = r := by
  induction l generalizing r with
  | nil => rw [List.mapM_nil] at h; cases h; rfl
  | cons a l ih =>
    rw [List.mapM_cons] at h
    simp only [bind, pure, Option.bind_eq_some_iff, Option.some.injEq] at h
    obtain ⟨b, hb, r', hr', rfl⟩ := h
    simp [hb, ih hr']

theorem mem_treeInds {t : PyTree ι} (hl : t.indsOrder.length = t.core.nInds) {p : ℕ} {x : ι} :
    x ∈ t.inds p ↔ ∃ (i : ℕ) (h : i < t.indsOrder.length), i ∈ t.core.inds p ∧ t.indsOrder[i] = x := by
  obtain ⟨l, h1, -, h2⟩ := namesOf_eq (order := t.indsOrder) hl (t.core.inds p)
  rw [← h2, PyTree.inds]
  rw [namesOf] at h1
  rw [filterMap_of_mapM h1, List.mem_toFinset]

theorem getInds_eq {t : PyTree ι} (hl : t.indsOrder.length = t.core.nInds) (p : ℕ) : t.getInds p = .ok (t.inds p) := by
  obtain ⟨l, h1, -, -⟩ := namesOf_eq (order := t.indsOrder) hl (t.core.inds p)
  unfold PyTree.getInds PyTree.inds
  rw [h1]
  rw [namesOf] at h1
  rw [filterMap_of_mapM h1]

theorem pyPos_nat {n p : ℕ} (h : p < n) : pyPos n p = some p := by
  unfold pyPos
  rw [if_pos (by omega), if_pos (by omega)]; simp

theorem pyPos_last {n : ℕ} (h : 0 < n) : pyPos n (-1) = some (n - 1) := by
  unfold pyPos
  rw [if_neg (by omega), if_pos (by omega)]
  congr 1; omega

theorem indsAt_nat {t : PyTree ι} (hl : t.indsOrder.length = t.core.nInds) {p : ℕ} (h : p < t.core.tree.size) :
    t.indsAt p = .ok (t.inds p) := by
  unfold PyTree.indsAt; rw [pyPos_nat h]; exact getInds_eq hl p

theorem indsAt_last {t : PyTree ι} (hl : t.indsOrder.length = t.core.nInds) (h : 0 < t.core.tree.size) :
    t.indsAt (-1) = .ok t.outputInds := by
  unfold PyTree.indsAt; rw [pyPos_last h]; exact getInds_eq hl _

theorem mapM_ok {α β ε : Type} {f : α → Except ε β} {g : α → β} {l : List α} (h : ∀ a ∈ l, f a = .ok (g a)) :
    l.mapM f = .ok (l.map g) := by
  induction l with
  | nil => rfl
  | cons a l ih =>
    rw [List.mapM_cons, h a (by simp), ih fun b hb => h b (by simp [hb])]
    rfl

theorem indsTo_eq {t : PyTree ι} (hl : t.indsOrder.length = t.core.nInds) (k : ℕ) :
    t.indsTo k = .ok (((List.range t.core.tree.size).take k).map t.inds) :=
  mapM_ok fun p _ => getInds_eq hl p

/-- Local validity, index by index. -/
theorem keepOk_of_loc {t : PyTree ι} (hl : t.indsOrder.length = t.core.nInds) (hn : t.indsOrder.Nodup) {s : PTree}
    (h : s.All (LocQ t.core.inds)) (x : ι) : s.All (KeepOk fun p => decide (x ∈ t.inds p)) := by
  refine PTree.all_mono ?_ h
  rintro p - a - b - ⟨h1, h2⟩
  have one : ∀ {p q : ℕ}, x ∈ t.inds p → x ∉ t.inds q → ∃ i, i ∈ t.core.inds p ∧ i ∉ t.core.inds q ∧
      ∀ r, i ∈ t.core.inds r → x ∈ t.inds r := by
    intro p q hp hq
    obtain ⟨i, hi, h3, h4⟩ := (mem_treeInds hl).1 hp
    exact ⟨i, h3, fun h5 => hq ((mem_treeInds hl).2 ⟨i, hi, h5, h4⟩), fun r h5 => (mem_treeInds hl).2 ⟨i, hi, h5, h4⟩⟩
  refine ⟨fun hne => ?_, fun hp => ?_⟩
  · simp only [ne_eq, decide_eq_decide, decide_eq_true_eq] at *
    by_cases ha : x ∈ t.inds a
    · have hb : x ∉ t.inds b := fun hb => hne ⟨fun _ => hb, fun _ => ha⟩
      obtain ⟨i, h3, h4, h5⟩ := one ha hb
      exact h5 p (h1 (ISet.mem_xor.2 (by simp [h3, h4])))
    · have hb : x ∈ t.inds b := by by_contra hb; exact hne ⟨fun h => absurd h ha, fun h => absurd h hb⟩
      obtain ⟨i, h3, h4, h5⟩ := one hb ha
      exact h5 p (h1 (ISet.mem_xor.2 (by simp [h3, h4])))
  · simp only [decide_eq_true_eq] at *
    obtain ⟨i, hi, h3, h4⟩ := (mem_treeInds hl).1 hp
    rcases Finset.mem_union.1 (h2 h3) with h5 | h5
    · exact Or.inl ((mem_treeInds hl).2 ⟨i, hi, h5, h4⟩)
    · exact Or.inr ((mem_treeInds hl).2 ⟨i, hi, h5, h4⟩)

/-- The indices shared by the children of a node. -/
def sharedAt (t : PyTree ι) (p : ℕ) : Finset ι :=
  match (t.core.tree.nodes p).c0, (t.core.tree.nodes p).c1 with
  | some a, some b => t.inds a ∩ t.inds b
  | _, _ => ∅

theorem nodeShared_eq {t : PyTree ι} (hl : t.indsOrder.length = t.core.nInds) {s : PTree} (hw : WellFormed t.core.tree s)
    (shared : Bool) {p : ℕ} (hp : p < t.core.tree.size) :
    nodeShared t shared p = .ok (if shared = true ∧ (t.core.tree.nodes p).isLeaf = false ∧ sharedAt t p = ∅ then none
      else some (sharedAt t p)) := by
  unfold nodeShared sharedAt
  rcases hw.split hp with ⟨K, ht, hN, -⟩ | ⟨K, l, r, ht, hN, -⟩
  · rw [hN]; simp [Node.isLeaf]
  · have hla : l.root < t.core.tree.size := by
      rw [← hw.mem, ht, (Ctx.postorder_plug ..).mem_iff]
      have := PTree.root_mem l
      simp [postorder, this]
    have hra : r.root < t.core.tree.size := by
      rw [← hw.mem, ht, (Ctx.postorder_plug ..).mem_iff]
      have := PTree.root_mem r
      simp [postorder, this]
    rw [hN]
    simp only [Node.isLeaf, PyTree.indsChild, indsAt_nat hl hla, indsAt_nat hl hra, bind, Except.bind, pure, Except.pure]
    simp only [show (some l.root == (none : Option ℕ)) = false from rfl, Bool.false_eq_true, if_false, true_and]
    cases shared
    · simp
    · by_cases h : t.inds l.root ∩ t.inds r.root = ∅ <;> simp [h]

theorem sharedNames_eq (enum : Finset ι → List ι) {t : PyTree ι} (hl : t.indsOrder.length = t.core.nInds) {s : PTree}
    (hw : WellFormed t.core.tree s) (shared : Bool) (l : List ℕ) (h : ∀ p ∈ l, p < t.core.tree.size) :
    ((shared = true ∧ ∃ p ∈ l, (t.core.tree.nodes p).isLeaf = false ∧ sharedAt t p = ∅) ∧
      sharedNames enum t shared l = .ok none) ∨
    (¬ (shared = true ∧ ∃ p ∈ l, (t.core.tree.nodes p).isLeaf = false ∧ sharedAt t p = ∅) ∧
      sharedNames enum t shared l = .ok (some (l.flatMap fun p => enum (sharedAt t p)))) := by
  induction l with
  | nil => right; exact ⟨by simp, rfl⟩
  | cons p l ih =>
    have ih := ih fun q hq => h q (by simp [hq])
    simp only [sharedNames, nodeShared_eq hl hw shared (h p (by simp)), bind, Except.bind, pure, Except.pure]
    by_cases hb : shared = true ∧ (t.core.tree.nodes p).isLeaf = false ∧ sharedAt t p = ∅
    · left
      refine ⟨⟨hb.1, p, by simp, hb.2⟩, ?_⟩
      rw [if_pos hb]
    · rw [if_neg hb]
      rcases ih with ⟨⟨h1, q, hq, h2⟩, h3⟩ | ⟨h1, h3⟩
      · left
        refine ⟨⟨h1, q, by simp [hq], h2⟩, ?_⟩
        simp only [h3]
      · right
        refine ⟨?_, ?_⟩
        · rintro ⟨h4, q, hq, h5⟩
          rcases List.mem_cons.1 hq with rfl | hq
          · exact hb ⟨h4, h5⟩
          · exact h1 ⟨h4, q, hq, h5⟩
        · simp only [h3, List.flatMap_cons]

theorem count_enum {enum : Finset ι → List ι} (he : EnumOk enum) (s : Finset ι) (x : ι) :
    (enum s).count x = if x ∈ s then 1 else 0 := by
  by_cases h : x ∈ s
  · rw [if_pos h]; exact List.count_eq_one_of_mem (he s).1 ((he s).2 x |>.2 h)
  · rw [if_neg h]; exact List.count_eq_zero_of_not_mem fun h' => h ((he s).2 x |>.1 h')

theorem count_flatMap {enum : Finset ι → List ι} (he : EnumOk enum) (t : PyTree ι) (x : ι) (l : List ℕ) :
    (l.flatMap fun p => enum (sharedAt t p)).count x = l.countP fun p => decide (x ∈ sharedAt t p) := by
  induction l with
  | nil => rfl
  | cons p l ih =>
    rw [List.flatMap_cons, List.count_append, ih, count_enum he, List.countP_cons]
    simp [Nat.add_comm]

theorem countP_postorder (t : PyTree ι) (x : ι) (s : PTree) (par : Option ℕ) (h : s.Encodes t.core.tree.nodes par) :
    (s.postorder.countP fun p => decide (x ∈ sharedAt t p)) = s.crossings fun p => decide (x ∈ t.inds p) := by
  induction s generalizing par with
  | leaf p =>
    have hN : t.core.tree.nodes p = _ := h
    simp [postorder, crossings, sharedAt, hN]
  | node p l r ihl ihr =>
    obtain ⟨hN, hl, hr⟩ := h
    have hp : sharedAt t p = t.inds l.root ∩ t.inds r.root := by unfold sharedAt; rw [hN]
    simp only [postorder, List.countP_append, ihl _ hl, ihr _ hr, crossings, List.countP_cons, List.countP_nil, hp,
      Finset.mem_inter, Bool.decide_and, Nat.zero_add]
    omega

theorem countP_nodes {t : PyTree ι} {s : PTree} (hw : WellFormed t.core.tree s) (x : ι) :
    ((List.range t.core.tree.size).countP fun p => decide (x ∈ sharedAt t p)) =
      s.crossings fun p => decide (x ∈ t.inds p) := by
  have h1 : s.postorder.Perm (List.range t.core.tree.size) :=
    (List.perm_ext_iff_of_nodup hw.nodup List.nodup_range).2 (by simpa using hw.mem)
  rw [← h1.countP_eq, countP_postorder t x s none hw.enc]

theorem countsAgree_iff {hyper : ι → Option ℕ} {c l : List ι} :
    countsAgree hyper c l = .ok true ↔ ∀ x ∈ l, hyper x = some (c.count x) := by
  induction l with
  | nil => simp [countsAgree]
  | cons x l ih =>
    simp only [countsAgree, List.forall_mem_cons]
    cases h : hyper x with
    | none => simp
    | some v =>
      simp only [Option.some.injEq]
      by_cases hv : v = c.count x
      · rw [if_pos hv, ih]; simp [hv]
      · rw [if_neg hv]; simp [hv]

/-- Which counts are accepted. -/
theorem checkHyper_iff {enum : Finset ι → List ι} (he : EnumOk enum) {t : PyTree ι}
    (hl : t.indsOrder.length = t.core.nInds) {s : PTree} (hw : WellFormed t.core.tree s) (shared : Bool) (hyper : ι → Option ℕ) :
    checkHyper enum t shared hyper = .ok true ↔
      (shared = true → ∀ p < t.core.tree.size, (t.core.tree.nodes p).isLeaf = false → sharedAt t p ≠ ∅) ∧
      ∀ x, 0 < (s.crossings fun p => decide (x ∈ t.inds p)) + (if x ∈ t.outputInds then 1 else 0) →
        hyper x = some ((s.crossings fun p => decide (x ∈ t.inds p)) + if x ∈ t.outputInds then 1 else 0) := by
  have hsz := hw.size_eq.2.2
  unfold checkHyper
  rcases sharedNames_eq enum hl hw shared (List.range t.core.tree.size) (by simp) with ⟨⟨h1, p, hp, h2, h3⟩, h4⟩ | ⟨h1, h4⟩
  · simp only [h4, bind, Except.bind, pure, Except.pure, Except.ok.injEq, Bool.false_eq_true, false_iff]
    rintro ⟨h5, -⟩
    exact h5 h1 p (by simpa using hp) h2 h3
  · simp only [h4, bind, Except.bind, indsAt_last hl hsz]
    rw [countsAgree_iff]
    have hc : ∀ x, List.count x (((List.range t.core.tree.size).flatMap fun p => enum (sharedAt t p)) ++ enum t.outputInds) =
        (s.crossings fun p => decide (x ∈ t.inds p)) + if x ∈ t.outputInds then 1 else 0 := by
      intro x
      rw [List.count_append, count_flatMap he, countP_nodes hw, count_enum he]
    simp only [mem_uniqueEverseen]
    simp only [← List.count_pos_iff, hc]
    refine ⟨fun h => ⟨fun hs p hp hlf hemp => h1 ⟨hs, p, by simpa using hp, hlf, hemp⟩, h⟩, fun h => h.2⟩

theorem dimsAgree_iff {dims : PyDims ι} {own : ι → Option ℕ} {l : List ι} (h : ∀ x ∈ l, own x ≠ none) :
    dimsAgree dims own l = .ok true ↔ ∀ x ∈ l, dims.get? x = own x := by
  induction l with
  | nil => simp [dimsAgree]
  | cons x l ih =>
    have ih := ih fun y hy => h y (by simp [hy])
    simp only [dimsAgree, List.forall_mem_cons]
    cases hd : dims.get? x with
    | none =>
      simp only [reduceCtorEq, false_iff]
      rintro ⟨h1, -⟩
      exact h x (by simp) h1.symm
    | some v =>
      simp only
      by_cases hv : some v = own x
      · rw [if_pos hv, ih]; simp [hv]
      · rw [if_neg hv]; simp [hv]

theorem allTests_iff {l : List (Except PyErr Bool)} : allTests l = .ok true ↔ ∀ t ∈ l, t = .ok true := by
  induction l with
  | nil => simp [allTests]
  | cons a l ih =>
    simp only [allTests, bind, Except.bind, List.forall_mem_cons]
    cases a with
    | error e => simp
    | ok b => cases b <;> simp [ih, pure, Except.pure]

end TNCO
