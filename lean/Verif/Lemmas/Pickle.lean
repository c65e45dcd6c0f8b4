import Verif.Model.Pickle
import Verif.Lemmas.Clean
import Verif.Lemmas.PathMain

/-! Rebuilding a tree from its nodes gives the same tree. -/

namespace TNCO

variable {ι : Type} [DecidableEq ι]

/-- What the constructors guarantee about a Python tree: every index has a name of its own and
occurs in some tensor. -/
structure CTree.Tidy (c : CTree) (order : List ι) : Prop where
  clean : c.Clean
  nodup : order.Nodup
  len : order.length = c.nInds
  cover : ∀ i < c.nInds, ∃ p < c.tree.size, i ∈ c.inds p
  dims : ∃ l : List ℕ, l.length = c.nInds ∧ c.dims = (Dims.vec l).collapse

theorem mapM_of_forall {α β : Type} {f : α → Option β} {g : α → β} {l : List α} (h : ∀ x ∈ l, f x = some (g x)) :
    l.mapM f = some (l.map g) := by
  rw [mapM_some_iff]
  refine ⟨by simp, fun i hi => ?_⟩
  rw [h _ (List.getElem_mem _)]
  simp [hi]

theorem maxInds_eq {L : List (List ℕ)} {n : ℕ} (h1 : ∀ xs ∈ L, ∀ x ∈ xs, x < n) (h2 : ∀ i < n, ∃ xs ∈ L, i ∈ xs) :
    maxInds L = n := by
  apply le_antisymm
  · have hle : ∀ (l : List ℕ), (∀ x ∈ l, x ≤ n) → l.foldr max 0 ≤ n := by
      intro l
      induction l with
      | nil => simp
      | cons a l ih =>
        intro h
        simp only [List.foldr_cons]
        exact max_le (h a (by simp)) (ih fun x hx => h x (by simp [hx]))
    have hle2 : ∀ (l : List ℕ), (∀ x ∈ l, x < n) → l.foldr (fun x m => max (x + 1) m) 0 ≤ n := by
      intro l
      induction l with
      | nil => simp
      | cons a l ih =>
        intro h
        simp only [List.foldr_cons]
        exact max_le (h a (by simp)) (ih fun x hx => h x (by simp [hx]))
    unfold maxInds
    apply hle
    intro x hx
    obtain ⟨xs, hxs, rfl⟩ := List.mem_map.1 hx
    exact hle2 xs (h1 xs hxs)
  · by_contra hc
    push Not at hc
    obtain ⟨xs, hxs, hx⟩ := h2 (n - 1) (by omega)
    have := lt_maxInds hxs hx
    omega

theorem collapse_cases (l : List ℕ) : (Dims.vec l).collapse = .vec l ∨
    ∃ d, (Dims.vec l).collapse = .int d ∧ l ≠ [] ∧ l = List.replicate l.length d := by
  cases l with
  | nil => exact Or.inl rfl
  | cons d l =>
    unfold Dims.collapse
    simp only
    split
    · next h =>
      refine Or.inr ⟨d, rfl, by simp, ?_⟩
      rw [List.length_cons, List.replicate_succ]
      congr 1
      apply List.eq_replicate_of_mem
      intro b hb
      simpa using List.all_eq_true.1 h b hb
    · exact Or.inl rfl

theorem tidy_dims {c : CTree} {order : List ι} (h : c.Tidy order) :
    ∃ l, (PyDims.dict (dimOf order c.dims)).toList order = .ok l ∧ (Dims.vec l).collapse = c.dims := by
  obtain ⟨l, hl, hd⟩ := h.dims
  refine ⟨l, ?_, hd.symm⟩
  have : order.mapM (dimOf order c.dims) = some l := by
    rw [mapM_some_iff]
    refine ⟨by rw [hl, h.len], fun i hi => ?_⟩
    unfold dimOf
    rw [if_pos (List.getElem_mem _), List.Nodup.idxOf_getElem h.nodup]
    rcases collapse_cases l with hc | ⟨d, hc, -, hr⟩
    · rw [hd, hc]
    · rw [hd, hc]
      simp only
      rw [hr, List.getElem?_replicate, if_pos]
      rw [hl, ← h.len]; exact hi
  unfold PyDims.toList
  simp only [this]

theorem namesOf_eq {order : List ι} {n : ℕ} (hl : order.length = n) (xs : ISet) :
    ∃ l, namesOf order n xs = some l ∧ (∀ x ∈ l, x ∈ order) ∧
      ∀ x, x ∈ l ↔ ∃ (i : ℕ) (h : i < order.length), i ∈ xs ∧ order[i] = x := by
  cases order with
  | nil =>
    simp only [List.length_nil] at hl
    subst hl
    exact ⟨[], by simp [namesOf], by simp, by simp⟩
  | cons a r =>
  have hmap : namesOf (a :: r) n xs =
      some (((List.range n).filter (· ∈ xs)).map fun i => (a :: r).getD i a) := by
    unfold namesOf
    apply mapM_of_forall
    intro i hi
    have : i < (a :: r).length := by rw [hl]; simpa using (List.mem_filter.1 hi).1
    rw [List.getD_eq_getElem _ _ this, List.getElem?_eq_getElem this]
  have hiff : ∀ x, x ∈ (((List.range n).filter (· ∈ xs)).map fun i => (a :: r).getD i a) ↔
      ∃ (i : ℕ) (h : i < (a :: r).length), i ∈ xs ∧ (a :: r)[i] = x := by
    intro x
    simp only [List.mem_map, List.mem_filter, List.mem_range, decide_eq_true_eq]
    constructor
    · rintro ⟨i, ⟨h1, h2⟩, h3⟩
      have h1' : i < (a :: r).length := by rw [hl]; exact h1
      exact ⟨i, h1', h2, by rw [← h3, List.getD_eq_getElem _ _ h1']⟩
    · rintro ⟨i, h1, h2, h3⟩
      exact ⟨i, ⟨by rw [← hl]; exact h1, h2⟩, by rw [List.getD_eq_getElem _ _ h1]; exact h3⟩
  refine ⟨_, hmap, fun x hx => ?_, hiff⟩
  obtain ⟨i, h1, -, h3⟩ := (hiff x).1 hx
  rw [← h3]; exact List.getElem_mem _

/-- Building from nodes and names that describe a tidy tree. -/
theorem ofNodes_tidy {c : CTree} {order : List ι} (h : c.Tidy order) (hv : c.isValid false = true)
    (hs : 0 < c.tree.size) (names : List (List ι)) (nT : ℕ) (tp : List ℕ) (hlen : names.length = c.tree.size)
    (hn : ∀ (p : ℕ) (hp : p < names.length) (x : ι), x ∈ names[p] ↔
      ∃ (i : ℕ) (h : i < order.length), i ∈ c.inds p ∧ order[i] = x) :
    PyTree.ofNodes ((List.range c.tree.size).map c.tree.nodes) names ⟨.dict (dimOf order c.dims), nT, tp, order⟩ false =
      .ok ⟨c, nT, tp, order⟩ := by
  have hcov : order.toFinset = names.flatten.toFinset := by
    ext x
    simp only [List.mem_toFinset, List.mem_flatten]
    constructor
    · intro hx
      obtain ⟨i, hi, rfl⟩ := List.mem_iff_getElem.1 hx
      obtain ⟨p, hp, hip⟩ := h.cover i (by rw [← h.len]; exact hi)
      exact ⟨names[p], List.getElem_mem _, (hn p (by omega) _).2 ⟨i, hi, hip, rfl⟩⟩
    · rintro ⟨xs, hxs, hx⟩
      obtain ⟨p, hp, rfl⟩ := List.mem_iff_getElem.1 hxs
      obtain ⟨i, hi, -, rfl⟩ := (hn p hp x).1 hx
      exact List.getElem_mem _
  obtain ⟨ds, hds, hcol⟩ := tidy_dims h
  have hT : Tree.ofList ((List.range c.tree.size).map c.tree.nodes) = c.tree := by
    unfold Tree.ofList
    have : (fun i => ((List.range c.tree.size).map c.tree.nodes).getD i default) = c.tree.nodes := by
      funext i
      by_cases hi : i < c.tree.size
      · rw [List.getD_eq_getElem _ _ (by simpa using hi)]; simp
      · rw [List.getD_eq_default _ _ (by simpa using hi)]
        exact (h.clean.nodes_out i (by omega)).symm
    rw [this]; simp
  have hvT : c.tree.isValid = true := by
    unfold CTree.isValid at hv
    simp only [Bool.and_eq_true] at hv
    exact hv.1.1
  have hinds : ∀ p, (((names.map fun xs => xs.map fun x => order.idxOf x).getD p []).toFinset) = c.inds p := by
    intro p
    by_cases hp : p < names.length
    · rw [List.getD_eq_getElem _ _ (by simpa using hp), List.getElem_map]
      ext i
      simp only [List.mem_toFinset, List.mem_map]
      constructor
      · rintro ⟨x, hx, rfl⟩
        obtain ⟨j, hj, hjp, rfl⟩ := (hn p hp x).1 hx
        rw [List.Nodup.idxOf_getElem h.nodup]; exact hjp
      · intro hi
        have hlt : i < order.length := by
          have := h.clean.inds_lt p hi
          rw [h.len]; simpa using this
        exact ⟨order[i], (hn p hp _).2 ⟨i, hlt, hi, rfl⟩, List.Nodup.idxOf_getElem h.nodup i hlt⟩
    · rw [List.getD_eq_default _ _ (by simpa using hp)]
      rw [h.clean.inds_out p (by omega)]; rfl
  have hmax : maxInds (names.map fun xs => xs.map fun x => order.idxOf x) = c.nInds := by
    apply maxInds_eq
    · intro xs hxs i hi
      obtain ⟨p, hp, rfl⟩ := List.mem_iff_getElem.1 hxs
      have := hinds p
      rw [List.getD_eq_getElem _ _ hp] at this
      have hm : i ∈ c.inds p := by rw [← this]; exact List.mem_toFinset.2 hi
      simpa using h.clean.inds_lt p hm
    · intro i hi
      obtain ⟨p, hp, hip⟩ := h.cover i hi
      rw [← hinds p, List.mem_toFinset, List.getD_eq_getElem _ _ (by simpa [hlen] using hp)] at hip
      exact ⟨_, List.getElem_mem _, hip⟩
  unfold PyTree.ofNodes
  rw [if_neg (by simp only [ne_eq, not_not]; exact hcov)]
  simp only [hds]
  have hmk : CTree.make ((List.range c.tree.size).map c.tree.nodes)
      (names.map fun xs => xs.map fun x => order.idxOf x) ds false = .ok c := by
    unfold CTree.make Tree.make
    rw [if_neg (by simp; omega), hT, if_pos hvT]
    simp only
    rw [if_neg (by simp [hlen])]
    have : (⟨c.tree, maxInds (names.map fun xs => xs.map fun x => order.idxOf x),
        fun p => ((names.map fun xs => xs.map fun x => order.idxOf x).getD p []).toFinset,
        (Dims.vec ds).collapse⟩ : CTree) = c := by
      rw [hmax, hcol]
      rw [show (fun p => ((names.map fun xs => xs.map fun x => order.idxOf x).getD p []).toFinset) = c.inds from
        funext hinds]
    rw [this, if_pos hv]
  rw [hmk]

theorem names_mapM {c : CTree} {order : List ι} (h : order.length = c.nInds) :
    ∃ names, ((List.range c.tree.size).map c.inds).mapM (namesOf order c.nInds) = some names ∧
      names.length = c.tree.size ∧
      ∀ (p : ℕ) (hp : p < names.length) (x : ι), x ∈ names[p] ↔
        ∃ (i : ℕ) (h : i < order.length), i ∈ c.inds p ∧ order[i] = x := by
  choose f hf1 hf2 hf3 using fun xs => namesOf_eq h xs
  refine ⟨((List.range c.tree.size).map c.inds).map f, mapM_of_forall fun x _ => hf1 x, by simp, ?_⟩
  intro p hp x
  simp only [List.getElem_map, List.getElem_range]
  exact hf3 _ x

/-- `__get_ctree__` followed by pickling gives back the tree itself. -/
theorem shipTree_tidy {enum : Finset ι → List ι} (he : EnumOk enum) {c : CTree} {order : List ι} (h : c.Tidy order)
    (hv : c.isValid false = true) (hs : 0 < c.tree.size) (nT : ℕ) (tp : List ℕ) :
    shipTree enum ⟨.dict (dimOf order c.dims), nT, tp, order⟩ c = .ok ⟨c, nT, tp, order⟩ := by
  obtain ⟨names, h1, h2, h3⟩ := names_mapM (c := c) h.len
  unfold shipTree getCtree
  simp only [h1]
  rw [ofNodes_tidy h hv hs names nT tp h2 h3]
  unfold PyTree.unpickle PyTree.cache PyTree.dims
  simp only [h1]
  refine ofNodes_tidy h hv hs _ nT tp (by simpa using h2) ?_
  intro p hp x
  simp only [List.getElem_map]
  rw [(he _).2, List.mem_toFinset]
  exact h3 p (by simpa using hp) x

/-- Trees accepted by `CTree.make` with names from the tensors are tidy. -/
theorem make_tidy {nodes : List Node} {ts : List (List ι)} {ds : List ℕ} {check : Bool} {c : CTree}
    (hds : ds.length = (uniqueEverseen ts.flatten).length)
    (h : CTree.make nodes (ts.map fun xs => xs.map fun x => (uniqueEverseen ts.flatten).idxOf x) ds check = .ok c) :
    c.Tidy (uniqueEverseen ts.flatten) := by
  unfold CTree.make at h
  split at h
  · cases h
  next T hT =>
  split at h
  · cases h
  next hlen =>
  simp only [ne_eq, not_not] at hlen
  simp only at h
  split at h
  · cases h
    have hTof : T = Tree.ofList nodes := by
      unfold Tree.make at hT
      split at hT
      · cases hT
      · split at hT
        · cases hT; rfl
        · cases hT
    subst hTof
    have hmax := maxInds_order ts
    refine ⟨⟨fun p hp => ?_, fun p hp => ?_, fun p => ?_⟩, uniqueLoop_nodup _ _, hmax.symm, ?_, ⟨ds, by rw [hds, hmax], rfl⟩⟩
    · simp only [Tree.ofList] at hp ⊢
      exact List.getD_eq_default _ _ hp
    · simp only at hp ⊢
      rw [List.getD_eq_default _ _ (by rw [hlen]; exact hp)]; rfl
    · intro i hi
      simp only [List.mem_toFinset] at hi ⊢
      rw [Finset.mem_range]
      by_cases hp : p < (ts.map fun xs => xs.map fun x => (uniqueEverseen ts.flatten).idxOf x).length
      · rw [List.getD_eq_getElem _ _ hp] at hi
        exact lt_maxInds (List.getElem_mem _) hi
      · rw [List.getD_eq_default _ _ (by omega)] at hi; simp at hi
    · intro i hi
      simp only at hi
      rw [hmax] at hi
      have hmem : (uniqueEverseen ts.flatten)[i] ∈ ts.flatten :=
        ((uniqueLoop_mem _ _ _).1 (List.getElem_mem hi)).1
      obtain ⟨xs, hxs, hx⟩ := List.mem_flatten.1 hmem
      obtain ⟨p, hp, rfl⟩ := List.mem_iff_getElem.1 hxs
      refine ⟨p, ?_, ?_⟩
      · simp only; rw [← hlen]; simpa using hp
      · simp only [List.mem_toFinset]
        rw [List.getD_eq_getElem _ _ (by simpa using hp), List.getElem_map, List.mem_map]
        exact ⟨_, hx, List.Nodup.idxOf_getElem (uniqueLoop_nodup _ _) i hi⟩
  · cases h

/-- Trees built from a path are tidy. -/
theorem ofPath_tidy {enum : Finset ι → List ι} {path : List (ℕ × ℕ)} {tsInds : List (List ι)} {dims : PyDims ι}
    {output : Option (List ι)} {check : Bool} {pt : PyTree ι}
    (h : PyTree.ofPath enum path tsInds dims output check = .ok pt) : pt.core.Tidy pt.indsOrder := by
  unfold PyTree.ofPath at h
  split at h
  · split at h <;> cases h
  split at h
  · cases h
  unfold PyTree.ofTriples at h
  dsimp only at h
  split at h
  · cases h
  split at h
  · cases h
  split at h
  · cases h
  split at h
  · cases h
  next ts hts =>
  split at h
  · cases h
  next ds hds =>
  split at h
  · cases h
  split at h
  · cases h
  next core hcore =>
  cases h
  refine make_tidy ?_ hcore
  unfold PyDims.toList at hds
  split at hds
  · cases hds; simp
  · split at hds
    · cases hds
    · next l hl => cases hds; exact ((mapM_some_iff _ _ _).1 hl).1

end TNCO
