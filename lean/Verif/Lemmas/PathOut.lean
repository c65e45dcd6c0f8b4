import Verif.Lemmas.PathMain

/-! `path()`: the linear path of a tree. -/

namespace TNCO
open PTree

theorem leaves_internals_count (t : PTree) (x : ℕ) :
    t.postorder.count x = t.leaves.count x + t.internals.count x := by
  induction t with
  | leaf p => simp [postorder, leaves, internals]
  | node p l r ihl ihr =>
    simp only [postorder, leaves, internals, List.count_append, List.count_cons, ihl, ihr, List.count_nil]
    omega

theorem leaves_nodup {t : PTree} (h : t.postorder.Nodup) : t.leaves.Nodup := by
  rw [List.nodup_iff_count_le_one] at *
  intro x
  have := h x
  rw [leaves_internals_count] at this
  omega

theorem internals_nodup {t : PTree} (h : t.postorder.Nodup) : t.internals.Nodup := by
  rw [List.nodup_iff_count_le_one] at *
  intro x
  have := h x
  rw [leaves_internals_count] at this
  omega

theorem leaves_internals_disjoint {t : PTree} (h : t.postorder.Nodup) {x : ℕ} (h1 : x ∈ t.leaves)
    (h2 : x ∈ t.internals) : False := by
  have := List.nodup_iff_count_le_one.1 h x
  rw [leaves_internals_count] at this
  have := List.count_pos_iff.2 h1
  have := List.count_pos_iff.2 h2
  omega

theorem roots_nodup {F : List PTree} (h : (Run.labels F).Nodup) : (F.map root).Nodup := by
  induction F with
  | nil => simp
  | cons a F ih =>
    simp only [Run.labels, List.flatMap_cons, List.nodup_append] at h
    rw [List.map_cons, List.nodup_cons]
    refine ⟨fun hm => ?_, ih h.2.1⟩
    obtain ⟨b, hb, e⟩ := List.mem_map.1 hm
    exact h.2.2 a.root (root_mem a) b.root
      (List.mem_flatMap.2 ⟨b, hb, root_mem b⟩) e.symm

theorem popPair_of_lt {α : Type} {F : List α} {i j : ℕ} (hi : i < F.length) (hj : j < F.length) (hij : i ≠ j) :
    popPair F i j = some (F[min i j]'(by omega), F[max i j]'(by omega),
      (F.eraseIdx (max i j)).eraseIdx (min i j)) := by
  unfold popPair
  rw [List.getElem?_eq_getElem (by omega : max i j < F.length)]
  simp only
  rw [List.getElem?_eraseIdx_of_lt (by omega), List.getElem?_eq_getElem (by omega : min i j < F.length)]

theorem pathLoop_run {F c F'} (h : Run F c F') (hn : (Run.labels F').Nodup) (f : ℕ → ℕ)
    (P : List (PTree × Term)) (hP : (P.map Prod.fst).Perm F)
    (hs : ∀ q ∈ P, q.2.Same (q.1.toTerm f)) :
    ∃ (path : List (ℕ × ℕ)) (P' : List (PTree × Term)), PyTree.pathLoop c (P.map fun q => q.1.root) = some path ∧
      (∀ s ∈ path, s.1 ≠ s.2) ∧ path.length = c.length ∧
      replay (P.map Prod.snd) path = some (P'.map Prod.snd) ∧
      (∀ q ∈ P', q.2.Same (q.1.toTerm f)) ∧ (P'.map Prod.fst).Perm F' := by
  induction h generalizing P with
  | nil h => exact ⟨[], P, rfl, by simp, rfl, rfl, hs, hP.trans h⟩
  | @cons F a b rest z c F' h hr ih =>
    have hnF : (Run.labels (P.map Prod.fst)).Nodup :=
      (Run.labels_perm hP).nodup_iff.2 ((Run.cons h hr).nodup_left hn)
    have hroots := roots_nodup hnF
    have e : (P.map Prod.fst).map root = P.map fun q => q.1.root := by rw [List.map_map]; rfl
    rw [e] at hroots
    have hP2 := hP.trans h
    have ha : a.root ∈ P.map fun q => q.1.root := by
      rw [← e]; exact List.mem_map_of_mem (hP2.mem_iff.2 (by simp))
    have hb : b.root ∈ P.map fun q => q.1.root := by
      rw [← e]; exact List.mem_map_of_mem (hP2.mem_iff.2 (by simp))
    have hab : a.root ≠ b.root := by
      have := roots_nodup ((Run.labels_perm hP2).nodup_iff.1 hnF)
      simp only [List.map_cons, List.nodup_cons, List.mem_cons, not_or] at this
      exact this.1.1
    set i := (P.map fun q => q.1.root).idxOf a.root with hi
    set j := (P.map fun q => q.1.root).idxOf b.root with hj
    have hil : i < P.length := by have := List.idxOf_lt_length_of_mem ha; simpa using this
    have hjl : j < P.length := by have := List.idxOf_lt_length_of_mem hb; simpa using this
    have hPi : P[i].1.root = a.root := by
      have := List.getElem_idxOf (xs := P.map fun q => q.1.root) (x := a.root) (by simpa using hil)
      simpa [← hi] using this
    have hPj : P[j].1.root = b.root := by
      have := List.getElem_idxOf (xs := P.map fun q => q.1.root) (x := b.root) (by simpa using hjl)
      simpa [← hj] using this
    have hij : i ≠ j := by
      intro e'
      apply hab
      rw [← hPi, ← hPj]
      simp only [e']
    -- the tree at a position is determined by its root
    have hinj : ∀ q ∈ P, ∀ t ∈ P.map Prod.fst, q.1.root = t.root → q.1 = t := by
      intro q hq t ht he
      obtain ⟨q', hq', rfl⟩ := List.mem_map.1 ht
      have := List.inj_on_of_nodup_map hroots hq hq' he
      rw [this]
    have hai : P[i].1 = a := hinj _ (List.getElem_mem _) a (hP2.mem_iff.2 (by simp)) hPi
    have hbj : P[j].1 = b := hinj _ (List.getElem_mem _) b (hP2.mem_iff.2 (by simp)) hPj
    have hpop := popPair_of_lt hil hjl hij
    have hperm := (popPair_perm hpop).map Prod.fst
    set rest' := (P.eraseIdx (max i j)).eraseIdx (min i j) with hrest
    have hr' : (rest'.map Prod.fst).Perm rest := by
      have h1 := hperm.symm.trans hP2
      simp only [List.map_cons] at h1
      rcases lt_or_gt_of_ne hij with hlt | hlt
      · have e1 : min i j = i := by omega
        have e2 : max i j = j := by omega
        simp only [e1, e2, hai, hbj] at h1
        exact (List.perm_cons _).1 ((List.perm_cons _).1 h1)
      · have e1 : min i j = j := by omega
        have e2 : max i j = i := by omega
        simp only [e1, e2, hai, hbj] at h1
        exact (List.perm_cons _).1 ((List.perm_cons _).1 ((List.Perm.swap _ _ _).trans h1))
    set u : Term := .pair (P[min i j]'(by omega)).2 (P[max i j]'(by omega)).2 with hu
    have hus : u.Same ((PTree.node z a b).toTerm f) := by
      have s1 := hs _ (List.getElem_mem hil)
      have s2 := hs _ (List.getElem_mem hjl)
      rw [hai] at s1; rw [hbj] at s2
      rcases lt_or_gt_of_ne hij with hlt | hlt
      · have e1 : min i j = i := by omega
        have e2 : max i j = j := by omega
        simp only [hu, e1, e2, toTerm]
        exact .pair s1 s2
      · have e1 : min i j = j := by omega
        have e2 : max i j = i := by omega
        simp only [hu, e1, e2, toTerm]
        exact .swap s2 s1
    obtain ⟨path, P', h1, h1', hlen, h2, h3, h4⟩ := ih hn (rest' ++ [(PTree.node z a b, u)])
      (by
        rw [List.map_append]
        exact (List.perm_append_singleton _ _).trans (hr'.cons _))
      (by
        intro q hq
        rcases List.mem_append.1 hq with hq | hq
        · exact hs q (List.mem_of_mem_eraseIdx (List.mem_of_mem_eraseIdx hq))
        · rw [List.mem_singleton.1 hq]; exact hus)
    refine ⟨(i, j) :: path, P', ?_, ?_, by simp [hlen], ?_, h3, h4⟩
    · unfold PyTree.pathLoop
      rw [if_pos ⟨ha, hb⟩]
      simp only
      have e3 : (((P.map fun q => q.1.root).eraseIdx (max i j)).eraseIdx (min i j)) ++ [z] =
          (rest' ++ [(PTree.node z a b, u)]).map fun q => q.1.root := by
        rw [List.map_append, hrest, List.eraseIdx_map, List.eraseIdx_map]; rfl
      rw [← hi, ← hj, e3, h1]; rfl
    · intro s hs'
      rcases List.mem_cons.1 hs' with rfl | hs'
      · exact hij
      · exact h1' s hs'
    · rw [replay_cons hij, popPair_map, hpop]
      simp only [Option.map_some, Option.bind_some]
      rw [← h2, List.map_append]; rfl

variable {ι : Type} [DecidableEq ι]

/-- The path of any tree over `n` tensors. -/
theorem path_spec (pt : PyTree ι) {t : PTree} (hwf : WellFormed pt.core.tree t)
    (hlen : pt.tensorsPos.length = (pt.core.tree.size + 1) / 2) (hnd : pt.tensorsPos.Nodup)
    (hlt : ∀ p ∈ pt.tensorsPos, p < pt.nTensors) :
    ∃ path F u, pt.path = some path ∧ (∀ s ∈ path, s.1 ≠ s.2) ∧ path.length = t.contr.length ∧
      replay (initTerms pt.nTensors) path = some F ∧
      F.Perm (u :: ((List.range pt.nTensors).filter (· ∉ pt.tensorsPos)).map .tensor) ∧
      u.Same (t.toTerm fun p => pt.tensorsPos.getD p 0) := by
  set n := pt.nTensors
  set SL := pt.tensorsPos
  set g := PyTree.rescale n pt.core.tree.nLeaves SL with hg
  have hnl : pt.core.tree.nLeaves = SL.length := by
    rw [hlen]; rfl
  have hgl : ∀ p (hp : p < SL.length), g p = SL[p] := by
    intro p hp
    simp only [hg, PyTree.rescale, List.getElem?_eq_getElem hp]
  have hgi : ∀ p, SL.length ≤ p → g p = p + n - SL.length := by
    intro p hp
    simp only [hg, PyTree.rescale, List.getElem?_eq_none hp, hnl]
  have hSLn : SL.length ≤ n := by
    have h2 : SL.Subperm (List.range n) := hnd.subperm fun p hp => List.mem_range.2 (hlt p hp)
    simpa using h2.length_le
  have hinj : ∀ p q, g p = g q → p = q := by
    intro p q hpq
    by_cases hp : p < SL.length <;> by_cases hq : q < SL.length
    · rw [hgl p hp, hgl q hq] at hpq
      exact (hnd.getElem_inj_iff).1 hpq
    · rw [hgl p hp, hgi q (by omega)] at hpq
      have := hlt _ (List.getElem_mem hp)
      omega
    · rw [hgi p (by omega), hgl q hq] at hpq
      have := hlt _ (List.getElem_mem hq)
      omega
    · rw [hgi p (by omega), hgi q (by omega)] at hpq
      omega
  have hrun := (Run.contr t).map g
  simp only [List.map_map] at hrun
  have hleaf : (t.leaves.map g).Perm SL := by
    have h1 : t.leaves.Perm (List.range SL.length) := by
      refine (List.perm_ext_iff_of_nodup ?_ List.nodup_range).2 fun p => ?_
      · exact leaves_nodup hwf.nodup
      · rw [hwf.leaves, List.mem_range, hlen]
    refine (h1.map g).trans ?_
    have : (List.range SL.length).map g = SL := by
      refine List.ext_getElem (by simp) fun i h1 h2 => ?_
      simp only [List.getElem_map, List.getElem_range]
      exact hgl i h2
    rw [this]
  have hframe := hrun.frame (((List.range n).filter (· ∉ SL)).map PTree.leaf)
  have hinit : ((List.range n).map PTree.leaf).Perm
      (t.leaves.map ((mapP g) ∘ PTree.leaf) ++ ((List.range n).filter (· ∉ SL)).map PTree.leaf) := by
    have e1 : t.leaves.map ((mapP g) ∘ PTree.leaf) = (t.leaves.map g).map PTree.leaf := by
      rw [List.map_map]; rfl
    rw [e1, ← List.map_append]
    refine List.Perm.map _ ?_
    refine List.Perm.trans ?_ (hleaf.symm.append_right _)
    rw [List.perm_iff_count]; intro x
    rw [List.count_append]
    by_cases hx : x ∈ SL
    · have h1 : ((List.range n).filter (· ∉ SL)).count x = 0 := by
        rw [List.count_eq_zero, List.mem_filter]; simp [hx]
      rw [h1, List.count_eq_one_of_mem hnd hx, List.count_eq_one_of_mem List.nodup_range
        (List.mem_range.2 (hlt x hx))]
    · rw [List.count_eq_zero.2 hx, List.count_filter (by simpa using hx)]; omega
  have hnodup : (Run.labels ([t].map (mapP g) ++ ((List.range n).filter (· ∉ SL)).map PTree.leaf)).Nodup := by
    rw [List.nodup_iff_count_le_one]
    intro x
    rw [hframe.labels_count]
    have h1 := (Run.labels_perm hinit).count_eq x
    rw [← h1]
    have e2 : Run.labels ((List.range n).map PTree.leaf) = List.range n := by
      simp [Run.labels, List.flatMap_map, postorder, List.flatMap_singleton']
    rw [e2]
    have e3 : (t.contr.map fun t => (g t.1, g t.2.1, g t.2.2)).map (fun t => t.2.2) = t.internals.map g := by
      rw [← contr_third, List.map_map, List.map_map]; rfl
    rw [e3]
    have hni : (t.internals.map g).Nodup :=
      (internals_nodup hwf.nodup).map fun p q => hinj p q
    have h2 := List.nodup_iff_count_le_one.1 hni x
    have h3 := List.nodup_iff_count_le_one.1 (List.nodup_range (n := n)) x
    by_cases hx : x < n
    · have : (t.internals.map g).count x = 0 := by
        rw [List.count_eq_zero]
        intro hm
        obtain ⟨p, hp, rfl⟩ := List.mem_map.1 hm
        have : ¬ p < SL.length := by
          intro hlt'
          rw [hlen, ← hwf.leaves] at hlt'
          exact leaves_internals_disjoint hwf.nodup hlt' hp
        rw [hgi p (by omega)] at hx
        omega
      omega
    · have : (List.range n).count x = 0 := List.count_eq_zero.2 (by simpa using hx)
      omega
  obtain ⟨path, P', h1, h1', hl, h2, h3, h4⟩ := pathLoop_run (hframe.perm_left hinit) hnodup id
    ((List.range n).map fun p => (PTree.leaf p, Term.tensor p)) (by rw [List.map_map]; rfl)
    (by
      intro q hq
      obtain ⟨p, -, rfl⟩ := List.mem_map.1 hq
      exact Term.Same.tensor p)
  rw [List.map_map] at h1 h2
  have e4 : (List.range n).map ((fun q : PTree × Term => q.1.root) ∘ fun p => (PTree.leaf p, Term.tensor p)) =
      List.range n := by
    have : ((fun q : PTree × Term => q.1.root) ∘ fun p => (PTree.leaf p, Term.tensor p)) = id := rfl
    rw [this, List.map_id]
  rw [e4] at h1
  have hpath : pt.path = some path := by
    unfold PyTree.path
    rw [getContraction_eq hwf (le_refl _)]
    exact h1
  -- the final list
  have hmem : t.mapP g ∈ P'.map Prod.fst := h4.mem_iff.2 (by simp)
  obtain ⟨q0, hq0, hq0e⟩ := List.mem_map.1 hmem
  obtain ⟨A, B, rfl⟩ := List.append_of_mem hq0
  have h5 : ((A ++ B).map Prod.fst).Perm (((List.range n).filter (· ∉ SL)).map PTree.leaf) := by
    have h6 : ((q0 :: (A ++ B)).map Prod.fst).Perm (t.mapP g :: ((List.range n).filter (· ∉ SL)).map PTree.leaf) :=
      (((List.perm_middle (a := q0) (l₁ := A) (l₂ := B)).map _).symm.trans h4)
    rw [List.map_cons, hq0e] at h6
    exact (List.perm_cons _).1 h6
  have h7 : ∀ q ∈ A ++ B, q.2 = q.1.toTerm id := by
    intro q hq
    have hq1 : q.1 ∈ ((List.range n).filter (· ∉ SL)).map PTree.leaf := h5.mem_iff.1 (List.mem_map_of_mem hq)
    obtain ⟨p, -, hp⟩ := List.mem_map.1 hq1
    have := h3 q (by
      rcases List.mem_append.1 hq with hq | hq
      · simp [hq]
      · simp [hq])
    rw [← hp] at this ⊢
    generalize q.2 = w at this
    cases this
    rfl
  refine ⟨path, _, q0.2, hpath, h1', by simpa using hl, h2, ?_, ?_⟩
  · refine ((List.perm_middle (a := q0) (l₁ := A) (l₂ := B)).map Prod.snd).trans ?_
    rw [List.map_cons]
    refine List.Perm.cons _ ?_
    have e5 : (A ++ B).map Prod.snd = ((A ++ B).map Prod.fst).map (toTerm id) := by
      rw [List.map_map]
      exact List.map_congr_left h7
    rw [e5]
    refine (h5.map _).trans ?_
    rw [List.map_map]; rfl
  · have h8 := h3 q0 hq0
    rw [hq0e, toTerm_mapP] at h8
    rw [toTerm_congr (g := (id ∘ g))]
    · exact h8
    · intro p hp
      have hp' : p < SL.length := by rw [hlen]; exact (hwf.leaves p).1 hp
      simp only [Function.comp, id]
      rw [hgl p hp', List.getD_eq_getElem _ _ hp']

end TNCO
