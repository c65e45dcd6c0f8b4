import Verif.Lemmas.BalanceDraws

/-! Helper lemmas: equal trees have equal chances; updates of trees with three leaves. -/

namespace TNCO
open PTree MeasureTheory

variable {σ τ : Type} {m : CostModel ℝ} {w : Walk σ ℝ} {w' : Walk τ ℝ}

theorem AtInner.stepTree_congr (h : AtInner m w) (h' : AtInner m w') (hT : w'.o.ctree = w.o.ctree) (hB : w'.posB = w.posB)
    (hd : w'.o.disableShared = w.o.disableShared) (prob : ℝ → ℝ → ℝ) (n : ℕ) (u : ℝ) :
    w'.stepTree m prob n u = w.stepTree m prob n u := by
  have hi := h
  have hi' := h'
  obtain ⟨K, s, h, ob, l, r, rfl⟩ := h
  obtain ⟨K', s', h', hs'⟩ := h'
  obtain ⟨ob', l', r', hs'⟩ := hs'
  cases K with
  | top =>
    have hr : (w.o.ctree.tree.nodes w.posB).parent = none := by
      have := encodes_root_parent h.wf.enc
      simpa [Ctx.plug] using this
    unfold Walk.stepTree
    rw [hi.root prob hr, hi'.root prob (by rw [hT, hB]; exact hr)]
    exact hT
  | frame o A z K =>
    have hat : At m none false w o A z K ob l r := h
    have sp := hat.spot
    obtain ⟨c2, d2, e2, K2, hat2, hc2, hd2, he2⟩ := h'.at_of hs' (A := A) (D := l.root) (E := r.root) (C := z.root) (o := o)
      (o' := ob) (pa := K.par) (by rw [hT, hB]; exact sp.nB) (by rw [hT, hB]; exact sp.nA)
    have tp := hat2.spot
    have tp' := hat2.flip.spot
    rw [hc2, hd2, he2] at tp tp'
    have htot : w'.total = w.total := by
      rw [WInv.cost h' (t := (Ctx.frame o A z K).plug (fork ob w.posB l r)) (by rw [hT]; exact h.wf), WInv.cost h h.wf, hT]
    have hde : ∀ D E, NodeInv m w.o.ctree.inds w.o.hyper w.o.cost.contractionCost w.posB D E →
        NodeInv m w'.o.ctree.inds w'.o.hyper w'.o.cost.contractionCost w'.posB D E →
        candDelta m w' A w'.posB z.root D E = candDelta m w A w.posB z.root D E := by
      intro D E h1 h2
      unfold candDelta
      rw [h1.2.2, h2.2.2, sp.iA.2.2, tp.iA.2.2, hT, hB]
    rw [sp.stepTree hat.flip.spot, tp.stepTree tp', hde _ _ sp.iB tp.iB, hde _ _ hat.flip.spot.iB tp'.iB, htot, hT, hB, hd]

theorem AtInner.stepHalf_congr (h : AtInner m w) (h' : AtInner m w') (hT : w'.o.ctree = w.o.ctree) (hB : w'.posB = w.posB)
    (hd : w'.o.disableShared = w.o.disableShared) (prob : ℝ → ℝ → ℝ) (T : CTree) :
    w'.stepHalf m prob T = w.stepHalf m prob T := by
  unfold Walk.stepHalf
  simp only [h.stepTree_congr h' hT hB hd]

theorem meas_le {α : Type} (p : ℝ) (X Y T : α) : MeasurableSet {u : ℝ | (open Classical in if u ≤ p then X else Y) = T} := by
  classical
  by_cases h1 : X = T <;> by_cases h2 : Y = T
  · convert MeasurableSet.univ using 1; ext u; simp only [Set.mem_ofPred_eq, Set.mem_univ, iff_true]; split <;> assumption
  · convert measurableSet_Iic (a := p) using 1; ext u
    simp only [Set.mem_ofPred_eq, Set.mem_Iic]; split <;> simp_all
  · convert measurableSet_Ioi (a := p) using 1; ext u
    simp only [Set.mem_ofPred_eq, Set.mem_Ioi]; split <;> simp_all
  · convert MeasurableSet.empty using 1; ext u
    simp only [Set.mem_ofPred_eq, Set.mem_empty_iff_false, iff_false]; split <;> assumption

/-- The outcomes of the draw that lead to a tree form a measurable set. -/
theorem AtInner.measurable (h : AtInner m w) (prob : ℝ → ℝ → ℝ) (n : ℕ) (T : CTree) :
    MeasurableSet {u : ℝ | w.stepTree m prob n u = T} := by
  have hi := h
  obtain ⟨K, s, h, ob, l, r, rfl⟩ := h
  cases K with
  | top =>
    have hr : (w.o.ctree.tree.nodes w.posB).parent = none := by
      have := encodes_root_parent h.wf.enc
      simpa [Ctx.plug] using this
    unfold Walk.stepTree
    simp only [hi.root prob hr]
    exact MeasurableSet.const (w.o.ctree = T)
  | frame o A z K =>
    have hat : At m none false w o A z K ob l r := h
    simp only [hat.spot.stepTree hat.flip.spot]
    generalize staysD _ _ _ _ n = b
    cases b
    · simp only [Bool.false_eq_true, if_false]
      convert meas_le (prob (candDelta m w A w.posB z.root r.root l.root) w.total) (cand w.o.ctree A w.posB z.root r.root l.root)
        w.o.ctree T
    · simp only [if_true]
      convert meas_le (prob (candDelta m w A w.posB z.root l.root r.root) w.total) (cand w.o.ctree A w.posB z.root l.root r.root)
        w.o.ctree T

theorem integral_tree {S : Set ℝ} (hS : MeasurableSet S) :
    ∫⁻ u in Set.Ico (0 : ℝ) 1, (open Classical in if u ∈ S then (1 : ENNReal) else 0) = volume {u : ℝ | u ∈ Set.Ico 0 1 ∧ u ∈ S} := by
  classical
  have : (fun u : ℝ => if u ∈ S then (1 : ENNReal) else 0) = S.indicator 1 := by
    funext u; simp [Set.indicator]
  rw [this, lintegral_indicator_one hS, Measure.restrict_apply hS]
  congr 1
  ext u; simp only [Set.mem_inter_iff, Set.mem_ofPred_eq]; tauto

/-- The iteration below the root is the last one that does anything. -/
theorem AtInner.end_step {w : Walk (ℕ × ℝ) ℝ} (h : AtInner m w) (prob : ℝ → ℝ → ℝ) {A : ℕ}
    (hA : (w.o.ctree.tree.nodes w.posB).parent = some A) (hr : (w.o.ctree.tree.nodes A).parent = none) (k : ℕ) (T : CTree) :
    Walk.endHalf m prob (k + 1) w T = w.stepHalf m prob T := by
  classical
  have hi := h
  obtain ⟨K, s, h, ob, l, r, rfl⟩ := h
  cases K with
  | top =>
    exfalso
    have := encodes_root_parent h.wf.enc
    rw [show (Ctx.top.plug (fork ob w.posB l r)).root = w.posB by simp [Ctx.plug], hA] at this
    simp at this
  | frame o A' z K =>
    have hat : At m none false w o A' z K ob l r := h
    have sp := hat.spot
    have hAA : A' = A := by
      have := sp.nB
      rw [this] at hA
      cases ob <;> simpa [mkNode] using hA
    subst hAA
    have hpa : K.par = none := by
      have := sp.nA
      rw [this] at hr
      cases o <;> simpa [mkNode] using hr
    have sp' := hat.flip.spot
    rw [hpa] at sp sp'
    have hpar : ∀ n u, ((w.stepTree m prob n u).tree.nodes A').parent = none := by
      intro n u
      rw [sp.stepTree sp']
      split
      · split
        · rw [sp.cand_child]; cases o <;> rfl
        · exact hr
      · split
        · rw [sp'.cand_child]; cases o <;> rfl
        · exact hr
    have key : ∀ n u, Walk.endHalf m prob k (Walk.once drawPrng m prob (w.withPrng (n, u))) T =
        if u ∈ {u : ℝ | w.stepTree m prob n u = T} then 1 else 0 := by
      intro n u
      rw [endHalf_root (hi.once prob n u) prob (by rw [sp.once_pos]; exact hpar n u)]
      rfl
    simp only [Walk.endHalf, key]
    unfold Walk.stepHalf
    rw [integral_tree (hi.measurable prob 0 T), integral_tree (hi.measurable prob 1 T)]
    rfl

/-- An update of a tree with three leaves: two thirds of the chance of the only iteration. -/
theorem three_update {o : InfOpt σ ℝ} {t : PTree} (h : OInv m none false o t) (hsz : o.ctree.tree.size = 5)
    (prob : ℝ → ℝ → ℝ) {T : CTree} (hT : o.ctree ≠ T) :
    AtInner m (⟨o, 3, o.totalCost⟩ : Walk σ ℝ) ∧
    o.updateHalf m prob T = 3⁻¹ * (2 * (⟨o, 3, o.totalCost⟩ : Walk σ ℝ).stepHalf m prob T) := by
  classical
  have hwf : WellFormed o.ctree.tree t := h.wf
  have hp : t.postorder.Perm (List.range 5) := by
    refine (List.perm_ext_iff_of_nodup hwf.nodup List.nodup_range).2 ?_
    intro p; rw [hwf.mem, List.mem_range, hsz]
  have hln : t.leaves.Nodup := by
    have := (t.postorder_perm).nodup_iff.1 hwf.nodup
    exact (List.nodup_append.1 this).1
  have hl : t.leaves.Perm (List.range 3) := by
    refine (List.perm_ext_iff_of_nodup hln List.nodup_range).2 ?_
    intro p; rw [hwf.leaves, List.mem_range, hsz]
  have hl3 : t.leaves.length = 3 := by rw [hl.length_eq, List.length_range]
  -- the shape
  obtain ⟨ob, ob', p, B, a, b, c, rfl⟩ : ∃ ob ob' p B a b c, t = fork ob p (fork ob' B (.leaf a) (.leaf b)) (.leaf c) := by
    have len1 : ∀ s : PTree, s.leaves.length = 1 → ∃ a, s = .leaf a := by
      intro s hs
      cases s with
      | leaf a => exact ⟨a, rfl⟩
      | node p l r =>
        have := l.length_leaves_pos; have := r.length_leaves_pos
        simp only [leaves, List.length_append] at hs; omega
    have len2 : ∀ s : PTree, s.leaves.length = 2 → ∃ B a b, s = .node B (.leaf a) (.leaf b) := by
      intro s hs
      cases s with
      | leaf a => simp [leaves] at hs
      | node p l r =>
        have := l.length_leaves_pos; have := r.length_leaves_pos
        simp only [leaves, List.length_append] at hs
        obtain ⟨a, rfl⟩ := len1 l (by omega)
        obtain ⟨b, rfl⟩ := len1 r (by omega)
        exact ⟨p, a, b, rfl⟩
    cases t with
    | leaf a => simp [leaves] at hl3
    | node p l r =>
      have h1 := l.length_leaves_pos; have h2 := r.length_leaves_pos
      simp only [leaves, List.length_append] at hl3
      by_cases hh : l.leaves.length = 1
      · obtain ⟨c, rfl⟩ := len1 l hh
        obtain ⟨B, a, b, rfl⟩ := len2 r (by omega)
        exact ⟨false, true, p, B, a, b, c, rfl⟩
      · obtain ⟨c, rfl⟩ := len1 r (by omega)
        obtain ⟨B, a, b, rfl⟩ := len2 l (by omega)
        exact ⟨true, true, p, B, a, b, c, rfl⟩
  have henc := hwf.enc
  rw [encodes_fork, encodes_fork] at henc
  simp only [root_fork] at henc
  obtain ⟨hNp, ⟨hNB, ha, hb⟩, hc⟩ := henc
  have pa : (o.ctree.tree.nodes a).parent = some B := encodes_root_parent ha
  have pb : (o.ctree.tree.nodes b).parent = some B := encodes_root_parent hb
  have pc : (o.ctree.tree.nodes c).parent = some p := encodes_root_parent hc
  have hroot : p = 4 := by have := hwf.root; rw [hsz] at this; simpa using this
  have hlv : [a, b, c].Perm (List.range 3) := by
    refine List.Perm.trans ?_ hl
    refine List.Perm.symm ((leaves_fork _ _ _ _).trans ?_)
    exact (leaves_fork ob' B (.leaf a) (.leaf b)).append_right _
  have hB3 : B = 3 := by
    have hmem : B ∈ (fork ob p (fork ob' B (.leaf a) (.leaf b)) (.leaf c)).postorder := by
      rw [(postorder_fork _ _ _ _).mem_iff]
      simp only [List.mem_cons, List.mem_append]
      right; left
      rw [(postorder_fork _ _ _ _).mem_iff]; simp
    have h5 : B < 5 := by rw [← hsz]; exact (hwf.mem B).1 hmem
    have hnd := (postorder_fork _ _ _ _).nodup_iff.1 hwf.nodup
    rw [List.nodup_cons, List.nodup_append] at hnd
    have hBp : B ≠ p := by
      intro hh; apply hnd.1
      simp only [List.mem_append]; left
      rw [(postorder_fork _ _ _ _).mem_iff]; simp [hh]
    have hnl : ¬ B < 3 := by
      intro hh
      have hBl : B ∈ [a, b, c] := hlv.mem_iff.2 (List.mem_range.2 hh)
      have hin := (postorder_fork ob' B (.leaf a) (.leaf b)).nodup_iff.1 hnd.2.1
      simp only [postorder, List.nodup_cons, List.mem_append, List.mem_cons, List.not_mem_nil, or_false, not_or] at hin
      simp only [List.mem_cons, List.not_mem_nil, or_false] at hBl
      rcases hBl with h1 | h1 | h1
      · exact hin.1.1 h1
      · exact hin.1.2 h1
      · refine hnd.2.2.2 B ?_ B ?_ rfl
        · rw [(postorder_fork _ _ _ _).mem_iff]; simp
        · simp [postorder, h1]
    omega
  subst hB3
  have has : a < o.ctree.tree.size := by
    have := List.mem_range.1 (hlv.mem_iff.1 (by simp : a ∈ [a, b, c])); omega
  have hcs : c < o.ctree.tree.size := by
    have := List.mem_range.1 (hlv.mem_iff.1 (by simp : c ∈ [a, b, c])); omega
  have hin := OInv.inner h has pa
  have hin' := OInv.inner h hcs pc
  refine ⟨hin, ?_⟩
  have hpB : (o.ctree.tree.nodes 3).parent = some p := by rw [hNB]; cases ob' <;> rfl
  have hpp : (o.ctree.tree.nodes p).parent = none := by rw [hNp]; cases ob <;> rfl
  have fB : ∀ q, (o.ctree.tree.nodes q).parent = some 3 →
      o.leafHalf m prob T q = (⟨o, 3, o.totalCost⟩ : Walk σ ℝ).stepHalf m prob T := by
    intro q hq
    unfold InfOpt.leafHalf
    rw [hq]
    simp only
    rw [hsz]
    exact (hin.withPrng ((0 : ℕ), (0 : ℝ))).end_step prob hpB hpp 4 T
  have fp : o.leafHalf m prob T c = 0 := by
    unfold InfOpt.leafHalf
    rw [pc]
    simp only
    rw [endHalf_root (hin'.withPrng ((0 : ℕ), (0 : ℝ))) prob hpp, if_neg]
    exact hT
  have hn : o.ctree.tree.nLeaves = 3 := by unfold Tree.nLeaves; rw [hsz]
  unfold InfOpt.updateHalf
  rw [hn]
  have hsum : ∑ q ∈ Finset.range 3, o.leafHalf m prob T q = ([a, b, c].map fun q => o.leafHalf m prob T q).sum := by
    rw [(hlv.map _).sum_eq]
    simp [Finset.sum_range_succ, List.range_succ, add_assoc]
  rw [hsum]
  simp only [List.map_cons, List.map_nil, List.sum_cons, List.sum_nil, fB a pa, fB b pb, fp, add_zero]
  rw [two_mul]
  norm_num

end TNCO
