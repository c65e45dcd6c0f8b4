import Verif.Spec.Balance
import Verif.Props.InfMem
import Verif.Props.Prob

/-! Helper lemmas: the trees one iteration of the loop can lead to, and the way back. -/

namespace TNCO
open PTree

variable {σ τ : Type}

/-! The chances with a fair coin and a uniform leaf (Lemmas/BalanceCoin.lean: the coins and leaves of the model are such). -/

/-- The chance that one iteration at the current position leads to the tree `T`: a fair coin, and a number of `[0, 1)`. -/
noncomputable def Walk.stepHalf (m : CostModel ℝ) (prob : ℝ → ℝ → ℝ) (w : Walk σ ℝ) (T : CTree) : ENNReal :=
  2⁻¹ * MeasureTheory.volume {u : ℝ | u ∈ Set.Ico 0 1 ∧ w.stepTree m prob 0 u = T} +
  2⁻¹ * MeasureTheory.volume {u : ℝ | u ∈ Set.Ico 0 1 ∧ w.stepTree m prob 1 u = T}

/-- The chance that `k` iterations from the state `w` lead to the tree `T`, with fresh draws in each; at the root an iteration
does nothing. -/
noncomputable def Walk.endHalf (m : CostModel ℝ) (prob : ℝ → ℝ → ℝ) : ℕ → Walk (ℕ × ℝ) ℝ → CTree → ENNReal
  | 0, w, T => open Classical in if w.o.ctree = T then 1 else 0
  | k + 1, w, T =>
    2⁻¹ * (∫⁻ u in Set.Ico (0 : ℝ) 1, Walk.endHalf m prob k (Walk.once drawPrng m prob (w.withPrng (0, u))) T) +
    2⁻¹ * (∫⁻ u in Set.Ico (0 : ℝ) 1, Walk.endHalf m prob k (Walk.once drawPrng m prob (w.withPrng (1, u))) T)

/-- the chance that an update of `o` started at the leaf `q` leads to the tree `T`. -/
noncomputable def InfOpt.leafHalf (m : CostModel ℝ) (prob : ℝ → ℝ → ℝ) (o : InfOpt σ ℝ) (T : CTree) (q : ℕ) : ENNReal :=
  match (o.ctree.tree.nodes q).parent with
  | none => open Classical in if o.ctree = T then 1 else 0
  | some posB => Walk.endHalf m prob o.ctree.tree.size ((⟨o, posB, o.totalCost⟩ : Walk σ ℝ).withPrng (0, 0)) T

/-- the chance that an update of `o` leads to the tree `T`; every leaf is as likely. -/
noncomputable def InfOpt.updateHalf (m : CostModel ℝ) (prob : ℝ → ℝ → ℝ) (o : InfOpt σ ℝ) (T : CTree) : ENNReal :=
  (o.ctree.tree.nLeaves : ENNReal)⁻¹ * ∑ q ∈ Finset.range o.ctree.tree.nLeaves, o.leafHalf m prob T q

/-- The tree after `E` and `C` have changed places. -/
def cand (T : CTree) (A B C D E : ℕ) : CTree :=
  { T with tree := T.tree.swapWithNN E, inds := Function.update T.inds B (newB T.inds A B C D E) }

/-- The change of the cost, as computed by the loop. -/
def candDelta (m : CostModel ℝ) (w : Walk σ ℝ) (A B C D E : ℕ) : ℝ :=
  (m.contractionCost (newB w.o.ctree.inds A B C D E) (w.o.ctree.inds D) (w.o.ctree.inds C) - w.o.cost.contractionCost B) +
  (m.contractionCost (w.o.ctree.inds A) (newB w.o.ctree.inds A B C D E) (w.o.ctree.inds E) - w.o.cost.contractionCost A)

/-- The state of the loop at `B`, with the children `d`, `e` of `B` and the sibling `c` of `B`. -/
abbrev At (m : CostModel ℝ) (out? : Option ISet) (sh : Bool) (w : Walk σ ℝ) (o : Bool) (A : ℕ) (c : PTree) (K : Ctx)
    (o' : Bool) (d e : PTree) : Prop :=
  WInv m out? sh w (.frame o A c K) (fork o' w.posB d e)

variable {m : CostModel ℝ} {out? : Option ISet} {sh : Bool} {w : Walk σ ℝ} {o o' : Bool} {A : ℕ} {c d e : PTree} {K : Ctx}

theorem At.flip (h : At m out? sh w o A c K o' d e) : At m out? sh w o A c K (!o') e d := by
  unfold At at *
  rwa [← fork_flip]

theorem WInv.forget {K : Ctx} {s : PTree} (h : WInv m out? sh w K s) : WInv m none false w K s :=
  ⟨h.wf, h.root, h.nodes, h.leaf, h.part, h.tail, h.total, by simp, by simp, by simp⟩

theorem WInv.withPrng {K : Ctx} {s : PTree} (h : WInv m out? sh w K s) (x : τ) : WInv m out? sh (w.withPrng x) K s :=
  ⟨h.wf, h.root, h.nodes, h.leaf, h.part, h.tail, h.total, h.sem, h.shr, h.dis⟩

/-- The five positions, and what is stored there. -/
structure Spot (m : CostModel ℝ) (w : Walk σ ℝ) (o : Bool) (A C : ℕ) (pa : Option ℕ) (o' : Bool) (D E : ℕ) : Prop where
  nd : [A, w.posB, C, D, E].Nodup
  nA : w.o.ctree.tree.nodes A = mkNode o w.posB C pa
  nB : w.o.ctree.tree.nodes w.posB = mkNode o' D E (some A)
  lE : E < w.o.ctree.tree.size
  lC : C < w.o.ctree.tree.size
  pE : (w.o.ctree.tree.nodes E).parent = some w.posB
  pC : (w.o.ctree.tree.nodes C).parent = some A
  iA : NodeInv m w.o.ctree.inds w.o.hyper w.o.cost.contractionCost A w.posB C
  iB : NodeInv m w.o.ctree.inds w.o.hyper w.o.cost.contractionCost w.posB D E

theorem At.spot (h : At m out? sh w o A c K o' d e) : Spot m w o A c.root K.par o' d.root e.root := by
  have hwf := h.wf
  have hnodes := h.nodes
  simp only [Ctx.plug] at hwf hnodes
  have hp := rot_perm K o o' A w.posB d e c
  have hd : RotDistinct K A w.posB d e c := ⟨hp.nodup_iff.1 hwf.nodup⟩
  have henc := hwf.enc
  rw [Ctx.encodes_plug, encodes_fork, encodes_fork] at henc
  simp only [root_fork] at henc
  obtain ⟨-, hNA, ⟨hNB, hed, hee⟩, hec⟩ := henc
  rw [Ctx.all_plug, all_fork_symm NodeInv.symm, all_fork_symm NodeInv.symm] at hnodes
  simp only [root_fork] at hnodes
  obtain ⟨-, nA, ⟨nB, -, -⟩, -⟩ := hnodes
  refine ⟨hd.five, hNA, hNB, ?_, ?_, encodes_root_parent hee, encodes_root_parent hec, nA, nB⟩
  · rw [← hwf.mem, hp.mem_iff]; simp [e.root_mem]
  · rw [← hwf.mem, hp.mem_iff]; simp [c.root_mem]

theorem At.shr (h : At m out? true w o A c K o' d e) :
    (w.o.ctree.inds d.root ∩ w.o.ctree.inds e.root).Nonempty ∧
      (w.o.ctree.inds w.posB ∩ w.o.ctree.inds c.root).Nonempty := by
  have a1 := WInv.shr h rfl
  simp only [Ctx.plug] at a1
  rw [Ctx.all_plug, all_fork_symm ShQ.symm, all_fork_symm ShQ.symm] at a1
  simp only [root_fork] at a1
  exact ⟨a1.2.2.1.1, a1.2.1⟩

section spot
variable {C D E : ℕ} {pa : Option ℕ}

theorem Spot.flip (h : Spot m w o A C pa o' D E) (hD : D < w.o.ctree.tree.size)
    (hp : (w.o.ctree.tree.nodes D).parent = some w.posB) : Spot m w o A C pa (!o') E D := by
  refine ⟨?_, h.nA, ?_, hD, h.lC, hp, h.pC, h.iA, NodeInv.symm _ _ _ h.iB⟩
  · have := h.nd
    simp only [List.nodup_cons, List.mem_cons, not_or, List.not_mem_nil, not_false_eq_true, List.nodup_nil, and_true] at this ⊢
    refine ⟨⟨this.1.1, this.1.2.1, this.1.2.2.2, this.1.2.2.1⟩, ⟨this.2.1.1, this.2.1.2.2, this.2.1.2.1⟩,
      ⟨this.2.2.1.2, this.2.2.1.1⟩, fun h => this.2.2.2 h.symm⟩
  · rw [h.nB]; cases o' <;> rfl

/-- The sizes, the nodes and the index sets after the exchange. -/
theorem Spot.cand_nodes (h : Spot m w o A C pa o' D E) :
    (cand w.o.ctree A w.posB C D E).tree = ⟨w.o.ctree.tree.size,
      Function.update (Function.update (Function.update (Function.update w.o.ctree.tree.nodes
        A (mkNode o w.posB E pa)) w.posB (mkNode o' D C (some A)))
        C { w.o.ctree.tree.nodes C with parent := some w.posB })
        E { w.o.ctree.tree.nodes E with parent := some A }⟩ :=
  swapWithNN_local h.lE h.pE h.nB h.nA h.nd

theorem ptwise {a b c d e : ISet} (h1 : b.xor c ⊆ a) (h2 : a ⊆ b ∪ c) (h3 : d.xor e ⊆ b) (h4 : b ⊆ d ∪ e) :
    d.xor e ∪ a ∩ (d.xor c ∪ a ∩ b ∩ c ∪ b ∩ d ∩ e) ∩ e ∪ (d.xor c ∪ a ∩ b ∩ c ∪ b ∩ d ∩ e) ∩ d ∩ c = b := by
  ext x
  have h1 := @h1 x; have h2 := @h2 x; have h3 := @h3 x; have h4 := @h4 x
  simp only [ISet.mem_xor, Finset.mem_union, Finset.mem_inter] at *
  by_cases x ∈ a <;> by_cases x ∈ b <;> by_cases x ∈ c <;> by_cases x ∈ d <;> by_cases x ∈ e <;> simp_all

/-- Exchanging again gives back the tree, with all its arrays. -/
theorem Spot.back (h : Spot m w o A C pa o' D E) :
    cand (cand w.o.ctree A w.posB C D E) A w.posB E D C = w.o.ctree := by
  have hnd := h.nd
  simp only [List.nodup_cons, List.mem_cons, not_or, List.not_mem_nil, not_false_eq_true, List.nodup_nil, and_true] at hnd
  obtain ⟨⟨hAB, hAC, hAD, hAE⟩, ⟨hBC, hBD, hBE⟩, ⟨hCD, hCE⟩, hDE⟩ := hnd
  have hc := h.cand_nodes
  have hnd' : [A, w.posB, E, D, C].Nodup := by
    simp only [List.nodup_cons, List.mem_cons, not_or, List.not_mem_nil, not_false_eq_true, List.nodup_nil, and_true]
    exact ⟨⟨hAB, hAE, hAD, hAC⟩, ⟨hBE, hBD, hBC⟩, ⟨Ne.symm hDE, Ne.symm hCE⟩, Ne.symm hCD⟩
  have key := swapWithNN_local (T := (cand w.o.ctree A w.posB C D E).tree) (A := A) (B := w.posB) (C := E) (D := D)
    (E := C) (o := o) (o' := o') (pa := pa) (by rw [hc]; exact h.lC)
    (by rw [hc]; simp only; rw [Function.update_of_ne hCE, Function.update_self])
    (by rw [hc]; simp only; rw [Function.update_of_ne hBE, Function.update_of_ne hBC, Function.update_self])
    (by rw [hc]; simp only; rw [Function.update_of_ne hAE, Function.update_of_ne hAC, Function.update_of_ne hAB,
          Function.update_self]) hnd'
  have htree : (cand (cand w.o.ctree A w.posB C D E) A w.posB E D C).tree = w.o.ctree.tree := by
    change (cand w.o.ctree A w.posB C D E).tree.swapWithNN C = _
    rw [key, hc]
    have : ∀ q, Function.update (Function.update (Function.update (Function.update
        (Function.update (Function.update (Function.update (Function.update w.o.ctree.tree.nodes
        A (mkNode o w.posB E pa)) w.posB (mkNode o' D C (some A)))
        C { w.o.ctree.tree.nodes C with parent := some w.posB })
        E { w.o.ctree.tree.nodes E with parent := some A })
        A (mkNode o w.posB C pa)) w.posB (mkNode o' D E (some A)))
        E { w.o.ctree.tree.nodes E with parent := some w.posB })
        C { w.o.ctree.tree.nodes C with parent := some A } q = w.o.ctree.tree.nodes q := by
      intro q
      by_cases qC : q = C
      · subst qC; rw [Function.update_self, ← h.pC]
      rw [Function.update_of_ne qC]
      by_cases qE : q = E
      · subst qE; rw [Function.update_self, ← h.pE]
      rw [Function.update_of_ne qE]
      by_cases qB : q = w.posB
      · subst qB; rw [Function.update_self, h.nB]
      rw [Function.update_of_ne qB]
      by_cases qA : q = A
      · subst qA; rw [Function.update_self, h.nA]
      rw [Function.update_of_ne qA, Function.update_of_ne qE, Function.update_of_ne qC, Function.update_of_ne qB,
        Function.update_of_ne qA]
    have e1 : ({ Function.update (Function.update (Function.update (Function.update w.o.ctree.tree.nodes
        A (mkNode o w.posB E pa)) w.posB (mkNode o' D C (some A)))
        C { w.o.ctree.tree.nodes C with parent := some w.posB })
        E { w.o.ctree.tree.nodes E with parent := some A } E with parent := some w.posB } : Node) =
        { w.o.ctree.tree.nodes E with parent := some w.posB } := by rw [Function.update_self]
    have e2 : ({ Function.update (Function.update (Function.update (Function.update w.o.ctree.tree.nodes
        A (mkNode o w.posB E pa)) w.posB (mkNode o' D C (some A)))
        C { w.o.ctree.tree.nodes C with parent := some w.posB })
        E { w.o.ctree.tree.nodes E with parent := some A } C with parent := some A } : Node) =
        { w.o.ctree.tree.nodes C with parent := some A } := by rw [Function.update_of_ne hCE, Function.update_self]
    simp only
    rw [e1, e2, funext this]
  have hinds : (cand (cand w.o.ctree A w.posB C D E) A w.posB E D C).inds = w.o.ctree.inds := by
    funext q
    change Function.update (Function.update w.o.ctree.inds w.posB _) w.posB _ q = _
    by_cases qB : q = w.posB
    · subst qB
      rw [Function.update_self]
      unfold newB
      simp only [cand]
      rw [Function.update_self, Function.update_of_ne (Ne.symm hBD), Function.update_of_ne (Ne.symm hBE),
        Function.update_of_ne (Ne.symm hBC), Function.update_of_ne hAB]
      exact ptwise h.iA.1.1 h.iA.1.2 h.iB.1.1 h.iB.1.2
    · rw [Function.update_of_ne qB, Function.update_of_ne qB]
  calc cand (cand w.o.ctree A w.posB C D E) A w.posB E D C
      = ⟨(cand (cand w.o.ctree A w.posB C D E) A w.posB E D C).tree, w.o.ctree.nInds,
          (cand (cand w.o.ctree A w.posB C D E) A w.posB E D C).inds, w.o.ctree.dims⟩ := rfl
    _ = w.o.ctree := by rw [htree, hinds]

theorem Spot.cand_child (h : Spot m w o A C pa o' D E) :
    (cand w.o.ctree A w.posB C D E).tree.nodes A = mkNode o w.posB E pa := by
  have hnd := h.nd
  simp only [List.nodup_cons, List.mem_cons, not_or, List.not_mem_nil, not_false_eq_true, List.nodup_nil, and_true] at hnd
  rw [h.cand_nodes]; simp only
  rw [Function.update_of_ne hnd.1.2.2.2, Function.update_of_ne hnd.1.2.1, Function.update_of_ne hnd.1.1, Function.update_self]

theorem Spot.cand_B (h : Spot m w o A C pa o' D E) :
    (cand w.o.ctree A w.posB C D E).tree.nodes w.posB = mkNode o' D C (some A) := by
  have hnd := h.nd
  simp only [List.nodup_cons, List.mem_cons, not_or, List.not_mem_nil, not_false_eq_true, List.nodup_nil, and_true] at hnd
  rw [h.cand_nodes]; simp only
  rw [Function.update_of_ne hnd.2.1.2.2, Function.update_of_ne hnd.2.1.1, Function.update_self]

theorem mkNode_snd {o : Bool} {b x y : ℕ} {p : Option ℕ} (h : mkNode o b x p = mkNode o b y p) : x = y := by
  cases o <;> simp [mkNode] at h <;> exact h

theorem Spot.cand_ne (h : Spot m w o A C pa o' D E) : cand w.o.ctree A w.posB C D E ≠ w.o.ctree := by
  intro hh
  have h1 := h.cand_child
  rw [hh, h.nA] at h1
  have := mkNode_snd h1
  have hnd := h.nd
  simp only [List.nodup_cons, List.mem_cons, not_or, List.not_mem_nil, not_false_eq_true, List.nodup_nil, and_true] at hnd
  exact hnd.2.2.1.2 this


/-- Which child stays at `B`: `D` (then `E` moves) or `E`. -/
def staysD (dis o' iD iE : Bool) (n : ℕ) : Bool :=
  if dis || (iD && iE) then decide (n % 2 ≠ 0) == o' else if o' then iD else !iE

theorem Spot.nn (h : Spot m w o A C pa o' D E) (n : ℕ) (u : ℝ) :
    getCtreeNN drawPrng w.o.ctree w.o.disableShared (n, u) w.posB =
      (some (if staysD w.o.disableShared o' ((w.o.ctree.inds D).intersects (w.o.ctree.inds C))
        ((w.o.ctree.inds E).intersects (w.o.ctree.inds C)) n then (A, C, D, E) else (A, C, E, D)), (n, u)) := by
  have hnd := h.nd
  simp only [List.nodup_cons, List.mem_cons, not_or, List.not_mem_nil, not_false_eq_true, List.nodup_nil, and_true] at hnd
  have hC : (if (w.o.ctree.tree.nodes A).c0 = some w.posB then (w.o.ctree.tree.nodes A).c1 else (w.o.ctree.tree.nodes A).c0) =
      some C := by
    rw [h.nA]; cases o
    · have : ¬ C = w.posB := fun h => hnd.2.1.1 h.symm
      simp [mkNode, this]
    · simp [mkNode]
  unfold getCtreeNN staysD
  rw [h.nB]
  cases o'
  · simp only [mkNode, Bool.false_eq_true, if_false]
    rw [hC]
    simp only [drawPrng]
    generalize (w.o.ctree.inds D).intersects (w.o.ctree.inds C) = iD
    generalize (w.o.ctree.inds E).intersects (w.o.ctree.inds C) = iE
    generalize w.o.disableShared = dis
    rcases Nat.mod_two_eq_zero_or_one n with hn | hn <;> cases dis <;> cases iD <;> cases iE <;> simp [hn]
  · simp only [mkNode, if_true]
    rw [hC]
    simp only [drawPrng]
    generalize (w.o.ctree.inds D).intersects (w.o.ctree.inds C) = iD
    generalize (w.o.ctree.inds E).intersects (w.o.ctree.inds C) = iE
    generalize w.o.disableShared = dis
    rcases Nat.mod_two_eq_zero_or_one n with hn | hn <;> cases dis <;> cases iD <;> cases iE <;> simp [hn]

/-- The tree after the loop body. -/
theorem Spot.body_tree (h : Spot m w o A C pa o' D E) (prob : ℝ → ℝ → ℝ) (n : ℕ) (u : ℝ) :
    (Walk.body drawPrng m prob (w.withPrng (n, u)) A C D E).o.ctree =
      if u ≤ prob (candDelta m w A w.posB C D E) w.total then cand w.o.ctree A w.posB C D E else w.o.ctree := by
  have hnew : (w.o.ctree.inds D).xor (w.o.ctree.inds C) ∪ w.o.hyper A ∪ w.o.hyper w.posB =
      newB w.o.ctree.inds A w.posB C D E := by
    rw [h.iA.2.1, h.iB.2.1]; rfl
  unfold Walk.body
  simp only [Walk.withPrng, drawPrng, hnew]
  unfold candDelta
  split <;> rfl

theorem Spot.stepTree (h : Spot m w o A C pa o' D E) (h' : Spot m w o A C pa (!o') E D) (prob : ℝ → ℝ → ℝ) (n : ℕ) (u : ℝ) :
    w.stepTree m prob n u =
      if staysD w.o.disableShared o' ((w.o.ctree.inds D).intersects (w.o.ctree.inds C))
        ((w.o.ctree.inds E).intersects (w.o.ctree.inds C)) n then
        (if u ≤ prob (candDelta m w A w.posB C D E) w.total then cand w.o.ctree A w.posB C D E else w.o.ctree)
      else (if u ≤ prob (candDelta m w A w.posB C E D) w.total then cand w.o.ctree A w.posB C E D else w.o.ctree) := by
  unfold Walk.stepTree Walk.once
  have hnn : getCtreeNN drawPrng (w.withPrng (n, u)).o.ctree (w.withPrng (n, u)).o.disableShared (w.withPrng (n, u)).o.prng
      (w.withPrng (n, u)).posB = _ := h.nn n u
  rw [hnn]
  generalize staysD _ _ _ _ n = b
  cases b
  · simp only [Bool.false_eq_true, if_false]; exact h'.body_tree prob n u
  · simp only [if_true]; exact h.body_tree prob n u

/-- The change of the cost is the difference of the costs of the trees. -/
theorem At.delta (h : At m out? sh w o A c K o' d e) :
    ∃ t, WellFormed (cand w.o.ctree A w.posB c.root d.root e.root).tree t ∧
      t.All (LocQ (cand w.o.ctree A w.posB c.root d.root e.root).inds) ∧
      w.total + candDelta m w A w.posB c.root d.root e.root =
        treeCost m.get (cand w.o.ctree A w.posB c.root d.root e.root).inds t := by
  have hs := h.spot
  have h1 : WInv m none false (w.withPrng (0, (0 : ℝ))) (.frame o A c K) (fork o' w.posB d e) := (WInv.forget h).withPrng _
  obtain ⟨s', hw, -⟩ := body_inv drawPrng m (fun _ _ => (1 : ℝ)) h1 (by simp)
  have hT := hs.body_tree (fun _ _ => (1 : ℝ)) 0 0
  rw [if_pos zero_le_one] at hT
  have htot : (Walk.body drawPrng m (fun _ _ => (1 : ℝ)) (w.withPrng (0, (0 : ℝ))) A c.root d.root e.root).total =
      w.total + candDelta m w A w.posB c.root d.root e.root := by
    have hnew : (w.o.ctree.inds d.root).xor (w.o.ctree.inds c.root) ∪ w.o.hyper A ∪ w.o.hyper w.posB =
        newB w.o.ctree.inds A w.posB c.root d.root e.root := by
      rw [hs.iA.2.1, hs.iB.2.1]; rfl
    unfold Walk.body
    simp only [Walk.withPrng, drawPrng, hnew, if_pos zero_le_one]
    rfl
  refine ⟨_, hT ▸ hw.wf, ?_, ?_⟩
  · have := hw.nodes
    unfold NodeInv at this
    rw [PTree.all_and] at this
    rw [hT] at this
    exact this.1
  · rw [← htot, hw.total, sum_eq_treeCost hw.nodes fun p hp => (hw.leaf p hp).2.1, hT]

theorem WInv.cost {K : Ctx} {s : PTree} (h : WInv m out? sh w K s) {t : PTree} (ht : WellFormed w.o.ctree.tree t) :
    w.total = treeCost m.get w.o.ctree.inds t := by
  have hloc : (K.plug s).All (LocQ w.o.ctree.inds) := by
    have := h.nodes
    unfold NodeInv at this
    rw [PTree.all_and] at this
    exact this.1
  have hl' : t.All (LocQ w.o.ctree.inds) := by
    rw [all_iff ht.enc]; rw [all_iff h.wf.enc] at hloc
    intro p hp; exact hloc p ((h.wf.mem p).2 ((ht.mem p).1 hp))
  have e1 := getCost_eq (m := m) ht hl' (fuel := w.o.ctree.fuel) (le_refl _)
  have e2 := getCost_eq (m := m) h.wf hloc (fuel := w.o.ctree.fuel) (le_refl _)
  rw [h.total, sum_eq_treeCost h.nodes fun p hp => (h.leaf p hp).2.1]
  rw [e2] at e1; exact Option.some.inj e1


theorem Spot.two (h : Spot m w o A C pa o' D E) (h' : Spot m w o A C pa (!o') E D) :
    cand w.o.ctree A w.posB C E D ≠ cand w.o.ctree A w.posB C D E := by
  intro hh
  have h1 := h.cand_child
  have h2 := h'.cand_child
  rw [hh, h1] at h2
  have := mkNode_snd h2
  have hnd := h.nd
  simp only [List.nodup_cons, List.mem_cons, not_or, List.not_mem_nil, not_false_eq_true, List.nodup_nil, and_true] at hnd
  exact hnd.2.2.2 this.symm

theorem Spot.set (h : Spot m w o A C pa o' D E) (h' : Spot m w o A C pa (!o') E D) (prob : ℝ → ℝ → ℝ) (n : ℕ) :
    MeasureTheory.volume {u : ℝ | u ∈ Set.Ico 0 1 ∧ w.stepTree m prob n u = cand w.o.ctree A w.posB C D E} =
      if staysD w.o.disableShared o' ((w.o.ctree.inds D).intersects (w.o.ctree.inds C))
        ((w.o.ctree.inds E).intersects (w.o.ctree.inds C)) n then
        MeasureTheory.volume {u : ℝ | u ∈ Set.Ico 0 1 ∧ u ≤ prob (candDelta m w A w.posB C D E) w.total} else 0 := by
  have h1 := h.cand_ne
  have h2 := h.two h'
  split
  · next hs =>
    congr 1
    ext u
    simp only [Set.mem_ofPred_eq, h.stepTree h', if_pos hs]
    by_cases hu : u ≤ prob (candDelta m w A w.posB C D E) w.total
    · simp [hu]
    · simp only [if_neg hu, hu, and_false, iff_false, not_and]
      exact fun _ hh => h1 hh.symm
  · next hs =>
    have : {u : ℝ | u ∈ Set.Ico 0 1 ∧ w.stepTree m prob n u = cand w.o.ctree A w.posB C D E} = ∅ := by
      ext u
      simp only [Set.mem_ofPred_eq, h.stepTree h', if_neg hs, Set.mem_empty_iff_false, iff_false, not_and]
      intro _
      split
      · exact h2
      · exact fun hh => h1 hh.symm
    rw [this, MeasureTheory.measure_empty]

/-- The neighbourhood of a position, from what is stored there. -/
theorem WInv.at_of {K' : Ctx} {s' : PTree} (h : WInv m out? sh w K' s') {ob : Bool} {l r : PTree}
    (hs : s' = fork ob w.posB l r) (nB : w.o.ctree.tree.nodes w.posB = mkNode o' D E (some A))
    (nA : w.o.ctree.tree.nodes A = mkNode o w.posB C pa) :
    ∃ c d e K, At m out? sh w o A c K o' d e ∧ c.root = C ∧ d.root = D ∧ e.root = E := by
  subst hs
  have henc := h.wf.enc
  rw [Ctx.encodes_plug, encodes_fork] at henc
  obtain ⟨hK, hN, hl, hr⟩ := henc
  cases K' with
  | top =>
    rw [nB] at hN
    cases o' <;> cases ob <;> simp [mkNode, Ctx.par] at hN
  | frame o1 A1 z K1 =>
    have hA1 : A1 = A := by
      rw [nB] at hN
      cases o' <;> cases ob <;> simp [mkNode, Ctx.par] at hN <;> exact hN.2.2.symm
    subst hA1
    have hsp := At.spot (w := w) h
    have hnd := hsp.nd
    simp only [List.nodup_cons, List.mem_cons, not_or, List.not_mem_nil, not_false_eq_true, List.nodup_nil, and_true] at hnd
    have ho : o1 = o ∧ z.root = C := by
      have e := hsp.nA.symm.trans nA
      have hz := hnd.2.1.1
      cases o <;> cases o1 <;> simp [mkNode] at e
      · exact ⟨rfl, e.1⟩
      · exact absurd e.2.1.symm hz
      · exact absurd e.1.symm hz
      · exact ⟨rfl, e.1⟩
    obtain ⟨rfl, hz⟩ := ho
    by_cases hob : ob = o'
    · subst hob
      refine ⟨z, l, r, K1, h, hz, ?_⟩
      have e := hsp.nB.symm.trans nB
      cases ob <;> simp [mkNode] at e
      · exact ⟨e.2, e.1⟩
      · exact e
    · have hob' : o' = !ob := by cases ob <;> cases o' <;> simp_all
      subst hob'
      refine ⟨z, r, l, K1, At.flip h, hz, ?_⟩
      have e := hsp.nB.symm.trans nB
      cases ob <;> simp [mkNode] at e
      · exact e
      · exact ⟨e.2, e.1⟩

end spot

theorem intersects_iff {a b : ISet} : a.intersects b = true ↔ (a ∩ b).Nonempty := by
  simp [ISet.intersects, Finset.nonempty_iff_ne_empty]

theorem intersects_comm (a b : ISet) : a.intersects b = b.intersects a := by
  simp only [ISet.intersects, Finset.inter_comm]

/-- The balance between two trees, one iteration apart. -/
theorem At.balance {dis : Bool} {out2 : Option ISet} {w' : Walk τ ℝ} (h : At m out? (!dis) w o A c K o' d e) {K' : Ctx} {s' : PTree}
    (h2 : WInv m out2 (!dis) w' K' s') {ob : Bool} {l r : PTree} (hs : s' = fork ob w'.posB l r)
    (hT : w'.o.ctree = cand w.o.ctree A w.posB c.root d.root e.root) (hB : w'.posB = w.posB)
    (hd : w.o.disableShared = dis) (hd' : w'.o.disableShared = dis) (hx : 0 < w.total) (hy : 0 < w'.total)
    {beta : ℝ} (hb : 0 ≤ beta) :
    ENNReal.ofReal (w.total ^ (-beta)) * w.stepHalf m (probMH beta) w'.o.ctree =
      ENNReal.ofReal (w'.total ^ (-beta)) * w'.stepHalf m (probMH beta) w.o.ctree := by
  have sp := h.spot
  have sp' := h.flip.spot
  have hnd := sp.nd
  simp only [List.nodup_cons, List.mem_cons, not_or, List.not_mem_nil, not_false_eq_true, List.nodup_nil, and_true] at hnd
  obtain ⟨⟨hAB, hAC, hAD, hAE⟩, ⟨hBC, hBD, hBE⟩, ⟨hCD, hCE⟩, hDE⟩ := hnd
  -- the way back
  obtain ⟨c2, d2, e2, K2, hat, hc2, hd2, he2⟩ := h2.at_of hs (A := A) (D := d.root) (E := c.root) (C := e.root) (o := o)
    (o' := o') (pa := K.par) (by rw [hT, hB]; exact sp.cand_B) (by rw [hT, hB]; exact sp.cand_child)
  have tp := hat.spot
  have tp' := hat.flip.spot
  rw [hc2, hd2, he2] at tp tp'
  have hback : cand w'.o.ctree A w'.posB e.root d.root c.root = w.o.ctree := by rw [hT, hB]; exact sp.back
  -- the costs
  obtain ⟨t, ht, -, hcost⟩ := h.delta
  rw [← hT] at ht hcost
  rw [← h2.cost ht] at hcost
  obtain ⟨t2, ht2, -, hcost2⟩ := hat.delta
  rw [hc2, hd2, he2, hback] at ht2 hcost2
  rw [← WInv.cost h ht2] at hcost2
  have e1 : candDelta m w A w.posB c.root d.root e.root = w'.total - w.total := by linarith
  have e2' : candDelta m w' A w'.posB e.root d.root c.root = w.total - w'.total := by linarith
  -- the coins
  have iC : w'.o.ctree.inds c.root = w.o.ctree.inds c.root := by
    rw [hT]; exact Function.update_of_ne (Ne.symm hBC) _ _
  have iD : w'.o.ctree.inds d.root = w.o.ctree.inds d.root := by
    rw [hT]; exact Function.update_of_ne (Ne.symm hBD) _ _
  have iE : w'.o.ctree.inds e.root = w.o.ctree.inds e.root := by
    rw [hT]; exact Function.update_of_ne (Ne.symm hBE) _ _
  have hst : ∀ n, staysD w'.o.disableShared o' ((w'.o.ctree.inds d.root).intersects (w'.o.ctree.inds e.root))
        ((w'.o.ctree.inds c.root).intersects (w'.o.ctree.inds e.root)) n =
      staysD w.o.disableShared o' ((w.o.ctree.inds d.root).intersects (w.o.ctree.inds c.root))
        ((w.o.ctree.inds e.root).intersects (w.o.ctree.inds c.root)) n := by
    intro n
    rw [iC, iD, iE, hd, hd', intersects_comm (w.o.ctree.inds e.root)]
    cases dis
    · have a1 := (At.shr h).1
      have a2 := (At.shr hat).1
      rw [hd2, he2, iC, iD] at a2
      rw [intersects_iff.2 a1, intersects_iff.2 a2]
    · unfold staysD; simp
  unfold Walk.stepHalf
  have f1 := fun n => sp.set sp' (probMH beta) n
  have f2 := fun n => tp.set tp' (probMH beta) n
  rw [← hT] at f1
  rw [hback] at f2
  rw [f1, f1, f2, f2, hst, hst, e1, e2', C18_accept_measure beta _ _ hb hx, C18_accept_measure beta _ _ hb hy]
  have key : ENNReal.ofReal (w.total ^ (-beta)) * ENNReal.ofReal (probMH beta (w'.total - w.total) w.total) =
      ENNReal.ofReal (w'.total ^ (-beta)) * ENNReal.ofReal (probMH beta (w.total - w'.total) w'.total) := by
    rw [← ENNReal.ofReal_mul (Real.rpow_nonneg hx.le _), ← ENNReal.ofReal_mul (Real.rpow_nonneg hy.le _),
      C18_detailed_balance beta _ _ hx hy]
  have fin : ∀ b : Bool, ENNReal.ofReal (w.total ^ (-beta)) *
      (2⁻¹ * (if b then ENNReal.ofReal (probMH beta (w'.total - w.total) w.total) else 0)) =
      ENNReal.ofReal (w'.total ^ (-beta)) *
      (2⁻¹ * (if b then ENNReal.ofReal (probMH beta (w.total - w'.total) w'.total) else 0)) := by
    intro b
    cases b
    · simp
    · simp only [if_true]
      rw [mul_left_comm, key, mul_left_comm]
  rw [mul_add, mul_add, fin, fin]

/-- A tree other than the current one that an iteration leads to is a neighbour. -/
theorem WInv.neighbour {K' : Ctx} {s' : PTree} (h : WInv m out? sh w K' s') {ob : Bool} {l r : PTree}
    (hs : s' = fork ob w.posB l r) {prob : ℝ → ℝ → ℝ} {T : CTree} (hT : T ≠ w.o.ctree) (hc : w.stepHalf m prob T ≠ 0) :
    ∃ o A c K o' d e, At m out? sh w o A c K o' d e ∧ T = cand w.o.ctree A w.posB c.root d.root e.root := by
  subst hs
  have hn : ∃ n u, w.stepTree m prob n u = T := by
    by_contra hh
    push Not at hh
    apply hc
    unfold Walk.stepHalf
    have : ∀ n, {u : ℝ | u ∈ Set.Ico 0 1 ∧ w.stepTree m prob n u = T} = ∅ := by
      intro n; ext u
      simp only [Set.mem_ofPred_eq, Set.mem_empty_iff_false, iff_false, not_and]
      exact fun _ => hh n u
    rw [this, this, MeasureTheory.measure_empty, mul_zero, add_zero]
  obtain ⟨n, u, hnu⟩ := hn
  cases K' with
  | top =>
    exfalso
    have := getCtreeNN_top drawPrng w.o.disableShared (n, u) h.wf
    rw [show (Ctx.top.plug (fork ob w.posB l r)).root = w.posB by simp [Ctx.plug]] at this
    unfold Walk.stepTree Walk.once at hnu
    have h1 : getCtreeNN drawPrng (w.withPrng (n, u)).o.ctree (w.withPrng (n, u)).o.disableShared
        (w.withPrng (n, u)).o.prng (w.withPrng (n, u)).posB = _ := this
    rw [h1] at hnu
    exact hT hnu.symm
  | frame o A z K1 =>
    have hat : At m out? sh w o A z K1 ob l r := h
    rw [hat.spot.stepTree hat.flip.spot] at hnu
    split at hnu
    · split at hnu
      · exact ⟨o, A, z, K1, ob, l, r, hat, hnu.symm⟩
      · exact absurd hnu.symm hT
    · split at hnu
      · exact ⟨o, A, z, K1, !ob, r, l, hat.flip, hnu.symm⟩
      · exact absurd hnu.symm hT

/-- The balance, between any two states of the loop at the same position. -/
theorem WInv.balance {dis : Bool} {out2 : Option ISet} {w' : Walk τ ℝ} {K1 K2 : Ctx} {s1 s2 : PTree}
    (h1 : WInv m out? (!dis) w K1 s1) (h2 : WInv m out2 (!dis) w' K2 s2)
    (hs1 : ∃ ob l r, s1 = fork ob w.posB l r) (hs2 : ∃ ob l r, s2 = fork ob w'.posB l r)
    (hB : w'.posB = w.posB) (hne : w'.o.ctree ≠ w.o.ctree)
    (hd : w.o.disableShared = dis) (hd' : w'.o.disableShared = dis) (hx : 0 < w.total) (hy : 0 < w'.total)
    {beta : ℝ} (hb : 0 ≤ beta) :
    ENNReal.ofReal (w.total ^ (-beta)) * w.stepHalf m (probMH beta) w'.o.ctree =
      ENNReal.ofReal (w'.total ^ (-beta)) * w'.stepHalf m (probMH beta) w.o.ctree := by
  obtain ⟨ob1, l1, r1, hs1⟩ := hs1
  obtain ⟨ob2, l2, r2, hs2⟩ := hs2
  by_cases c1 : w.stepHalf m (probMH beta) w'.o.ctree = 0
  · by_cases c2 : w'.stepHalf m (probMH beta) w.o.ctree = 0
    · rw [c1, c2, mul_zero, mul_zero]
    · obtain ⟨o, A, c, K, o', d, e, hat, hT⟩ := h2.neighbour hs2 (Ne.symm hne) c2
      exact (hat.balance h1 hs1 hT hB.symm hd' hd hy hx hb).symm
  · obtain ⟨o, A, c, K, o', d, e, hat, hT⟩ := h1.neighbour hs1 hne c1
    exact hat.balance h2 hs2 hT hB hd hd' hx hy hb

end TNCO
