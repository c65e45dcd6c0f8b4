import Verif.Model.InfMem
import Verif.Lemmas.Sem
import Verif.Lemmas.IsTree
import Mathlib.Algebra.BigOperators.Group.List.Basic
import Mathlib.Tactic.Abel

/-! Invariant of the infinite-memory optimizer. -/

namespace TNCO
open PTree

variable {σ P R : Type} [AddCommGroup R] [LinearOrder R] [LinearOrder P]

/-- Cached data of one contraction node. -/
def NodeInv (m : CostModel R) (inds hyper : ℕ → ISet) (cc : ℕ → R) (p a b : ℕ) : Prop :=
  LocQ inds p a b ∧ hyper p = inds p ∩ inds a ∩ inds b ∧ cc p = m.get (inds a ∪ inds b)

/-- Cached partial cost of one contraction node. -/
def PartInv (cc pc : ℕ → R) (p a b : ℕ) : Prop := pc p = cc p + pc a + pc b

omit [LinearOrder R] in
theorem NodeInv.symm {m : CostModel R} {inds hyper cc} (p a b : ℕ)
    (h : NodeInv m inds hyper cc p a b) : NodeInv m inds hyper cc p b a :=
  ⟨h.1.symm, by rw [h.2.1, Finset.inter_right_comm], by rw [h.2.2, Finset.union_comm]⟩

omit [LinearOrder R] in
theorem PartInv.symm {cc pc : ℕ → R} (p a b : ℕ) (h : PartInv cc pc p a b) : PartInv cc pc p b a := by
  unfold PartInv at *; rw [h]; abel

/-- Everything about partial costs in a context except at the frame around the hole. -/
def Ctx.Tail (Q : ℕ → ℕ → ℕ → Prop) : Ctx → Prop
  | .top => True
  | .frame _ p s K => s.All Q ∧ K.All Q p

/-- Invariant of the walk: hole at `posB`. -/
structure WInv (m : CostModel R) (out? : Option ISet) (sh : Bool) (w : Walk σ R) (K : Ctx) (s : PTree) :
    Prop where
  wf : WellFormed w.o.ctree.tree (K.plug s)
  root : s.root = w.posB
  nodes : (K.plug s).All (NodeInv m w.o.ctree.inds w.o.hyper w.o.cost.contractionCost)
  leaf : ∀ p ∈ (K.plug s).leaves, w.o.hyper p = ∅ ∧ w.o.cost.contractionCost p = 0 ∧
    w.o.cost.partialCost p = 0
  part : s.All (PartInv w.o.cost.contractionCost w.o.cost.partialCost)
  tail : K.Tail (PartInv w.o.cost.contractionCost w.o.cost.partialCost)
  total : w.total = ((K.plug s).postorder.map w.o.cost.contractionCost).sum
  sem : ∀ out, out? = some out → (K.plug s).Sem w.o.ctree.inds out
  shr : sh = true → (K.plug s).All (ShQ w.o.ctree.inds)
  dis : sh = true → w.o.disableShared = false

/-- What an update never changes. -/
structure Static (o o' : InfOpt σ R) : Prop where
  size : o'.ctree.tree.size = o.ctree.tree.size
  nInds : o'.ctree.nInds = o.ctree.nInds
  dims : o'.ctree.dims = o.ctree.dims
  disable : o'.disableShared = o.disableShared
  leafInds : ∀ p < o.ctree.tree.nLeaves, o'.ctree.inds p = o.ctree.inds p
  rootInds : o'.ctree.inds (o.ctree.tree.size - 1) = o.ctree.inds (o.ctree.tree.size - 1)

omit [AddCommGroup R] [LinearOrder R] in
theorem Static.rfl' (o : InfOpt σ R) : Static o o :=
  ⟨rfl, rfl, rfl, rfl, fun _ _ => rfl, rfl⟩

omit [AddCommGroup R] [LinearOrder R] in
theorem Static.trans {o o' o'' : InfOpt σ R} (h : Static o o') (h' : Static o' o'') : Static o o'' := by
  have hn : o'.ctree.tree.nLeaves = o.ctree.tree.nLeaves := by unfold Tree.nLeaves; rw [h.size]
  refine ⟨h'.size.trans h.size, h'.nInds.trans h.nInds, h'.dims.trans h.dims,
    h'.disable.trans h.disable, fun p hp => ?_, ?_⟩
  · rw [h'.leafInds p (by omega), h.leafInds p hp]
  · rw [← h.rootInds, ← h.size]; exact h'.rootInds

theorem union_eq_of_loc {p a b : ISet} (h1 : a.xor b ⊆ p) (h2 : p ⊆ a ∪ b) : p ∪ a = a ∪ b := by
  ext x
  have h1 := @h1 x; have h2 := @h2 x
  simp only [ISet.mem_xor, Finset.mem_union] at *
  tauto

omit [LinearOrder P] in
/-- Neighbours found at a non-root internal node. -/
theorem getCtreeNN_frame (g : Prng σ P) {c : CTree} (dis : Bool) (s : σ) {o o1 : Bool} {A B : ℕ}
    {x y z : PTree} {K : Ctx}
    (hwf : WellFormed c.tree ((Ctx.frame o A z K).plug (fork o1 B x y))) :
    ∃ o' d e s', getCtreeNN g c dis s B = (some (A, z.root, d.root, e.root), s') ∧
      fork o1 B x y = fork o' B d e ∧
      (dis = false → ((c.inds x.root ∩ c.inds z.root).Nonempty ∨ (c.inds y.root ∩ c.inds z.root).Nonempty) →
        (c.inds d.root ∩ c.inds z.root).Nonempty) := by
  have henc := hwf.enc
  have hp := rot_perm K o o1 A B x y z
  have hd : RotDistinct K A B x y z := ⟨hp.nodup_iff.1 hwf.nodup⟩
  have h5 := hd.five
  simp only [List.nodup_cons, List.mem_cons, not_or, List.not_mem_nil,
    not_false_eq_true, List.nodup_nil, and_true] at h5
  obtain ⟨⟨hAB, hAC, hAD, hAE⟩, ⟨hBC, hBD, hBE⟩, ⟨hCD, hCE⟩, hDE⟩ := h5
  simp only [Ctx.plug] at henc
  rw [Ctx.encodes_plug, encodes_fork, encodes_fork] at henc
  simp only [root_fork] at henc
  obtain ⟨-, hNA, ⟨hNB, -, -⟩, -⟩ := henc
  have hC : (if (c.tree.nodes A).c0 = some B then (c.tree.nodes A).c1 else (c.tree.nodes A).c0) =
      some z.root := by
    rw [hNA]; cases o
    · have : ¬ z.root = B := fun h => hBC h.symm
      simp [mkNode, this]
    · simp [mkNode]
  -- the children in storage order
  obtain ⟨o2, u, v, huv, hNB', hxy⟩ : ∃ o2 u v, fork o1 B x y = fork o2 B u v ∧
      c.tree.nodes B = ⟨some u.root, some v.root, some A⟩ ∧ ((u = x ∧ v = y) ∨ (u = y ∧ v = x)) := by
    cases o1
    · exact ⟨true, y, x, by simp [fork], by rw [hNB]; simp [mkNode], Or.inr ⟨rfl, rfl⟩⟩
    · exact ⟨true, x, y, by simp [fork], by rw [hNB]; simp [mkNode], Or.inl ⟨rfl, rfl⟩⟩
  have hint : ∀ a b : ISet, a.intersects b = true ↔ (a ∩ b).Nonempty := by
    intro a b; simp [ISet.intersects, Finset.nonempty_iff_ne_empty]
  unfold getCtreeNN
  rw [hNB']
  simp only
  rw [hC]
  simp only
  have flip : fork o1 B x y = fork (!o2) B v u := by rw [huv, fork_flip]
  split
  · next h =>
    simp only [Bool.or_eq_true, Bool.and_eq_true, hint] at h
    split
    · refine ⟨o2, u, v, _, rfl, huv, fun hd _ => ?_⟩
      rw [hd] at h; simp at h; exact h.1
    · refine ⟨!o2, v, u, _, rfl, flip, fun hd _ => ?_⟩
      rw [hd] at h; simp at h; exact h.2
  · next h =>
    split
    · next h' => exact ⟨o2, u, v, _, rfl, huv, fun _ _ => (hint _ _).1 h'⟩
    · next h' =>
      refine ⟨!o2, v, u, _, rfl, flip, fun hd hh => ?_⟩
      rw [hint] at h'
      rcases hxy with ⟨rfl, rfl⟩ | ⟨rfl, rfl⟩
      · tauto
      · tauto

omit [LinearOrder P] in
theorem getCtreeNN_top (g : Prng σ P) {c : CTree} (dis : Bool) (s : σ) {t : PTree}
    (hwf : WellFormed c.tree t) : getCtreeNN g c dis s t.root = (none, s) := by
  unfold getCtreeNN
  rw [encodes_root_parent hwf.enc]

theorem list_sum_map_update {l : List ℕ} {f : ℕ → R} {a : ℕ} {v : R} (h : a ∉ l) :
    (l.map (Function.update f a v)).sum = (l.map f).sum := by
  congr 1
  apply List.map_congr_left
  intro x hx
  exact Function.update_of_ne (by rintro rfl; exact h hx) _ _

theorem Ctx.lvs_subset (K : Ctx) : ∀ p ∈ K.lvs, p ∈ K.poss := by
  induction K with
  | top => simp [Ctx.lvs]
  | frame o p s K ih =>
    intro q hq
    simp only [Ctx.lvs, Ctx.poss, List.mem_append, List.mem_cons] at *
    rcases hq with hq | hq
    · exact Or.inr (Or.inl (s.leaves_subset q hq))
    · exact Or.inr (Or.inr (ih q hq))

theorem Ctx.root_plug_mem (K : Ctx) (s : PTree) : (K.plug s).root = s.root ∨ (K.plug s).root ∈ K.poss := by
  induction K generalizing s with
  | top => exact Or.inl rfl
  | frame o p c K ih =>
    right
    simp only [Ctx.plug, Ctx.poss, List.mem_cons, List.mem_append]
    rcases ih (fork o p s c) with h | h
    · rw [h, root_fork]; exact Or.inl rfl
    · exact Or.inr (Or.inr h)

theorem Ctx.tail_of_all {Q Q' : ℕ → ℕ → ℕ → Prop} {K : Ctx} {h : ℕ} 
    (hQ : ∀ p ∈ K.poss, ∀ a ∈ K.poss, ∀ b ∈ K.poss, Q p a b → Q' p a b)
    (hK : K.All Q h) : K.Tail Q' := by
  cases K with
  | top => trivial
  | frame o p s K =>
    simp only [Ctx.poss, List.mem_cons, List.mem_append] at hQ
    exact ⟨PTree.all_mono (fun p hp a ha b hb => hQ p (by tauto) a (by tauto) b (by tauto)) hK.2.1,
      Ctx.all_mono (fun p hp a ha b hb => hQ p (by tauto) a (by tauto) b (by tauto)) hK.2.2⟩

/-- One iteration of the loop preserves the invariant. -/
theorem body_inv (g : Prng σ P) (m : CostModel R) (prob : R → R → P) {out? : Option ISet} {sh : Bool}
    {w : Walk σ R} {K : Ctx} {o o' : Bool} {A B : ℕ} {d e c : PTree}
    (h : WInv m out? sh w (.frame o A c K) (fork o' B d e))
    (hsh : sh = true → out?.isSome = true ∧ (w.o.ctree.inds d.root ∩ w.o.ctree.inds c.root).Nonempty) :
    ∃ s', WInv m out? sh (Walk.body g m prob w A c.root d.root e.root) K s' ∧ 
      (∃ o'' l r, s' = fork o'' A l r) ∧
      Static w.o (Walk.body g m prob w A c.root d.root e.root).o ∧
      (Walk.body g m prob w A c.root d.root e.root).o.minCtree = w.o.minCtree ∧
      (Walk.body g m prob w A c.root d.root e.root).o.minTotal = w.o.minTotal := by
  obtain ⟨hwf, hroot, hnodes, hleaf, hpart, htail, htotal, hsem, hshr, hdis⟩ := h
  simp only [root_fork] at hroot
  obtain ⟨wo, wB, wt⟩ := w
  simp only at hroot hwf hnodes hleaf hpart htail htotal hsem hshr hdis hsh
  subst hroot
  simp only [Ctx.plug] at hwf hnodes hleaf htotal hsem hshr
  have hp := rot_perm K o o' A B d e c
  have hp' := rot_perm K o o' A B d c e
  have hd : RotDistinct K A B d e c := ⟨hp.nodup_iff.1 hwf.nodup⟩
  have h5 := hd.five
  have hnd := hd.nd
  simp only [List.nodup_cons, List.mem_cons, List.mem_append, not_or, List.nodup_append,
    List.not_mem_nil, not_false_eq_true, List.nodup_nil, and_true] at h5 hnd
  obtain ⟨⟨hAB, hAC, hAD, hAE⟩, ⟨hBC, hBD, hBE⟩, ⟨hCD, hCE⟩, hDE⟩ := h5
  obtain ⟨⟨-, ⟨⟨hAd, hAe⟩, hAc⟩, hAK⟩, ⟨⟨⟨hBd, hBe⟩, hBc⟩, hBK⟩, -⟩ := hnd
  -- decompose the invariants
  have hnodes' := hnodes
  rw [Ctx.all_plug, all_fork_symm NodeInv.symm, all_fork_symm NodeInv.symm] at hnodes'
  simp only [root_fork] at hnodes'
  obtain ⟨nK, nA, ⟨nB, nd, ne⟩, nc⟩ := hnodes'
  rw [all_fork_symm PartInv.symm] at hpart
  obtain ⟨pB, pd, pe⟩ := hpart
  obtain ⟨pc, pK⟩ := htail
  have hnew : (wo.ctree.inds d.root).xor (wo.ctree.inds c.root) ∪ wo.hyper A ∪ wo.hyper B =
      newB wo.ctree.inds A B c.root d.root e.root := by
    rw [nA.2.1, nB.2.1]; rfl
  have hloc := newB_loc nA.1 nB.1
  unfold Walk.body
  simp only [hnew]
  generalize hv : newB wo.ctree.inds A B c.root d.root e.root = v at *
  have eqA : wo.ctree.inds A ∪ v = v ∪ wo.ctree.inds e.root := union_eq_of_loc hloc.2.2.1 hloc.2.2.2
  have eqB : v ∪ wo.ctree.inds d.root = wo.ctree.inds d.root ∪ wo.ctree.inds c.root :=
    union_eq_of_loc hloc.1 hloc.2.1
  have nne : ∀ {q : ℕ} {l : List ℕ} {a : ℕ}, a ∉ l → q ∈ l → q ≠ a := by
    rintro q l a h hq rfl; exact h hq
  have leafne : ∀ q ∈ d.leaves ++ e.leaves ++ c.leaves ++ K.lvs, q ≠ A ∧ q ≠ B := by
    intro q hq
    simp only [List.mem_append] at hq
    rcases hq with ((hq | hq) | hq) | hq
    · exact ⟨nne hAd (d.leaves_subset q hq), nne hBd (d.leaves_subset q hq)⟩
    · exact ⟨nne hAe (e.leaves_subset q hq), nne hBe (e.leaves_subset q hq)⟩
    · exact ⟨nne hAc (c.leaves_subset q hq), nne hBc (c.leaves_subset q hq)⟩
    · exact ⟨nne hAK (K.lvs_subset q hq), nne hBK (K.lvs_subset q hq)⟩
  split
  · -- accepted
    refine ⟨fork o A (fork o' B d c) e, ?_, ⟨o, _, _, rfl⟩, ?_, rfl, rfl⟩
    · have uI : ∀ q, q ≠ B → Function.update wo.ctree.inds B v q = wo.ctree.inds q :=
        fun q hq => Function.update_of_ne hq _ _
      have uB : ∀ (a b : ISet) q, q ≠ A → q ≠ B →
          Function.update (Function.update wo.hyper A a) B b q = wo.hyper q :=
        fun a b q h1 h2 => by rw [Function.update_of_ne h2, Function.update_of_ne h1]
      have uC : ∀ (a b : R) q, q ≠ A → q ≠ B →
          Function.update (Function.update wo.cost.contractionCost B a) A b q =
            wo.cost.contractionCost q :=
        fun a b q h1 h2 => by rw [Function.update_of_ne h1, Function.update_of_ne h2]
      have uP : ∀ (a b : R) q, q ≠ A → q ≠ B →
          Function.update (Function.update wo.cost.partialCost B a) A b q =
            wo.cost.partialCost q :=
        fun a b q h1 h2 => by rw [Function.update_of_ne h1, Function.update_of_ne h2]
      constructor
      · exact wellFormed_swap hwf
      · simp
      · simp only
        rw [Ctx.all_plug, all_fork_symm NodeInv.symm, all_fork_symm NodeInv.symm]
        simp only [root_fork]
        refine ⟨?_, ?_, ⟨?_, ?_, ?_⟩, ?_⟩
        · refine Ctx.all_mono ?_ nK
          intro p hpK a ha b hb hQ
          have ha' : a ≠ B := by rcases ha with rfl | ha; exacts [hAB, nne hBK ha]
          have hb' : b ≠ B := by rcases hb with rfl | hb; exacts [hAB, nne hBK hb]
          unfold NodeInv LocQ at *
          rw [uI p (nne hBK hpK), uI a ha', uI b hb', uB _ _ p (nne hAK hpK) (nne hBK hpK),
            uC _ _ p (nne hAK hpK) (nne hBK hpK)]
          exact hQ
        · refine ⟨⟨?_, ?_⟩, ?_, ?_⟩
          · rw [Function.update_self, uI _ (Ne.symm hBE), uI A hAB]; exact hloc.2.2.1
          · rw [Function.update_self, uI _ (Ne.symm hBE), uI A hAB]; exact hloc.2.2.2
          · rw [Function.update_of_ne hAB, Function.update_self, Function.update_self,
              uI _ (Ne.symm hBE), uI A hAB]
          · rw [Function.update_self, Function.update_self, uI _ (Ne.symm hBE), CostModel.contractionCost, eqA]
        · refine ⟨⟨?_, ?_⟩, ?_, ?_⟩
          · rw [Function.update_self, uI _ (Ne.symm hBD), uI _ (Ne.symm hBC)]; exact hloc.1
          · rw [Function.update_self, uI _ (Ne.symm hBD), uI _ (Ne.symm hBC)]; exact hloc.2.1
          · rw [Function.update_self, Function.update_self, uI _ (Ne.symm hBD), uI _ (Ne.symm hBC)]
          · rw [Function.update_of_ne (Ne.symm hAB), Function.update_self, uI _ (Ne.symm hBD),
              uI _ (Ne.symm hBC), CostModel.contractionCost, eqB]
        all_goals
          first
          | refine PTree.all_mono ?_ nd
          | refine PTree.all_mono ?_ nc
          | refine PTree.all_mono ?_ ne
          intro p hq a ha b hb hQ
          unfold NodeInv LocQ at *
          rw [uI p (nne (by assumption) hq), uI a (nne (by assumption) ha), uI b (nne (by assumption) hb),
            uB _ _ p (nne (by assumption) hq) (nne (by assumption) hq),
            uC _ _ p (nne (by assumption) hq) (nne (by assumption) hq)]
          exact hQ
      · intro q hq
        have hq' : q ∈ d.leaves ++ e.leaves ++ c.leaves ++ K.lvs := by
          have := (rot_leaves_perm K o o' A B d c e).mem_iff.1 hq
          simp only [List.mem_append] at this ⊢; tauto
        have hqold := hleaf q ((rot_leaves_perm K o o' A B d e c).mem_iff.2 hq')
        obtain ⟨q1, q2⟩ := leafne q hq'
        simp only
        rw [uB _ _ q q1 q2, uC _ _ q q1 q2, uP _ _ q q1 q2]
        exact hqold
      · simp only
        rw [all_fork_symm PartInv.symm, all_fork_symm PartInv.symm]
        simp only [root_fork]
        refine ⟨?_, ⟨?_, ?_, ?_⟩, ?_⟩
        · unfold PartInv
          simp only [Function.update_self, Function.update_of_ne (Ne.symm hAB),
            Function.update_of_ne (Ne.symm hAE)]
          abel
        · unfold PartInv
          rw [Function.update_of_ne (Ne.symm hAB), Function.update_self, uP _ _ _ (Ne.symm hAD) (Ne.symm hBD),
            uP _ _ _ (Ne.symm hAC) (Ne.symm hBC)]
          abel
        all_goals
          first
          | refine PTree.all_mono ?_ pd
          | refine PTree.all_mono ?_ pc
          | refine PTree.all_mono ?_ pe
          intro p hq a ha b hb hQ
          unfold PartInv at *
          rw [uP _ _ p (nne (by assumption) hq) (nne (by assumption) hq),
            uP _ _ a (nne (by assumption) ha) (nne (by assumption) ha),
            uP _ _ b (nne (by assumption) hb) (nne (by assumption) hb),
            uC _ _ p (nne (by assumption) hq) (nne (by assumption) hq)]
          exact hQ
      · refine Ctx.tail_of_all ?_ pK
        intro p hq a ha b hb hQ
        unfold PartInv at *
        simp only
        rw [uP _ _ p (nne hAK hq) (nne hBK hq), uP _ _ a (nne hAK ha) (nne hBK ha),
          uP _ _ b (nne hAK hb) (nne hBK hb), uC _ _ p (nne hAK hq) (nne hBK hq)]
        exact hQ
      · simp only
        rw [htotal, (hp.map _).sum_eq, (hp'.map _).sum_eq]
        simp only [List.map_cons, List.sum_cons, List.map_append, List.sum_append]
        rw [list_sum_map_update hAd, list_sum_map_update hAe, list_sum_map_update hAc,
          list_sum_map_update hAK, list_sum_map_update hBd, list_sum_map_update hBe,
          list_sum_map_update hBc, list_sum_map_update hBK, Function.update_self,
          Function.update_of_ne (Ne.symm hAB), Function.update_self]
        abel
      · intro out hout
        rw [← hv]
        exact sem_rotate hd (hsem out hout)
      · intro hs
        obtain ⟨hsome, hdc⟩ := hsh hs
        obtain ⟨out, hout⟩ := Option.isSome_iff_exists.1 hsome
        have hA' := newB_shared (hsem out hout)
        have := hshr hs
        rw [Ctx.all_plug, all_fork_symm ShQ.symm, all_fork_symm ShQ.symm] at this ⊢
        simp only [root_fork] at this ⊢
        obtain ⟨sK, sA, ⟨sB, sd, se⟩, sc⟩ := this
        have hA' := hA' sB
        rw [hv] at hA'
        refine ⟨?_, ?_, ⟨?_, ?_, ?_⟩, ?_⟩
        · refine Ctx.all_mono ?_ sK
          intro p hpK a ha b hb hQ
          have ha' : a ≠ B := by rcases ha with rfl | ha; exacts [hAB, nne hBK ha]
          have hb' : b ≠ B := by rcases hb with rfl | hb; exacts [hAB, nne hBK hb]
          unfold ShQ at *
          rw [uI a ha', uI b hb']
          exact hQ
        · unfold ShQ
          rw [Function.update_self, uI _ (Ne.symm hBE)]
          exact hA'
        · unfold ShQ
          rw [uI _ (Ne.symm hBD), uI _ (Ne.symm hBC)]
          exact hdc
        all_goals
          first
          | refine PTree.all_mono ?_ sd
          | refine PTree.all_mono ?_ sc
          | refine PTree.all_mono ?_ se
          intro p hq a ha b hb hQ
          unfold ShQ at *
          rw [uI a (nne (by assumption) ha), uI b (nne (by assumption) hb)]
          exact hQ
      · exact hdis
    · have hE : e.root < wo.ctree.tree.size := by
        rw [← hwf.mem, hp.mem_iff]; simp [e.root_mem]
      refine ⟨(encodes_swap hd hE hwf.enc).2, rfl, rfl, rfl, ?_, ?_⟩
      · intro q hq
        refine Function.update_of_ne ?_ _ _
        have := (rot_leaves_perm K o o' A B d e c).mem_iff.1 ((hwf.leaves q).2 hq)
        exact (leafne q this).2
      · refine Function.update_of_ne ?_ _ _
        rw [← hwf.root]
        rcases K.root_plug_mem (fork o A (fork o' B d e) c) with h | h
        · rw [h, root_fork]; exact hAB
        · exact nne hBK h
  · -- rejected
    have uP : ∀ (a b : R) q, q ≠ A → q ≠ B →
        Function.update (Function.update wo.cost.partialCost B a) A b q =
          wo.cost.partialCost q :=
      fun a b q h1 h2 => by rw [Function.update_of_ne h1, Function.update_of_ne h2]
    refine ⟨fork o A (fork o' B d e) c, ⟨hwf, by simp, hnodes, ?_, ?_, ?_, htotal, hsem, hshr, hdis⟩,
      ⟨o, _, _, rfl⟩, ⟨rfl, rfl, rfl, rfl, fun _ _ => rfl, rfl⟩, rfl, rfl⟩
    · intro q hq
      obtain ⟨q1, q2⟩ := leafne q ((rot_leaves_perm K o o' A B d e c).mem_iff.1 hq)
      simp only
      rw [uP _ _ q q1 q2]
      exact hleaf q hq
    · simp only
      rw [all_fork_symm PartInv.symm, all_fork_symm PartInv.symm]
      simp only [root_fork]
      refine ⟨?_, ⟨?_, ?_, ?_⟩, ?_⟩
      · unfold PartInv
        rw [Function.update_self, Function.update_of_ne (Ne.symm hAB), Function.update_of_ne (Ne.symm hAC)]
        abel
      · unfold PartInv
        rw [Function.update_of_ne (Ne.symm hAB), Function.update_self, uP _ _ _ (Ne.symm hAD) (Ne.symm hBD),
          uP _ _ _ (Ne.symm hAE) (Ne.symm hBE)]
        abel
      all_goals
        first
        | refine PTree.all_mono ?_ pd
        | refine PTree.all_mono ?_ pc
        | refine PTree.all_mono ?_ pe
        intro p hq a ha b hb hQ
        unfold PartInv at *
        rw [uP _ _ p (nne (by assumption) hq) (nne (by assumption) hq),
          uP _ _ a (nne (by assumption) ha) (nne (by assumption) ha),
          uP _ _ b (nne (by assumption) hb) (nne (by assumption) hb)]
        exact hQ
    · refine Ctx.tail_of_all ?_ pK
      intro p hq a ha b hb hQ
      unfold PartInv at *
      simp only
      rw [uP _ _ p (nne hAK hq) (nne hBK hq), uP _ _ a (nne hAK ha) (nne hBK ha),
        uP _ _ b (nne hAK hb) (nne hBK hb)]
      exact hQ


def Ctx.depth : Ctx → ℕ
  | .top => 0
  | .frame _ _ _ K => K.depth + 1

theorem Ctx.depth_le (K : Ctx) : K.depth ≤ K.poss.length := by
  induction K with
  | top => simp [Ctx.depth]
  | frame o p s K ih => simp only [Ctx.depth, Ctx.poss, List.length_cons, List.length_append]; omega

/-- The walk stops at the root and keeps the invariant. -/
theorem run_inv (g : Prng σ P) (m : CostModel R) (prob : R → R → P) {out? : Option ISet} {sh : Bool}
    (hout : sh = true → out?.isSome = true) :
    ∀ (K : Ctx) (w : Walk σ R) (s : PTree) (fuel : ℕ), WInv m out? sh w K s →
      (∃ o l r, s = fork o w.posB l r) → K.depth < fuel →
      ∃ w' s', Walk.run g m prob fuel w = some w' ∧ WInv m out? sh w' .top s' ∧ Static w.o w'.o ∧
        w'.o.minCtree = w.o.minCtree ∧ w'.o.minTotal = w.o.minTotal := by
  intro K
  induction K with
  | top =>
    rintro w s fuel h - hf
    obtain ⟨f, rfl⟩ : ∃ f, fuel = f + 1 := ⟨fuel - 1, by omega⟩
    have hnn : getCtreeNN g w.o.ctree w.o.disableShared w.o.prng w.posB = (none, w.o.prng) := by
      rw [← h.root]; exact getCtreeNN_top g _ _ h.wf
    exact ⟨w, s, by simp only [Walk.run, hnn], h, Static.rfl' _, rfl, rfl⟩
  | frame o A c K ih =>
    rintro w s fuel h ⟨o1, x, y, rfl⟩ hf
    obtain ⟨f, rfl⟩ : ∃ f, fuel = f + 1 := ⟨fuel - 1, by simp only [Ctx.depth] at hf; omega⟩
    obtain ⟨o', d, e, s', hnn, hfork, hint⟩ :=
      getCtreeNN_frame g (c := w.o.ctree) w.o.disableShared w.o.prng h.wf
    simp only [Walk.run, hnn]
    have h1 : WInv m out? sh { w with o := { w.o with prng := s' } } (.frame o A c K) (fork o' w.posB d e) := by
      rw [← hfork]
      exact ⟨h.wf, h.root, h.nodes, h.leaf, h.part, h.tail, h.total, h.sem, h.shr, h.dis⟩
    have hsh : sh = true → out?.isSome = true ∧
        (w.o.ctree.inds d.root ∩ w.o.ctree.inds c.root).Nonempty := by
      intro hs
      refine ⟨hout hs, hint (h.dis hs) ?_⟩
      have a1 := h.shr hs
      have a2 := h.nodes
      simp only [Ctx.plug] at a1 a2
      rw [Ctx.all_plug, all_fork_symm ShQ.symm] at a1
      rw [Ctx.all_plug, all_fork_symm NodeInv.symm, all_fork_symm NodeInv.symm] at a2
      simp only [root_fork] at a1 a2
      obtain ⟨z, hz⟩ := a1.2.1
      have hz' := Finset.mem_inter.1 hz
      have := a2.2.2.1.1.1.2 hz'.1
      rcases Finset.mem_union.1 this with h | h
      · exact Or.inl ⟨z, Finset.mem_inter.2 ⟨h, hz'.2⟩⟩
      · exact Or.inr ⟨z, Finset.mem_inter.2 ⟨h, hz'.2⟩⟩
    obtain ⟨s2, hw2, ⟨o2, l2, r2, hs2⟩, hst, hm1, hm2⟩ := body_inv g m prob h1 hsh
    have hp2 := hw2.root
    rw [hs2, root_fork] at hp2
    obtain ⟨w3, s3, hr3, hw3, hst3, hm3, hm4⟩ := ih _ s2 f hw2 ⟨o2, l2, r2, by rw [← hp2]; exact hs2⟩
      (by simp only [Ctx.depth] at hf; omega)
    exact ⟨w3, s3, hr3, hw3,
      (⟨rfl, rfl, rfl, rfl, fun _ _ => rfl, rfl⟩ : Static w.o { w.o with prng := s' }).trans (hst.trans hst3),
      hm3.trans hm1, hm4.trans hm2⟩

/-- Invariant of the optimizer between updates. -/
def OInv (m : CostModel R) (out? : Option ISet) (sh : Bool) (o : InfOpt σ R) (t : PTree) : Prop :=
  WInv m out? sh ⟨o, o.ctree.tree.size - 1, o.totalCost⟩ .top t

omit [LinearOrder R] in
theorem part_sum {cc pc : ℕ → R} {s : PTree} (h : s.All (PartInv cc pc))
    (hl : ∀ p ∈ s.leaves, cc p = 0 ∧ pc p = 0) : pc s.root = (s.postorder.map cc).sum := by
  induction s with
  | leaf p =>
    have := hl p (by simp [leaves])
    simp [root, postorder, this.1, this.2]
  | node p l r ihl ihr =>
    simp only [leaves, List.mem_append] at hl
    simp only [postorder, root, List.map_append, List.sum_append, List.map_cons, List.map_nil,
      List.sum_cons, List.sum_nil]
    rw [← ihl h.2.1 (fun q hq => hl q (Or.inl hq)), ← ihr h.2.2 (fun q hq => hl q (Or.inr hq)), h.1]
    abel

theorem oinv_of_winv {m : CostModel R} {out? : Option ISet} {sh : Bool} {w : Walk σ R} {t : PTree}
    (h : WInv m out? sh w .top t) : OInv m out? sh w.o t ∧ w.total = w.o.totalCost := by
  have hr : t.root = w.o.ctree.tree.size - 1 := h.wf.root
  have : w.total = w.o.totalCost := by
    rw [h.total]
    unfold InfOpt.totalCost
    rw [← hr]
    exact (part_sum h.part fun p hp => (h.leaf p hp).2).symm
  refine ⟨⟨h.wf, hr, h.nodes, h.leaf, h.part, h.tail, ?_, h.sem, h.shr, h.dis⟩, this⟩
  simp only
  rw [← this]; exact h.total

/-- How an update treats the recorded minimum. -/
def MinStep (o o' : InfOpt σ R) : Prop :=
  (o'.totalCost < o.minTotal ∧ o'.minTotal = o'.totalCost ∧ o'.minCtree = o'.ctree) ∨
  ((o.minTotal ≤ o'.totalCost ∨ o.ctree.tree.size = 1) ∧ o'.minTotal = o.minTotal ∧
    o'.minCtree = o.minCtree)

/-- One update. -/
theorem update_inv (g : Prng σ P) (m : CostModel R) (prob : R → R → P) {out? : Option ISet} {sh : Bool}
    (hout : sh = true → out?.isSome = true) {o : InfOpt σ R} {t : PTree} (h : OInv m out? sh o t) :
    ∃ o' t', o.update g m prob = some o' ∧ OInv m out? sh o' t' ∧ Static o o' ∧ MinStep o o' := by
  have hwf : WellFormed o.ctree.tree t := h.wf
  obtain ⟨hsz, hlen, hpos⟩ := hwf.size_eq
  have hnl : 0 < o.ctree.tree.nLeaves := by unfold Tree.nLeaves; omega
  unfold InfOpt.update
  simp only
  generalize hq : (g.next o.prng).1 % o.ctree.tree.nLeaves = q
  have hqn : q < o.ctree.tree.nLeaves := by rw [← hq]; exact Nat.mod_lt _ hnl
  have hqs : q < o.ctree.tree.size := by unfold Tree.nLeaves at hqn; omega
  have hl := hwf.linked
  cases hpar : (o.ctree.tree.nodes q).parent with
  | none =>
    have hqr := (hl.root q hqs).1 hpar
    refine ⟨_, t, rfl, ⟨h.wf, h.root, h.nodes, h.leaf, h.part, h.tail, h.total, h.sem, h.shr, h.dis⟩,
      ⟨rfl, rfl, rfl, rfl, fun _ _ => rfl, rfl⟩, Or.inr ⟨Or.inr ?_, rfl, rfl⟩⟩
    unfold Tree.nLeaves at *; omega
  | some B =>
    simp only
    obtain ⟨K, s, rfl, hsr⟩ := exists_plug ((hwf.mem q).2 hqs)
    have henc := hwf.enc
    rw [Ctx.encodes_plug] at henc
    have hp := encodes_root_parent henc.2
    rw [hsr, hpar] at hp
    cases K with
    | top => simp [Ctx.par] at hp
    | frame ob p c K =>
      simp only [Ctx.par, Option.some.injEq] at hp
      subst hp
      have hpart := h.part
      simp only [Ctx.plug] at hpart
      rw [Ctx.all_plug] at hpart
      have hW : WInv m out? sh ⟨{ o with prng := (g.next o.prng).2 }, B, o.totalCost⟩ K (fork ob B s c) := by
        refine ⟨h.wf, by simp, h.nodes, h.leaf, hpart.2, ?_, h.total, h.sem, h.shr, h.dis⟩
        exact Ctx.tail_of_all (fun _ _ _ _ _ _ hh => hh) hpart.1
      have hdep : K.depth < o.ctree.tree.size := by
        have h1 := K.depth_le
        have h2 := hwf.nodup.length_le_of_subset (l₂ := List.range o.ctree.tree.size)
          (fun x hx => by simpa using (hwf.mem x).1 hx)
        have h3 := ((Ctx.frame ob B c K).postorder_plug s).length_eq
        simp only [Ctx.poss, List.length_append, List.length_cons, List.length_range] at h2 h3
        omega
      obtain ⟨w', s', hrun, hw', hst, hm1, hm2⟩ := run_inv g m prob hout K _ _ _ hW ⟨ob, s, c, rfl⟩ hdep
      obtain ⟨hO, htot⟩ := oinv_of_winv hw'
      have hrun' : Walk.run g m prob o.ctree.tree.size
          ⟨{ o with prng := (g.next o.prng).2 }, B,
            InfOpt.totalCost { o with prng := (g.next o.prng).2 }⟩ = some w' := hrun
      rw [hrun']
      have hst0 : Static o w'.o :=
        (⟨rfl, rfl, rfl, rfl, fun _ _ => rfl, rfl⟩ :
          Static o { o with prng := (g.next o.prng).2 }).trans hst
      refine ⟨w'.o.updateMin, s', rfl, ?_, ?_, ?_⟩
      · unfold InfOpt.updateMin
        split
        · exact ⟨hO.wf, hO.root, hO.nodes, hO.leaf, hO.part, hO.tail, hO.total, hO.sem, hO.shr, hO.dis⟩
        · exact hO
      · unfold InfOpt.updateMin
        split
        · exact hst0.trans ⟨rfl, rfl, rfl, rfl, fun _ _ => rfl, rfl⟩
        · exact hst0
      · unfold InfOpt.updateMin MinStep
        simp only at hm1 hm2
        split
        · next hlt => left; rw [hm2] at hlt; exact ⟨hlt, rfl, rfl⟩
        · next hlt => right; rw [hm2] at hlt; exact ⟨Or.inl (not_lt.1 hlt), hm2, hm1⟩

/-! ### Caches built from scratch -/

omit [LinearOrder R] in
theorem sum_eq_treeCost {m : CostModel R} {inds hyper : ℕ → ISet} {cc : ℕ → R} {t : PTree}
    (h : t.All (NodeInv m inds hyper cc)) (hl : ∀ p ∈ t.leaves, cc p = 0) :
    (t.postorder.map cc).sum = treeCost m.get inds t := by
  induction t with
  | leaf p => simp [postorder, treeCost, hl p (by simp [leaves])]
  | node p l r ihl ihr =>
    simp only [leaves, List.mem_append] at hl
    simp only [postorder, treeCost, List.map_append, List.sum_append, List.map_cons, List.map_nil,
      List.sum_cons, List.sum_nil, ihl h.2.1 (fun q hq => hl q (Or.inl hq)),
      ihr h.2.2 (fun q hq => hl q (Or.inr hq)), h.1.2.2]
    abel

omit [LinearOrder R] in
/-- `CostCache` constructor on a subtree. -/
theorem foldl_visit {m : CostModel R} {c : CTree} {s : PTree} {par} (henc : s.Encodes c.tree.nodes par)
    (hnd : s.postorder.Nodup) (hloc : s.All (LocQ c.inds)) (k : CostCache R) :
    let k' := s.postorder.foldl (CostCache.visit m c) k
    (∀ p, p ∉ s.postorder → k'.partialCost p = k.partialCost p ∧ k'.contractionCost p = k.contractionCost p) ∧
    (∀ p ∈ s.leaves, k'.partialCost p = 0 ∧ k'.contractionCost p = 0) ∧
    s.All (fun p a b => k'.contractionCost p = m.get (c.inds a ∪ c.inds b)) ∧
    s.All (PartInv k'.contractionCost k'.partialCost) := by
  induction s generalizing par k with
  | leaf p =>
    have hN : c.tree.nodes p = _ := henc
    simp only [postorder, List.foldl_cons, List.foldl_nil, CostCache.visit, hN, PTree.All, and_true, leaves,
      List.mem_singleton]
    refine ⟨fun q hq => ?_, ?_⟩
    · simp [Function.update_of_ne hq]
    · rintro q rfl; simp
  | node p l r ihl ihr =>
    obtain ⟨hN, hl, hr⟩ := henc
    simp only [postorder, List.nodup_append, List.mem_append, List.mem_singleton] at hnd
    obtain ⟨⟨hndl, hndr, hlr⟩, -, hpp⟩ := hnd
    simp only [postorder, List.foldl_append, List.foldl_cons, List.foldl_nil]
    obtain ⟨l1, l2, l3, l4⟩ := ihl hl hndl hloc.2.1 k
    generalize l.postorder.foldl (CostCache.visit m c) k = k1 at *
    obtain ⟨r1, r2, r3, r4⟩ := ihr hr hndr hloc.2.2 k1
    generalize r.postorder.foldl (CostCache.visit m c) k1 = k2 at *
    have hlp : ∀ q ∈ l.postorder, q ≠ p := fun q hq => hpp q (Or.inl hq) p rfl
    have hrp : ∀ q ∈ r.postorder, q ≠ p := fun q hq => hpp q (Or.inr hq) p rfl
    have hlr' : ∀ q ∈ l.postorder, q ∉ r.postorder := fun q hq hq' => hlr q hq q hq' rfl
    have hL : ∀ q ∈ l.postorder, k2.partialCost q = k1.partialCost q ∧
        k2.contractionCost q = k1.contractionCost q := fun q hq => r1 q (hlr' q hq)
    simp only [CostCache.visit, hN, CostModel.contractionCost, union_eq_of_loc hloc.1.1 hloc.1.2]
    refine ⟨?_, ?_, ⟨?_, ?_, ?_⟩, ⟨?_, ?_, ?_⟩⟩
    · intro q hq
      simp only [List.mem_append, List.mem_singleton, not_or] at hq
      rw [Function.update_of_ne hq.2, Function.update_of_ne hq.2, (r1 q hq.1.2).1, (r1 q hq.1.2).2]
      exact l1 q hq.1.1
    · intro q hq
      simp only [leaves, List.mem_append] at hq
      rcases hq with hq | hq
      · have := l.leaves_subset q hq
        rw [Function.update_of_ne (hlp q this), Function.update_of_ne (hlp q this), (hL q this).1,
          (hL q this).2]
        exact l2 q hq
      · have := r.leaves_subset q hq
        rw [Function.update_of_ne (hrp q this), Function.update_of_ne (hrp q this)]
        exact r2 q hq
    · simp only [Function.update_self]
    · refine PTree.all_mono ?_ l3
      intro q hq a ha b hb hQ
      simp only [Function.update_of_ne (hlp q hq), (hL q hq).2]; exact hQ
    · refine PTree.all_mono ?_ r3
      intro q hq a ha b hb hQ
      simp only [Function.update_of_ne (hrp q hq)]; exact hQ
    · unfold PartInv
      rw [Function.update_self, Function.update_self, Function.update_of_ne (hlp _ l.root_mem),
        Function.update_of_ne (hrp _ r.root_mem)]
    · refine PTree.all_mono ?_ l4
      intro q hq a ha b hb hQ
      unfold PartInv at *
      rw [Function.update_of_ne (hlp q hq), Function.update_of_ne (hlp q hq), Function.update_of_ne (hlp a ha),
        Function.update_of_ne (hlp b hb), (hL q hq).1, (hL q hq).2, (hL a ha).1, (hL b hb).1]
      exact hQ
    · refine PTree.all_mono ?_ r4
      intro q hq a ha b hb hQ
      unfold PartInv at *
      rw [Function.update_of_ne (hrp q hq), Function.update_of_ne (hrp q hq), Function.update_of_ne (hrp a ha),
        Function.update_of_ne (hrp b hb)]
      exact hQ

omit [LinearOrder R] in
/-- The local equations determine the caches. -/
theorem caches_unique {m : CostModel R} {inds : ℕ → ISet} {cc pc cc' pc' : ℕ → R} {t : PTree}
    (h1 : t.All (fun p a b => cc p = m.get (inds a ∪ inds b))) (h2 : t.All (PartInv cc pc))
    (h3 : ∀ p ∈ t.leaves, pc p = 0 ∧ cc p = 0)
    (h1' : t.All (fun p a b => cc' p = m.get (inds a ∪ inds b))) (h2' : t.All (PartInv cc' pc'))
    (h3' : ∀ p ∈ t.leaves, pc' p = 0 ∧ cc' p = 0) :
    ∀ p ∈ t.postorder, cc p = cc' p ∧ pc p = pc' p := by
  induction t with
  | leaf p =>
    intro q hq
    simp only [postorder, List.mem_singleton] at hq
    subst hq
    have a := h3 q (by simp [leaves]); have b := h3' q (by simp [leaves])
    rw [a.1, a.2, b.1, b.2]; exact ⟨rfl, rfl⟩
  | node p l r ihl ihr =>
    simp only [leaves, List.mem_append] at h3 h3'
    have il := ihl h1.2.1 h2.2.1 (fun q hq => h3 q (Or.inl hq)) h1'.2.1 h2'.2.1 (fun q hq => h3' q (Or.inl hq))
    have ir := ihr h1.2.2 h2.2.2 (fun q hq => h3 q (Or.inr hq)) h1'.2.2 h2'.2.2 (fun q hq => h3' q (Or.inr hq))
    intro q hq
    simp only [postorder, List.mem_append, List.mem_singleton] at hq
    rcases hq with (hq | hq) | rfl
    · exact il q hq
    · exact ir q hq
    · have e : cc q = cc' q := by rw [h1.1, h1'.1]
      refine ⟨e, ?_⟩
      have a := h2.1; have b := h2'.1
      unfold PartInv at a b
      rw [a, b, e, (il _ l.root_mem).2, (ir _ r.root_mem).2]


omit [LinearOrder R] in
theorem foldl_getCost {m : CostModel R} {c : CTree} {s : PTree} {par} (henc : s.Encodes c.tree.nodes par)
    (hloc : s.All (LocQ c.inds)) (x : R) :
    s.postorder.foldl (fun t pos =>
      match (c.tree.nodes pos).c0, (c.tree.nodes pos).c1 with
      | some b, some d => t + m.contractionCost (c.inds pos) (c.inds b) (c.inds d)
      | _, _ => t) x = x + treeCost m.get c.inds s := by
  induction s generalizing par x with
  | leaf p =>
    have hN : c.tree.nodes p = _ := henc
    simp [postorder, hN, treeCost]
  | node p l r ihl ihr =>
    obtain ⟨hN, hl, hr⟩ := henc
    simp only [postorder, List.foldl_append, ihl hl hloc.2.1, ihr hr hloc.2.2]
    simp only [List.foldl_cons, List.foldl_nil, hN, CostModel.contractionCost,
      union_eq_of_loc hloc.1.1 hloc.1.2, treeCost]
    abel

omit [LinearOrder R] in
theorem getCost_eq {m : CostModel R} {c : CTree} {t : PTree} (h : WellFormed c.tree t)
    (hloc : t.All (LocQ c.inds)) {fuel : ℕ} (hf : 2 * c.tree.size ≤ fuel) :
    getCost fuel m c = some (treeCost m.get c.inds t) := by
  unfold getCost
  rw [traverse_eq h hf, Option.map_some]
  have := foldl_getCost (m := m) h.enc hloc 0
  rw [zero_add] at this
  exact congrArg some this

omit [LinearOrder R] in
/-- Caches built from scratch satisfy the local equations. -/
theorem costCache_make {m : CostModel R} {c : CTree} {t : PTree} (h : WellFormed c.tree t)
    (hloc : t.All (LocQ c.inds)) {fuel : ℕ} (hf : 2 * c.tree.size ≤ fuel) :
    ∃ k, CostCache.make fuel m c = some k ∧
      (∀ p ∈ t.leaves, k.partialCost p = 0 ∧ k.contractionCost p = 0) ∧
      t.All (fun p a b => k.contractionCost p = m.get (c.inds a ∪ c.inds b)) ∧
      t.All (PartInv k.contractionCost k.partialCost) := by
  unfold CostCache.make
  rw [traverse_eq h hf, Option.map_some]
  exact ⟨_, rfl, (foldl_visit h.enc h.nodup hloc _).2⟩

theorem nodeOk_iff {c : CTree} {sh : Bool} {p a b : ℕ} (h0 : (c.tree.nodes p).c0 = some a)
    (h1 : (c.tree.nodes p).c1 = some b) :
    c.nodeOk sh p = true ↔ LocQ c.inds p a b ∧ (sh = true → ShQ c.inds p a b) := by
  unfold CTree.nodeOk
  rw [h0, h1]
  simp only [ISet.intersects, Bool.not_eq_true', Bool.or_eq_false_iff, Bool.and_eq_false_iff,
    Bool.not_eq_false', decide_eq_true_eq, LocQ, ShQ, Finset.nonempty_iff_ne_empty]
  cases sh <;> simp <;> tauto

theorem PTree.all_and {Q Q' : ℕ → ℕ → ℕ → Prop} {t : PTree} :
    t.All (fun p a b => Q p a b ∧ Q' p a b) ↔ t.All Q ∧ t.All Q' := by
  induction t with
  | leaf p => simp [PTree.All]
  | node p l r ihl ihr => simp only [PTree.All, ihl, ihr]; tauto

/-- `is_valid` of a contraction tree whose nodes form a tree. -/
theorem ctree_isValid_iff {c : CTree} {t : PTree} (h : WellFormed c.tree t) (sh : Bool) :
    c.isValid sh = true ↔ c.dims.ok c.nInds = true ∧ t.All (LocQ c.inds) ∧
      (sh = true → t.All (ShQ c.inds)) := by
  have hv := h.linked.isValid
  have hl := h.linked
  have key : ((List.range c.tree.size).all fun i => c.nodeOk sh i) = true ↔
      t.All (fun p a b => LocQ c.inds p a b ∧ (sh = true → ShQ c.inds p a b)) := by
    rw [all_iff h.enc, List.all_eq_true]
    constructor
    · intro hh p hp a b h0 h1
      exact (nodeOk_iff h0 h1).1 (hh p (by simpa using (h.mem p).1 hp))
    · intro hh p hp
      have hp' : p < c.tree.size := by simpa using hp
      cases h0 : (c.tree.nodes p).c0 with
      | none => unfold CTree.nodeOk; rw [h0]
      | some a =>
        cases h1 : (c.tree.nodes p).c1 with
        | none =>
          have := (hl.leaf0 p hp').2 ((hl.leaf1 p hp').1 h1)
          rw [h0] at this; simp at this
        | some b => exact (nodeOk_iff h0 h1).2 (hh p ((h.mem p).2 hp') a b h0 h1)
  unfold CTree.isValid
  rw [Bool.and_eq_true, Bool.and_eq_true, key, PTree.all_and]
  simp only [hv, true_and]
  refine and_congr_right fun _ => and_congr_right fun _ => ?_
  cases sh
  · simp only [Bool.false_eq_true, IsEmpty.forall_iff, iff_true]
    clear key hv hl
    generalize t = t'
    induction t' with
    | leaf p => trivial
    | node p l r ihl ihr => exact ⟨trivial, ihl, ihr⟩
  · simp

omit [LinearOrder R] in
/-- The state with caches built from scratch satisfies the invariant. -/
theorem oinv_fresh {m : CostModel R} {c : CTree} {seed : σ} {dis : Bool} {minC : CTree} {mt : R} {k : CostCache R} {t : PTree}
    (hwf : WellFormed c.tree t) (hv : c.isValid (!dis) = true) (hk : CostCache.make c.fuel m c = some k) {out? : Option ISet}
    (hsem : ∀ out, out? = some out → t.Sem c.inds out) :
    OInv m out? (out?.isSome && !dis) (⟨c, dis, seed, minC, k, hyperCache c, mt⟩ : InfOpt σ R) t := by
  obtain ⟨hd, hloc, hsh⟩ := (ctree_isValid_iff hwf _).1 hv
  obtain ⟨k', hk', k1, k2, k3⟩ := costCache_make (m := m) hwf hloc (fuel := c.fuel) (le_refl _)
  rw [hk] at hk'
  cases hk'
  have hcc : t.All (NodeInv m c.inds (hyperCache c) k.contractionCost) := by
    unfold NodeInv
    rw [PTree.all_and, PTree.all_and]
    refine ⟨hloc, ?_, k2⟩
    rw [all_iff hwf.enc]
    intro p hp a b h0 h1
    unfold hyperCache; rw [h0, h1]
  refine ⟨hwf, hwf.root, hcc, ?_, k3, trivial, ?_, hsem, ?_, ?_⟩
  · intro p hp
    have hp' := (hwf.leaves p).1 hp
    have hpn : p < c.tree.size := (hwf.mem p).1 (t.leaves_subset p hp)
    have := (hwf.linked.leaf0 p hpn).2 hp'
    refine ⟨?_, (k1 p hp).2, (k1 p hp).1⟩
    simp only [hyperCache, this]
  · unfold InfOpt.totalCost
    simp only
    rw [← hwf.root]
    exact part_sum k3 fun p hp => ⟨(k1 p hp).2, (k1 p hp).1⟩
  · intro hh
    simp only [Bool.and_eq_true, Bool.not_eq_true'] at hh
    exact hsh (by rw [hh.2]; rfl)
  · intro hh
    simp only [Bool.and_eq_true, Bool.not_eq_true'] at hh
    exact hh.2

/-- A successfully constructed optimizer satisfies the invariant. -/
theorem make_inv {m : CostModel R} {c : CTree} {seed : σ} {dis : Bool} {minC : Option CTree}
    {o : InfOpt σ R} {t : PTree} (hwf : WellFormed c.tree t) 
    (hmk : InfOpt.make m c seed dis minC = some (.ok o)) {out? : Option ISet}
    (hsem : ∀ out, out? = some out → t.Sem c.inds out) :
    OInv m out? (out?.isSome && !dis) o t ∧ o.ctree = c ∧ o.disableShared = dis ∧
      o.minCtree = minC.getD c ∧ getCost (minC.getD c).fuel m (minC.getD c) = some o.minTotal ∧
      0 < o.totalCost ∧ 0 < o.minTotal ∧ c.isValid (!dis) = true ∧ (minC.getD c).isValid (!dis) = true := by
  unfold InfOpt.make InfOpt.makeWith at hmk
  simp only [Bool.or_eq_true, Bool.not_eq_true', bind, pure] at hmk
  split at hmk
  · simp at hmk
  next hv =>
  simp only [not_or, Bool.not_eq_false] at hv
  obtain ⟨hv1, hv2⟩ := hv
  obtain ⟨hd, hloc, hsh⟩ := (ctree_isValid_iff hwf _).1 hv1
  obtain ⟨k, hk, k1, k2, k3⟩ := costCache_make (m := m) hwf hloc (fuel := c.fuel) (le_refl _)
  rw [hk] at hmk
  simp only [Option.bind_some] at hmk
  cases hg : getCost (minC.getD c).fuel m (minC.getD c) with
  | none => rw [hg] at hmk; simp at hmk
  | some mt =>
    rw [hg] at hmk
    simp only [Option.bind_some] at hmk
    split at hmk
    · simp at hmk
    next hpos =>
    simp only [Option.some.injEq, Except.ok.injEq] at hmk
    subst hmk
    simp only [not_or, not_le] at hpos
    exact ⟨oinv_fresh hwf hv1 hk hsem, rfl, rfl, rfl, rfl, hpos.1, hpos.2, hv1, hv2⟩

/-- Any history of updates. -/
theorem run_history (g : Prng σ P) (m : CostModel R) {out? : Option ISet} {sh : Bool}
    (hout : sh = true → out?.isSome = true) (probs : List (R → R → P)) :
    ∀ {o : InfOpt σ R} {t : PTree}, OInv m out? sh o t →
      ∃ o' t', o.run g m probs = some o' ∧ OInv m out? sh o' t' ∧ Static o o' := by
  induction probs with
  | nil => intro o t h; exact ⟨o, t, rfl, h, Static.rfl' _⟩
  | cons p ps ih =>
    intro o t h
    obtain ⟨o1, t1, h1, hi1, hs1, -⟩ := update_inv g m p hout h
    obtain ⟨o2, t2, h2, hi2, hs2⟩ := ih hi1
    exact ⟨o2, t2, by simp [InfOpt.run, h1, h2], hi2, hs1.trans hs2⟩

end TNCO
