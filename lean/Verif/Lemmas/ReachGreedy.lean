import Verif.Lemmas.ReachLimit
import Verif.Lemmas.ReachTotal

/-! Helper lemmas: the greedy rule does not leave a tree whose exchanges all raise the cost. -/

namespace TNCO
open PTree MeasureTheory

variable {σ τ : Type}

/-- All exchanges that the search can try raise the cost. -/
def StrictMin (m : CostModel ℝ) (dis : Bool) (T : CTree) : Prop :=
  ∀ (o o' : Bool) (A B C D E : ℕ) (pa : Option ℕ), T.tree.nodes A = mkNode o B C pa → T.tree.nodes B = mkNode o' D E (some A) →
    (dis = false → (T.inds D ∩ T.inds C).Nonempty) →
    m.get (T.inds D ∪ T.inds E) + m.get (T.inds B ∪ T.inds C) <
      m.get (newB T.inds A B C D E ∪ T.inds D) + m.get (T.inds A ∪ newB T.inds A B C D E)

variable {m : CostModel ℝ} {out : ISet} {dis : Bool} {lf : ℕ → ISet} {N : ℕ} {M : ℕ}

theorem LiveAt.greedy {w : Walk σ ℝ} {o : Bool} {A : ℕ} {c : PTree} {K : Ctx} {s : PTree}
    (h : LiveAt m out dis lf N w (.frame o A c K) s) (hmin : StrictMin m dis w.o.ctree) (n : ℕ) {u : ℝ} (hu : 0 < u) :
    (Walk.once drawPrng m probGreedy (w.withPrng (n, u))).o.ctree = w.o.ctree := by
  obtain ⟨ob, l, r, rfl⟩ := h.shape
  have hat : At m (some out) (!dis) w o A c K ob l r := h.inv
  have hw0 : WInv m (some out) (!dis) (w.withPrng (n, u)) (.frame o A c K) (fork ob w.posB l r) := WInv.withPrng h.inv _
  obtain ⟨o', d, e, s2, hnn, hfork, hint⟩ := getCtreeNN_frame drawPrng (w.withPrng (n, u)).o.disableShared
    (w.withPrng (n, u)).o.prng hw0.wf
  have hs2 : s2 = (n, u) := by
    have := nn_state (P := ℝ) w.o.ctree w.o.disableShared (n, u) w.posB
    have e2 : getCtreeNN drawPrng w.o.ctree w.o.disableShared (n, u) w.posB = _ := hnn
    rw [e2] at this
    exact this
  subst hs2
  have hsh : dis = false → (w.o.ctree.inds d.root ∩ w.o.ctree.inds c.root).Nonempty := by
    intro hdf
    subst hdf
    refine hint h.dis ?_
    obtain ⟨x, hx⟩ := (At.shr hat).2
    have hx' := Finset.mem_inter.1 hx
    rcases Finset.mem_union.1 (hat.spot.iB.1.2 hx'.1) with h | h
    · exact Or.inl ⟨x, Finset.mem_inter.2 ⟨h, hx'.2⟩⟩
    · exact Or.inr ⟨x, Finset.mem_inter.2 ⟨h, hx'.2⟩⟩
  have hat2 : At m (some out) (!dis) w o A c K o' d e := by
    unfold At at hat ⊢
    have : fork ob w.posB l r = fork o' w.posB d e := hfork
    rw [← this]; exact hat
  have sp := hat2.spot
  have hnn' : getCtreeNN drawPrng (w.withPrng (n, u)).o.ctree (w.withPrng (n, u)).o.disableShared
      (w.withPrng (n, u)).o.prng (w.withPrng (n, u)).posB = _ := hnn
  have hd := hmin o o' A w.posB c.root d.root e.root K.par sp.nA sp.nB hsh
  have hdelta : 0 < candDelta m w A w.posB c.root d.root e.root := by
    unfold candDelta
    rw [sp.iA.2.2, sp.iB.2.2]
    simp only [CostModel.contractionCost]
    linarith
  have key := sp.body_tree probGreedy n u
  rw [if_neg (by unfold probGreedy; rw [if_neg (not_le.2 hdelta)]; exact not_le.2 hu)] at key
  unfold Walk.once
  rw [hnn']
  exact key

theorem integral_open {g : ℝ → ENNReal} {x : ENNReal} (h : ∀ u ∈ Set.Ioo (0 : ℝ) 1, x ≤ g u) :
    x ≤ ∫⁻ u in Set.Ico (0 : ℝ) 1, g u := by
  have h1 : ∫⁻ _ in Set.Ioo (0 : ℝ) 1, x ≤ ∫⁻ u in Set.Ioo (0 : ℝ) 1, g u := setLIntegral_mono' measurableSet_Ioo h
  have h2 : ∫⁻ u in Set.Ioo (0 : ℝ) 1, g u ≤ ∫⁻ u in Set.Ico (0 : ℝ) 1, g u := lintegral_mono_set Set.Ioo_subset_Ico_self
  rw [setLIntegral_const, Real.volume_Ioo] at h1
  simp only [sub_zero, ENNReal.ofReal_one, mul_one] at h1
  exact h1.trans h2

/-- The states that greedy updates can lead to. -/
def Stuck (m : CostModel ℝ) (out : ISet) (dis : Bool) (lf : ℕ → ISet) (N : ℕ) (T : CTree) (mt : ℝ) (o : InfOpt Unit ℝ) : Prop :=
  ∃ t, Live m out dis lf N o t ∧ o.ctree = T ∧ o.minTotal = mt

theorem LiveAt.mean_greedy (hM : 0 < M) {T : CTree} (hmin : StrictMin m dis T) {t0 : PTree} (ht0 : WellFormed T.tree t0) {mt : ℝ}
    (hmt : mt ≤ treeCost m.get T.inds t0) {f : InfOpt Unit ℝ → ENNReal} {v : ENNReal}
    (hf : ∀ o', Stuck m out dis lf N T mt o' → v ≤ f o') :
    ∀ (K : Ctx) (k : ℕ) (w : Walk (ℕ × ℝ) ℝ) (s : PTree), LiveAt m out dis lf N w K s → K.depth ≤ k → w.o.ctree = T →
      w.o.minTotal = mt → v ≤ Walk.mean M m probGreedy f k w
  | .top, k, w, s, h, _, hT, hw => by
    rw [h.mean_top hM]
    refine hf _ ⟨s, h.after.1, ?_, ?_⟩
    · unfold InfOpt.updateMin; split <;> exact hT
    · have htot : w.o.totalCost = treeCost m.get T.inds t0 := by
        rw [← (oinv_of_winv h.inv).2, h.inv.cost (t := t0) (by rw [hT]; exact ht0), hT]
      unfold InfOpt.updateMin
      rw [if_neg (by rw [htot, hw]; exact not_lt.2 hmt)]
      exact hw
  | .frame o A c K, 0, w, s, h, hk, _, _ => by simp [Ctx.depth] at hk
  | .frame o A c K, k + 1, w, s, h, hk, hT, hw => by
    simp only [Walk.mean]
    have : ∀ n < M, v ≤ ∫⁻ u in Set.Ico (0 : ℝ) 1, Walk.mean M m probGreedy f k
        (Walk.once drawPrng m probGreedy (w.withPrng (n, u))) := by
      intro n _
      refine integral_open fun u hu => ?_
      obtain ⟨s', h', hm'⟩ := h.once probGreedy n u
      exact LiveAt.mean_greedy hM hmin ht0 hmt hf K k _ s' h' (by simp only [Ctx.depth] at hk; omega)
        ((h.greedy (by rw [hT]; exact hmin) n hu.1).trans hT) (hm'.trans hw)
    calc v = (M : ENNReal)⁻¹ * ∑ _n ∈ Finset.range M, v := (avg_const hM v).symm
      _ ≤ _ := avg_mono this

/-- Nothing changes, whatever the number of greedy updates. -/
theorem Stuck.means (hM : 0 < M) (hN : 1 < N) {T : CTree} (hmin : StrictMin m dis T) {t0 : PTree} (ht0 : WellFormed T.tree t0)
    {mt : ℝ} (hmt : mt ≤ treeCost m.get T.inds t0) {f : InfOpt Unit ℝ → ENNReal} {v : ENNReal}
    (hf : ∀ o', Stuck m out dis lf N T mt o' → v ≤ f o') (n : ℕ) :
    ∀ o, Stuck m out dis lf N T mt o → v ≤ InfOpt.means M m f (List.replicate n probGreedy) o := by
  induction n with
  | zero => exact hf
  | succ n ih =>
    rintro o ⟨t, h, hT, hw⟩
    simp only [List.replicate_succ, InfOpt.means]
    unfold InfOpt.mean
    have hwf := h.inv.wf
    simp only [Ctx.plug] at hwf
    have hnl : 0 < o.ctree.tree.nLeaves := by
      have := hwf.size_eq
      unfold Tree.nLeaves; omega
    have : ∀ n' < M, v ≤ o.leafMean M m probGreedy (InfOpt.means M m f (List.replicate n probGreedy)) (n' % o.ctree.tree.nLeaves) := by
      intro n' _
      have hq : n' % o.ctree.tree.nLeaves ∈ t.leaves := (hwf.leaves _).2 (Nat.mod_lt n' hnl)
      generalize n' % o.ctree.tree.nLeaves = q at hq
      obtain ⟨K, rfl⟩ := exists_plug_leaf hq
      cases K with
      | top =>
        exfalso
        have := hwf.size_eq
        have hs := h.size
        simp [Ctx.plug, PTree.leaves] at this
        omega
      | frame ob B c K =>
        obtain ⟨hp, hd, hL⟩ := h.start
        unfold InfOpt.leafMean
        simp only [root] at hp
        rw [hp]
        exact LiveAt.mean_greedy hM hmin ht0 hmt ih K _ _ _ hL hd hT hw
    calc v = (M : ENNReal)⁻¹ * ∑ _n ∈ Finset.range M, v := (avg_const hM v).symm
      _ ≤ _ := avg_mono this

end TNCO
