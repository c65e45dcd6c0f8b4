import Verif.Lemmas.Balance
import Verif.Props.Tree
import Verif.Model.Cost

/-! Helper lemmas: the chance of whole updates. -/

namespace TNCO
open PTree MeasureTheory

variable {σ τ : Type} {m : CostModel ℝ} {w : Walk σ ℝ}

/-- The state of the loop at some position of a tree, for any index sets accepted by `is_valid`. -/
def AtInner (m : CostModel ℝ) (w : Walk σ ℝ) : Prop :=
  ∃ K s, WInv m none false w K s ∧ ∃ ob l r, s = fork ob w.posB l r

theorem AtInner.withPrng (h : AtInner m w) (x : τ) : AtInner m (w.withPrng x) := by
  obtain ⟨K, s, h, hs⟩ := h
  exact ⟨K, s, WInv.withPrng h x, hs⟩

theorem AtInner.root (h : AtInner m w) (prob : ℝ → ℝ → ℝ) (hr : (w.o.ctree.tree.nodes w.posB).parent = none) (n : ℕ) (u : ℝ) :
    Walk.once drawPrng m prob (w.withPrng (n, u)) = w.withPrng (n, u) := by
  have : getCtreeNN drawPrng w.o.ctree w.o.disableShared (n, u) w.posB = (none, (n, u)) := by
    unfold getCtreeNN; rw [hr]
  unfold Walk.once
  have h1 : getCtreeNN drawPrng (w.withPrng (n, u)).o.ctree (w.withPrng (n, u)).o.disableShared
      (w.withPrng (n, u)).o.prng (w.withPrng (n, u)).posB = _ := this
  rw [h1]
  rfl

theorem ico_vol (x : ENNReal) : ∫⁻ _ in Set.Ico (0 : ℝ) 1, x = x := by
  rw [setLIntegral_const, Real.volume_Ico]; simp

theorem half_add (x : ENNReal) : 2⁻¹ * x + 2⁻¹ * x = x := by
  rw [← add_mul, ENNReal.inv_two_add_inv_two, one_mul]

/-- At the root nothing happens any more. -/
theorem endHalf_root {w : Walk (ℕ × ℝ) ℝ} (h : AtInner m w) (prob : ℝ → ℝ → ℝ)
    (hr : (w.o.ctree.tree.nodes w.posB).parent = none) (k : ℕ) (T : CTree) :
    Walk.endHalf m prob k w T = open Classical in if w.o.ctree = T then 1 else 0 := by
  classical
  induction k generalizing w with
  | zero => simp only [Walk.endHalf]
  | succ k ih =>
    have : ∀ n u, Walk.endHalf m prob k (Walk.once drawPrng m prob (w.withPrng (n, u))) T = if w.o.ctree = T then 1 else 0 := by
      intro n u
      rw [h.root prob hr]
      rw [ih (w := w.withPrng (n, u)) (h.withPrng _) hr]
      rfl
    simp only [Walk.endHalf, this]
    rw [ico_vol, half_add]

/-- The chance is at least half the chance after a given outcome of the coin. -/
theorem endHalf_ge {w : Walk (ℕ × ℝ) ℝ} (prob : ℝ → ℝ → ℝ) (k : ℕ) (T : CTree) (b : Bool) {x : ENNReal}
    (h : ∀ u ∈ Set.Ico (0 : ℝ) 1, x ≤ Walk.endHalf m prob k (Walk.once drawPrng m prob (w.withPrng (b.toNat, u))) T) :
    2⁻¹ * x ≤ Walk.endHalf m prob (k + 1) w T := by
  have key : x ≤ ∫⁻ u in Set.Ico (0 : ℝ) 1, Walk.endHalf m prob k (Walk.once drawPrng m prob (w.withPrng (b.toNat, u))) T := by
    calc x = ∫⁻ _ in Set.Ico (0 : ℝ) 1, x := (ico_vol x).symm
      _ ≤ _ := setLIntegral_mono' measurableSet_Ico h
  simp only [Walk.endHalf]
  cases b
  · exact (mul_le_mul_right key _).trans le_self_add
  · exact (mul_le_mul_right key _).trans le_add_self

/-- One iteration keeps the invariant. -/
theorem AtInner.once {w : Walk σ ℝ} (h : AtInner m w) (prob : ℝ → ℝ → ℝ) (n : ℕ) (u : ℝ) :
    AtInner m (Walk.once drawPrng m prob (w.withPrng (n, u))) := by
  obtain ⟨K, s, h, ob, l, r, rfl⟩ := h
  cases K with
  | top =>
    rw [AtInner.root ⟨_, _, h, ob, l, r, rfl⟩]
    · exact AtInner.withPrng ⟨_, _, h, ob, l, r, rfl⟩ _
    · have := encodes_root_parent h.wf.enc
      simpa [Ctx.plug] using this
  | frame o A z K =>
    have hat : At m none false w o A z K ob l r := h
    unfold Walk.once
    have hnn : getCtreeNN drawPrng (w.withPrng (n, u)).o.ctree (w.withPrng (n, u)).o.disableShared
      (w.withPrng (n, u)).o.prng (w.withPrng (n, u)).posB = _ := hat.spot.nn n u
    rw [hnn]
    generalize staysD _ _ _ _ n = b
    cases b
    · simp only [Bool.false_eq_true, if_false]
      have h2 : WInv m none false (w.withPrng (n, u)) (.frame o A z K) (fork (!ob) w.posB r l) := (WInv.withPrng hat.flip _)
      obtain ⟨s', hw, ⟨o2, l2, r2, hs2⟩, -⟩ := body_inv drawPrng m prob h2 (by simp)
      have hr := hw.root
      rw [hs2, root_fork] at hr
      exact ⟨K, s', hw, o2, l2, r2, by rw [hs2]; congr 1⟩
    · simp only [if_true]
      have h2 : WInv m none false (w.withPrng (n, u)) (.frame o A z K) (fork ob w.posB l r) := (WInv.withPrng hat _)
      obtain ⟨s', hw, ⟨o2, l2, r2, hs2⟩, -⟩ := body_inv drawPrng m prob h2 (by simp)
      have hr := hw.root
      rw [hs2, root_fork] at hr
      exact ⟨K, s', hw, o2, l2, r2, by rw [hs2]; congr 1⟩

/-- The walk goes to the parent. -/
theorem Spot.once_pos {w : Walk σ ℝ} {o o' : Bool} {A C D E : ℕ} {pa : Option ℕ} (h : Spot m w o A C pa o' D E)
    (prob : ℝ → ℝ → ℝ) (n : ℕ) (u : ℝ) : (Walk.once drawPrng m prob (w.withPrng (n, u))).posB = A := by
  unfold Walk.once
  have hnn : getCtreeNN drawPrng (w.withPrng (n, u)).o.ctree (w.withPrng (n, u)).o.disableShared
      (w.withPrng (n, u)).o.prng (w.withPrng (n, u)).posB = _ := h.nn n u
  rw [hnn]
  generalize staysD _ _ _ _ n = b
  cases b
  · simp only [Bool.false_eq_true, if_false]
    unfold Walk.body
    simp only
    split <;> rfl
  · simp only [if_true]
    unfold Walk.body
    simp only
    split <;> rfl

theorem Walk.once_disable {w : Walk σ ℝ} (prob : ℝ → ℝ → ℝ) (n : ℕ) (u : ℝ) :
    (Walk.once drawPrng m prob (w.withPrng (n, u))).o.disableShared = w.o.disableShared := by
  unfold Walk.once
  split
  · rfl
  · unfold Walk.body
    simp only
    split <;> rfl

/-! ### Four tensors on one index -/

/-- Four tensors on one common index of dimension 2, which is also the output index. -/
def fourT (l : List Node) : CTree := ⟨Tree.ofList l, 1, fun _ => {0}, .int 2⟩

/-- The simple cost over the reals. -/
def realModel (dims : Dims) : CostModel ℝ := ⟨fun s => (simpleGet dims s : ℝ)⟩

/-- The nodes after the child `E` of `B` and the sibling `C` of `B` have changed places. -/
def exchanged (l : List Node) (o : Bool) (A B C : ℕ) (pa : Option ℕ) (o' : Bool) (D E : ℕ) : List Node :=
  (((l.set A (mkNode o B E pa)).set B (mkNode o' D C (some A))).set C { l.getD C default with parent := some B }).set E
    { l.getD E default with parent := some A }

theorem update_getD (l : List Node) {i : ℕ} (hi : i < l.length) (x : Node) :
    Function.update (fun j => l.getD j default) i x = fun j => (l.set i x).getD j default := by
  funext j
  by_cases h : j = i
  · subst h; rw [Function.update_self]; simp [List.getD, hi]
  · rw [Function.update_of_ne h]; simp [List.getD, List.getElem?_set, Ne.symm h]

theorem fourT_step {w : Walk σ ℝ} {l : List Node} (h : AtInner (realModel (.int 2)) w) (hT : w.o.ctree = fourT l)
    (hdis : w.o.disableShared = false) {o o' : Bool}
    {A C D E : ℕ} {pa : Option ℕ} (hlen : A < l.length ∧ w.posB < l.length ∧ C < l.length ∧ E < l.length)
    (nB : l.getD w.posB default = mkNode o' D E (some A)) (nA : l.getD A default = mkNode o w.posB C pa) (beta : ℝ) {u : ℝ}
    (hu : u ∈ Set.Ico (0 : ℝ) 1) :
    (Walk.once drawPrng (realModel (.int 2)) (probMH beta) (w.withPrng (o'.toNat, u))).o.ctree =
      fourT (exchanged l o A w.posB C pa o' D E) ∧
    (Walk.once drawPrng (realModel (.int 2)) (probMH beta) (w.withPrng (o'.toNat, u))).posB = A := by
  obtain ⟨K', s', h, ob, x, y, hs⟩ := h
  obtain ⟨c, d, e, K, hat, rfl, rfl, rfl⟩ := h.at_of hs (A := A) (D := D) (E := E) (C := C) (o := o) (o' := o') (pa := pa)
    (by rw [hT]; exact nB) (by rw [hT]; exact nA)
  have sp := hat.spot
  have sp' := hat.flip.spot
  have hpa : K.par = pa := by
    have := sp.nA
    rw [hT] at this
    have := nA.symm.trans this
    cases o <;> simp [mkNode] at this <;> exact this.symm
  refine ⟨?_, sp.once_pos _ _ _⟩
  have hinds : ∀ q, w.o.ctree.inds q = {0} := by intro q; rw [hT]; rfl
  have hnew : newB w.o.ctree.inds A w.posB c.root d.root e.root = {0} := by
    unfold newB; simp only [hinds]; decide
  have hstep := sp.stepTree sp' (probMH beta) o'.toNat u
  change w.stepTree _ _ _ _ = _
  rw [hstep]
  have hst : staysD w.o.disableShared o' ((w.o.ctree.inds d.root).intersects (w.o.ctree.inds c.root))
        ((w.o.ctree.inds e.root).intersects (w.o.ctree.inds c.root)) o'.toNat = true := by
    simp only [hinds, hdis]
    cases o' <;> decide
  rw [if_pos hst]
  have hdelta : candDelta (realModel (.int 2)) w A w.posB c.root d.root e.root = 0 := by
    unfold candDelta
    rw [hnew, sp.iA.2.2, sp.iB.2.2]
    simp only [hinds, CostModel.contractionCost]
    ring
  rw [hdelta, if_pos (by unfold probMH; rw [if_pos le_rfl]; exact hu.2.le)]
  have hc := sp.cand_nodes
  have hN : w.o.ctree.tree.nodes = fun j => l.getD j default := by rw [hT]; rfl
  have hsz : w.o.ctree.tree.size = l.length := by rw [hT]; rfl
  have hin : (cand w.o.ctree A w.posB c.root d.root e.root).inds = fun _ => {0} := by
    funext q
    change Function.update _ _ _ q = _
    rw [hnew]
    by_cases hq : q = w.posB
    · subst hq; rw [Function.update_self]
    · rw [Function.update_of_ne hq, hinds]
  have htree : (cand w.o.ctree A w.posB c.root d.root e.root).tree =
      Tree.ofList (exchanged l o A w.posB c.root pa o' d.root e.root) := by
    rw [hc, hN, hsz, hpa]
    unfold exchanged Tree.ofList
    rw [update_getD l hlen.1, update_getD _ (by simp [hlen.2.1]), update_getD _ (by simp [hlen.2.2.1]),
      update_getD _ (by simp [hlen.2.2.2])]
    simp
  calc cand w.o.ctree A w.posB c.root d.root e.root
      = ⟨(cand w.o.ctree A w.posB c.root d.root e.root).tree, w.o.ctree.nInds,
          (cand w.o.ctree A w.posB c.root d.root e.root).inds, w.o.ctree.dims⟩ := rfl
    _ = _ := by rw [htree, hin, hT]; rfl

end TNCO
