import Verif.Lemmas.BalanceWalk

/-! Helper lemmas: the twelve trees of four tensors from which an update leads to a given balanced tree. -/

namespace TNCO
open PTree MeasureTheory

variable {σ τ : Type} {m : CostModel ℝ}

/-- The state at the start of the loop. -/
theorem OInv.inner {o : InfOpt σ ℝ} {t : PTree} (h : OInv m none false o t) {q B : ℕ} (hq : q < o.ctree.tree.size)
    (hp : (o.ctree.tree.nodes q).parent = some B) : AtInner m ⟨o, B, o.totalCost⟩ := by
  have hwf : WellFormed o.ctree.tree t := h.wf
  obtain ⟨K, s, rfl, hsr⟩ := exists_plug ((hwf.mem q).2 hq)
  have henc := hwf.enc
  rw [Ctx.encodes_plug] at henc
  have hpar := encodes_root_parent henc.2
  rw [hsr, hp] at hpar
  cases K with
  | top => simp [Ctx.par] at hpar
  | frame ob p c K =>
    simp only [Ctx.par, Option.some.injEq] at hpar
    subst hpar
    have hpart := h.part
    simp only [Ctx.plug] at hpart
    rw [Ctx.all_plug] at hpart
    exact ⟨K, fork ob B s c, ⟨h.wf, by simp, h.nodes, h.leaf, hpart.2,
      Ctx.tail_of_all (fun _ _ _ _ _ _ hh => hh) hpart.1, h.total, by simp, by simp, by simp⟩, ob, s, c, rfl⟩

/-- The parent of `B`. -/
def parL (l : List Node) (B : ℕ) : ℕ := (l.getD B default).parent.getD 0

/-- `B` is the first child. -/
def firstL (l : List Node) (B : ℕ) : Bool := (l.getD (parL l B) default).c0 == some B

/-- The sibling of `B`. -/
def sibL (l : List Node) (B : ℕ) : ℕ :=
  (if firstL l B then (l.getD (parL l B) default).c1 else (l.getD (parL l B) default).c0).getD 0

/-- The child of `B` that stays, and the one that moves. -/
def stayL (l : List Node) (B : ℕ) (b : Bool) : ℕ := (if b then (l.getD B default).c0 else (l.getD B default).c1).getD 0
def goL (l : List Node) (B : ℕ) (b : Bool) : ℕ := stayL l B (!b)

/-- The exchange at `B`. -/
def moveL (l : List Node) (B : ℕ) (b : Bool) : List Node :=
  exchanged l (firstL l B) (parL l B) B (sibL l B) (l.getD (parL l B) default).parent b (stayL l B b) (goL l B b)

/-- The exchange at `B` is one of a node with two children, a parent and a sibling. -/
def moveOk (l : List Node) (B : ℕ) (b : Bool) : Bool :=
  decide (parL l B < l.length) && decide (B < l.length) && decide (sibL l B < l.length) && decide (goL l B b < l.length) &&
  (l.getD B default == mkNode b (stayL l B b) (goL l B b) (some (parL l B))) &&
  (l.getD (parL l B) default == mkNode (firstL l B) B (sibL l B) (l.getD (parL l B) default).parent) &&
  decide ([parL l B, B, sibL l B, stayL l B b, goL l B b].Nodup) && ((l.getD (goL l B b) default).parent == some B)

theorem isTree_move {l : List Node} {B : ℕ} {b : Bool} (h : IsTree (Tree.ofList l)) (hok : moveOk l B b = true) :
    IsTree (Tree.ofList (moveL l B b)) := by
  simp only [moveOk, Bool.and_eq_true, decide_eq_true_eq, beq_iff_eq] at hok
  obtain ⟨⟨⟨⟨⟨⟨⟨h1, h2⟩, h3⟩, h4⟩, h5⟩, h6⟩, h7⟩, h8⟩ := hok
  have key := swapWithNN_local (T := Tree.ofList l) (A := parL l B) (B := B) (C := sibL l B) (D := stayL l B b) (E := goL l B b)
    (o := firstL l B) (o' := b) (pa := (l.getD (parL l B) default).parent) h4 h8 h5 h6 h7
  have e : Tree.ofList (moveL l B b) = (Tree.ofList l).swapWithNN (goL l B b) := by
    rw [key]
    unfold moveL exchanged Tree.ofList
    simp only
    rw [update_getD l h1, update_getD _ (by simp [h2]), update_getD _ (by simp [h3]),
      update_getD _ (by simp [h4])]
    simp
  rw [e]
  exact (C06_swap_keeps_tree _ h _).1

/-- One exchange is made with the chance of one half, and the walk goes on at the parent. -/
theorem fourT_ge {w : Walk (ℕ × ℝ) ℝ} {l : List Node} (h : AtInner (realModel (.int 2)) w) (hT : w.o.ctree = fourT l)
    (hdis : w.o.disableShared = false) {b : Bool} (hok : moveOk l w.posB b = true) (beta : ℝ) (k : ℕ) (T : CTree)
    {x : ENNReal} (hx : ∀ w' : Walk (ℕ × ℝ) ℝ, AtInner (realModel (.int 2)) w' → w'.o.ctree = fourT (moveL l w.posB b) →
      w'.posB = parL l w.posB → w'.o.disableShared = false → x ≤ Walk.endHalf (realModel (.int 2)) (probMH beta) k w' T) :
    2⁻¹ * x ≤ Walk.endHalf (realModel (.int 2)) (probMH beta) (k + 1) w T := by
  simp only [moveOk, Bool.and_eq_true, decide_eq_true_eq, beq_iff_eq] at hok
  obtain ⟨⟨⟨⟨⟨⟨⟨h1, h2⟩, h3⟩, h4⟩, h5⟩, h6⟩, h7⟩, h8⟩ := hok
  refine endHalf_ge _ k T b fun u hu => ?_
  obtain ⟨e1, e2⟩ := fourT_step h hT hdis ⟨h1, h2, h3, h4⟩ h5 h6 beta hu
  exact hx _ (h.once _ _ _) e1 e2 ((Walk.once_disable _ _ _).trans hdis)

/-- From the leaf `q`: one exchange below the root, or two. -/
def oneMove (l l' : List Node) (q B : ℕ) (b : Bool) : Bool :=
  ((l.getD q default).parent == some B) && moveOk l B b && (((moveL l B b).getD (parL l B) default).parent == none) &&
  (moveL l B b == l')

def twoMoves (l l' : List Node) (q B : ℕ) (b b' : Bool) : Bool :=
  ((l.getD q default).parent == some B) && moveOk l B b && moveOk (moveL l B b) (parL l B) b' &&
  (((moveL (moveL l B b) (parL l B) b').getD (parL (moveL l B b) (parL l B)) default).parent == none) &&
  (moveL (moveL l B b) (parL l B) b' == l')

section
variable {o : InfOpt σ ℝ} {t : PTree} {l l' : List Node} {q B : ℕ} {b b' : Bool}

theorem leaf_one (h : OInv (realModel (.int 2)) none false o t) (hT : o.ctree = fourT l) (hdis : o.disableShared = false)
    (hq : q < l.length) (hm : oneMove l l' q B b = true) (beta : ℝ) :
    2⁻¹ ≤ o.leafHalf (realModel (.int 2)) (probMH beta) (fourT l') q := by
  simp only [oneMove, Bool.and_eq_true, beq_iff_eq] at hm
  obtain ⟨⟨⟨h1, h2⟩, h3⟩, h4⟩ := hm
  have hsz : o.ctree.tree.size = l.length := by rw [hT]; rfl
  have hpar : (o.ctree.tree.nodes q).parent = some B := by rw [hT]; exact h1
  obtain ⟨k, hk⟩ : ∃ k, o.ctree.tree.size = k + 1 := ⟨l.length - 1, by omega⟩
  unfold InfOpt.leafHalf
  rw [hpar]
  simp only
  rw [hk]
  have := fourT_ge (w := (⟨o, B, o.totalCost⟩ : Walk σ ℝ).withPrng (0, 0)) ((OInv.inner h (by omega) hpar).withPrng _) hT hdis h2
    beta k (fourT l') (x := 1) ?_
  · rwa [mul_one] at this
  · intro w' hin hw hB hd
    classical
    rw [endHalf_root hin, if_pos]
    · rw [hw]; exact congrArg fourT h4
    · rw [hw, hB]; exact h3

theorem leaf_two (h : OInv (realModel (.int 2)) none false o t) (hT : o.ctree = fourT l) (hdis : o.disableShared = false)
    (hq : q < l.length) (h2l : 2 ≤ l.length) (hm : twoMoves l l' q B b b' = true) (beta : ℝ) :
    2⁻¹ * 2⁻¹ ≤ o.leafHalf (realModel (.int 2)) (probMH beta) (fourT l') q := by
  simp only [twoMoves, Bool.and_eq_true, beq_iff_eq] at hm
  obtain ⟨⟨⟨⟨h1, h2⟩, h3⟩, h4⟩, h5⟩ := hm
  have hsz : o.ctree.tree.size = l.length := by rw [hT]; rfl
  have hpar : (o.ctree.tree.nodes q).parent = some B := by rw [hT]; exact h1
  obtain ⟨k, hk⟩ : ∃ k, o.ctree.tree.size = k + 1 + 1 := ⟨l.length - 2, by omega⟩
  unfold InfOpt.leafHalf
  rw [hpar]
  simp only
  rw [hk]
  refine fourT_ge (w := (⟨o, B, o.totalCost⟩ : Walk σ ℝ).withPrng (0, 0)) ((OInv.inner h (by omega) hpar).withPrng _) hT hdis h2
    beta (k + 1) (fourT l') ?_
  intro w' hin hw hB hd
  have hB' : w'.posB = parL l B := hB
  have := fourT_ge hin hw hd (b := b') (by rw [hB']; exact h3) beta k (fourT l') (x := 1) ?_
  · rwa [mul_one] at this
  · intro w2 hin2 hw2 hB2 hd2
    rw [hB'] at hw2 hB2
    classical
    rw [endHalf_root hin2, if_pos]
    · rw [hw2]; exact congrArg fourT h5
    · rw [hw2, hB2]; exact h4

end

/-- `4 = (0, 1)`, `5 = (2, 3)`, `6 = (4, 5)`. -/
def fourBal : List Node := [⟨none, none, some 4⟩, ⟨none, none, some 4⟩, ⟨none, none, some 5⟩, ⟨none, none, some 5⟩,
  ⟨some 0, some 1, some 6⟩, ⟨some 2, some 3, some 6⟩, ⟨some 4, some 5, none⟩]

/-- The trees one exchange away, at 4 or at 5. -/
def fourOne : List (List Node) := [moveL fourBal 4 false, moveL fourBal 4 true, moveL fourBal 5 false, moveL fourBal 5 true]

/-- The trees two exchanges away: the second one at the node that has come to lie below. -/
def fourTwo : List (List Node) :=
  [moveL (moveL fourBal 4 false) 5 false, moveL (moveL fourBal 4 false) 5 true,
   moveL (moveL fourBal 4 true) 5 false, moveL (moveL fourBal 4 true) 5 true,
   moveL (moveL fourBal 5 false) 4 false, moveL (moveL fourBal 5 false) 4 true,
   moveL (moveL fourBal 5 true) 4 false, moveL (moveL fourBal 5 true) 4 true]

theorem fourBal_isTree : IsTree (Tree.ofList fourBal) := by
  refine ⟨.node 6 (.node 4 (.leaf 0) (.leaf 1)) (.node 5 (.leaf 2) (.leaf 3)), ?_, by decide, ?_, by decide, ?_⟩
  · simp [fourBal, Encodes, Tree.ofList, PTree.root]
  · intro p
    have : (Tree.ofList fourBal).size = 7 := rfl
    rw [this]; simp [postorder]; omega
  · intro p
    have : ((Tree.ofList fourBal).size + 1) / 2 = 4 := rfl
    rw [this]; simp [leaves]; omega

theorem fourOne_isTree : ∀ l ∈ fourOne, IsTree (Tree.ofList l) := by
  have h : ∀ B ∈ [4, 5], ∀ b, moveOk fourBal B b = true := by decide +kernel
  intro l hl
  simp only [fourOne, List.mem_cons, List.not_mem_nil, or_false] at hl
  rcases hl with rfl | rfl | rfl | rfl <;> exact isTree_move fourBal_isTree (h _ (by simp) _)

theorem fourTwo_isTree : ∀ l ∈ fourTwo, IsTree (Tree.ofList l) := by
  have h : ∀ b b', moveOk (moveL fourBal 4 b) 5 b' = true ∧ moveOk (moveL fourBal 5 b) 4 b' = true := by decide +kernel
  intro l hl
  simp only [fourTwo, List.mem_cons, List.not_mem_nil, or_false] at hl
  rcases hl with rfl | rfl | rfl | rfl | rfl | rfl | rfl | rfl
  all_goals first
    | exact isTree_move (fourOne_isTree _ (by simp [fourOne])) (h _ _).1
    | exact isTree_move (fourOne_isTree _ (by simp [fourOne])) (h _ _).2

theorem fourOne_moves : ∀ l ∈ fourOne, ∃ q < 4, ∃ B < 7, ∃ b, oneMove l fourBal q B b = true := by decide +kernel

theorem fourTwo_moves : ∀ l ∈ fourTwo, ∃ q < 4, ∃ q' < 4, q ≠ q' ∧ ∃ B < 7, ∃ b b', twoMoves l fourBal q B b b' = true ∧
    twoMoves l fourBal q' B b b' = true := by decide +kernel

theorem four_len : ∀ l ∈ fourBal :: (fourOne ++ fourTwo), l.length = 7 := by decide +kernel
theorem four_nodup : (fourOne ++ fourTwo).Nodup := by decide +kernel

end TNCO
