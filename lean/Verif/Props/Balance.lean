import Verif.Lemmas.BalanceThree
import Verif.Lemmas.BalanceCoin
import Verif.Props.InfMem

/-!
# Property C76: what the search samples at a fixed temperature

The acceptance rule is the one of Metropolis and Hastings, which is there to make a random walk on trees visit each tree as
often as its weight `cost ^ (-beta)` says. `Walk.stepChance` is the chance that one iteration of the loop of `update` leads to a
given tree, `InfOpt.updateChance` the chance that a whole update does (Spec/Balance.lean).
-/

namespace TNCO
open PTree MeasureTheory

variable {σ τ : Type}

/-- An optimizer made by the constructor from a tree (with exact index sets unless the check of shared indices is disabled) and
updated any number of times, with any acceptance functions and any generator. -/
def ReachedOpt (m : CostModel ℝ) (dis : Bool) (g : Prng σ ℝ) (o : InfOpt σ ℝ) : Prop :=
  ∃ c seed minC t0 out o0 probs, WellFormed c.tree t0 ∧ (dis = false → IndsExact c.inds out t0) ∧
    InfOpt.make m c seed dis minC = some (.ok o0) ∧ o0.run g m probs = some o

section
variable {m : CostModel ℝ} {dis : Bool} {g : Prng σ ℝ} {o : InfOpt σ ℝ}

theorem ReachedOpt.inv (h : ReachedOpt m dis g o) :
    ∃ out? t, (dis = false → out?.isSome = true) ∧ OInv m out? (!dis) o t ∧ o.disableShared = dis := by
  obtain ⟨c, seed, minC, t0, out, o0, probs, hwf, hex, hmk, hrun⟩ := h
  cases dis
  · obtain ⟨hO, -, hdis, -⟩ := make_inv hwf hmk (out? := some out) (by rintro _ ⟨⟩; exact indsExact_iff.1 (hex rfl))
    obtain ⟨o', t, hrun', hI, hS⟩ := run_history g m (by simp) probs hO
    rw [hrun] at hrun'; cases hrun'
    exact ⟨some out, t, by simp, hI, hS.disable.trans hdis⟩
  · obtain ⟨hO, -, hdis, -⟩ := make_inv hwf hmk (out? := none) (by simp)
    obtain ⟨o', t, hrun', hI, hS⟩ := run_history g m (by simp) probs hO
    rw [hrun] at hrun'; cases hrun'
    exact ⟨none, t, by simp, hI, hS.disable.trans hdis⟩

theorem ReachedOpt.loop (h : ReachedOpt m dis g o) {prob : ℝ → ℝ → ℝ} {w : Walk σ ℝ} (hw : LoopState g m prob o w) :
    ∃ out? K s, (dis = false → out?.isSome = true) ∧ WInv m out? (!dis) w K s ∧ (∃ ob l r, s = fork ob w.posB l r) ∧
      w.o.disableShared = dis := by
  obtain ⟨out?, t, hout, hI, hdis⟩ := h.inv
  refine ⟨out?, ?_⟩
  suffices hh : ∃ K s, WInv m out? (!dis) w K s ∧ (∃ ob l r, s = fork ob w.posB l r) ∧ w.o.disableShared = dis by
    obtain ⟨K, s, hh⟩ := hh; exact ⟨K, s, hout, hh⟩
  induction hw with
  | start hpar =>
    next posB =>
    have hl := hI.wf.linked
    simp only at hl
    have hq : (g.next o.prng).1 % o.ctree.tree.nLeaves < o.ctree.tree.size := by
      have := hI.wf.size_eq
      simp only at this
      have h2 : 0 < o.ctree.tree.nLeaves := by unfold Tree.nLeaves; omega
      have := Nat.mod_lt (g.next o.prng).1 h2
      omega
    obtain ⟨K, s, hKs, hsr⟩ := exists_plug ((hI.wf.mem _).2 hq)
    simp only [Ctx.plug] at hKs
    subst hKs
    have henc := hI.wf.enc
    simp only [Ctx.plug] at henc
    rw [Ctx.encodes_plug] at henc
    have hp := encodes_root_parent henc.2
    rw [hsr, hpar] at hp
    cases K with
    | top => simp [Ctx.par] at hp
    | frame ob p c K =>
      simp only [Ctx.par, Option.some.injEq] at hp
      subst hp
      have hpart := hI.part
      simp only [Ctx.plug] at hpart
      rw [Ctx.all_plug] at hpart
      refine ⟨K, fork ob posB s c, ⟨hI.wf, by simp, hI.nodes, hI.leaf, hpart.2, ?_, hI.total, hI.sem, hI.shr, hI.dis⟩,
        ⟨ob, s, c, rfl⟩, hdis⟩
      exact Ctx.tail_of_all (fun _ _ _ _ _ _ hh => hh) hpart.1
  | step hw hnn ih =>
    next w a c' d e s' =>
    obtain ⟨K, s, hW, ⟨ob, l, r, rfl⟩, hd⟩ := ih
    cases K with
    | top =>
      have := getCtreeNN_top g w.o.disableShared w.o.prng hW.wf
      rw [show (Ctx.top.plug (fork ob w.posB l r)).root = w.posB by simp [Ctx.plug]] at this
      rw [this] at hnn; simp at hnn
    | frame o1 A z K =>
      obtain ⟨o', d', e', s2, hnn', hfork, hint⟩ := getCtreeNN_frame g w.o.disableShared w.o.prng hW.wf
      rw [hnn'] at hnn
      simp only [Prod.mk.injEq, Option.some.injEq] at hnn
      obtain ⟨⟨rfl, rfl, rfl, rfl⟩, rfl⟩ := hnn
      have h1 : WInv m out? (!dis) { w with o := { w.o with prng := s2 } } (.frame o1 A z K)
          (fork o' w.posB d' e') := by
        rw [← hfork]
        exact ⟨hW.wf, hW.root, hW.nodes, hW.leaf, hW.part, hW.tail, hW.total, hW.sem, hW.shr, hW.dis⟩
      have hsh : (!dis) = true → out?.isSome = true ∧
          (w.o.ctree.inds d'.root ∩ w.o.ctree.inds z.root).Nonempty := by
        intro hs
        have hdf : dis = false := by simpa using hs
        subst hdf
        refine ⟨hout rfl, hint hd ?_⟩
        have hat : At m out? true w o1 A z K ob l r := hW
        obtain ⟨x, hx⟩ := hat.shr.2
        have hx' := Finset.mem_inter.1 hx
        rcases Finset.mem_union.1 (hat.spot.iB.1.2 hx'.1) with h | h
        · exact Or.inl ⟨x, Finset.mem_inter.2 ⟨h, hx'.2⟩⟩
        · exact Or.inr ⟨x, Finset.mem_inter.2 ⟨h, hx'.2⟩⟩
      obtain ⟨s3, hw3, ⟨o3, l3, r3, rfl⟩, hS, -⟩ := body_inv g m prob h1 hsh
      have := hw3.root
      rw [root_fork] at this
      exact ⟨K, _, hw3, ⟨o3, l3, r3, by rw [← this]⟩, hS.disable.trans hd⟩

end

/-- C76: the draws. Whatever the generator, the update leads to the tree that one finds by starting at a leaf and iterating with
some coins and numbers, one pair per iteration: these are the draws that the chances below are about. -/
theorem C76_draws {P R : Type} [Zero R] [Add R] [Sub R] [LT R] [DecidableLT R] [LE P] [DecidableLE P] (g : Prng σ P)
    (m : CostModel R) (prob : R → R → P) (o o' : InfOpt σ R) (h : o.update g m prob = some o') (x : ℕ × P) :
    ∃ q, q = (g.next o.prng).1 % o.ctree.tree.nLeaves ∧
      (((o.ctree.tree.nodes q).parent = none ∧ o'.ctree = o.ctree) ∨
       ∃ B, (o.ctree.tree.nodes q).parent = some B ∧ ∃ draws : List (ℕ × P), draws.length ≤ o.ctree.tree.size ∧
        o'.ctree = (Walk.after m prob draws ((⟨o, B, o.totalCost⟩ : Walk σ R).withPrng x)).o.ctree) := by
  refine ⟨_, rfl, ?_⟩
  unfold InfOpt.update at h
  simp only at h
  split at h
  · next hp =>
    left
    simp only [Option.some.injEq] at h
    subst h
    exact ⟨hp, rfl⟩
  · next B hp =>
    right
    refine ⟨B, hp, ?_⟩
    obtain ⟨w', hw', rfl⟩ := Option.map_eq_some_iff.1 h
    obtain ⟨ds, hl, hd⟩ := run_draw g m prob _ _ _ ((⟨o, B, o.totalCost⟩ : Walk σ R).withPrng x) hw' rfl
    refine ⟨ds, hl, ?_⟩
    have e : w'.o.updateMin.ctree = w'.o.ctree := by unfold InfOpt.updateMin; split <;> rfl
    rw [e]
    have := congrArg (fun v : Walk Unit R => v.o.ctree) hd
    exact this

/-- The hypotheses of `C76_draws` hold for the running example, and the tree changes. -/
example : ∃ o0 o, InfOpt.make exModel exCT true false none = some (.ok o0) ∧
    o0.run altPrng exModel [probBase] = some o ∧ o.ctree.tree.nodes 3 ≠ o0.ctree.tree.nodes 3 := by
  have := exists_of_eval (x := InfOpt.make exModel exCT true false none)
    (f := fun o => o.run altPrng exModel [probBase])
    (Q := fun a b => decide (b.ctree.tree.nodes 3 ≠ a.ctree.tree.nodes 3)) (by decide +kernel)
  simpa only [decide_eq_true_eq] using this

/-- C76: one iteration is balanced. Take any two states of the loop at the same position `B`, reached by any two histories of
updates and iterations. The weight `cost ^ (-beta)` of the first tree times the chance that the iteration leads from the first
to the second equals the weight of the second times the chance of the way back; with or without the check of shared indices.
`M` is the number of integers that the generator returns, each as likely (`2 ^ 32` in the code). -/
theorem C76_step (m : CostModel ℝ) (dis : Bool) (g : Prng σ ℝ) (g' : Prng τ ℝ) (o : InfOpt σ ℝ) (o' : InfOpt τ ℝ)
    (prob prob' : ℝ → ℝ → ℝ) (w : Walk σ ℝ) (w' : Walk τ ℝ) (t t' : PTree) (beta : ℝ)
    (ho : ReachedOpt m dis g o) (ho' : ReachedOpt m dis g' o') (hw : LoopState g m prob o w) (hw' : LoopState g' m prob' o' w')
    (hB : w'.posB = w.posB) (ht : WellFormed w.o.ctree.tree t) (ht' : WellFormed w'.o.ctree.tree t')
    (hpos : 0 < treeCost m.get w.o.ctree.inds t) (hpos' : 0 < treeCost m.get w'.o.ctree.inds t') (hb : 0 ≤ beta)
    (M : ℕ) (hM : 0 < M) (h2 : 2 ∣ M) :
    ENNReal.ofReal (treeCost m.get w.o.ctree.inds t ^ (-beta)) * w.stepChance M m (probMH beta) w'.o.ctree =
      ENNReal.ofReal (treeCost m.get w'.o.ctree.inds t' ^ (-beta)) * w'.stepChance M m (probMH beta) w.o.ctree := by
  rw [stepChance_half h2 hM, stepChance_half h2 hM]
  obtain ⟨out1, K1, s1, -, hW1, hs1, hd1⟩ := ho.loop hw
  obtain ⟨out2, K2, s2, -, hW2, hs2, hd2⟩ := ho'.loop hw'
  have e1 := hW1.cost ht
  have e2 := hW2.cost ht'
  rw [← e1, ← e2]
  by_cases hne : w'.o.ctree = w.o.ctree
  · have hin1 : AtInner m w := ⟨K1, s1, hW1.forget, hs1⟩
    have hin2 : AtInner m w' := ⟨K2, s2, hW2.forget, hs2⟩
    have htot : w'.total = w.total := by
      rw [e2, hW1.cost (t := t') (by rw [← hne]; exact ht'), hne]
    rw [htot, hne, hin1.stepHalf_congr hin2 hne hB (hd2.trans hd1.symm)]
  · exact hW1.balance hW2 hs1 hs2 hB hne hd1 hd2 (by rw [e1]; exact hpos) (by rw [e2]; exact hpos') hb

/-- C76, partial: whole updates of trees with three leaves are balanced. (For four leaves they are not: `C76_violated`.) The
leaf is taken to be uniform, `6 ∣ M`; with `2 ^ 32` integers the leaf 0 is likelier than the others by `2 ^ (-32)`. -/
theorem C76_three_partial (m : CostModel ℝ) (dis : Bool) (g : Prng σ ℝ) (g' : Prng τ ℝ) (o : InfOpt σ ℝ) (o' : InfOpt τ ℝ)
    (t t' : PTree) (beta : ℝ) (ho : ReachedOpt m dis g o) (ho' : ReachedOpt m dis g' o')
    (hsz : o.ctree.tree.size = 5) (hsz' : o'.ctree.tree.size = 5) (ht : WellFormed o.ctree.tree t)
    (ht' : WellFormed o'.ctree.tree t') (hne : o.ctree ≠ o'.ctree)
    (hpos : 0 < treeCost m.get o.ctree.inds t) (hpos' : 0 < treeCost m.get o'.ctree.inds t') (hb : 0 ≤ beta)
    (M : ℕ) (hM : 0 < M) (h6 : 6 ∣ M) :
    ENNReal.ofReal (treeCost m.get o.ctree.inds t ^ (-beta)) * o.updateChance M m (probMH beta) o'.ctree =
      ENNReal.ofReal (treeCost m.get o'.ctree.inds t' ^ (-beta)) * o'.updateChance M m (probMH beta) o.ctree := by
  have hl : ∀ {υ : Type} {v : InfOpt υ ℝ}, v.ctree.tree.size = 5 → v.ctree.tree.nLeaves ∣ M := by
    intro υ v hv
    have : v.ctree.tree.nLeaves = 3 := by unfold Tree.nLeaves; rw [hv]
    rw [this]; exact Nat.dvd_trans (by norm_num) h6
  rw [updateChance_half (Nat.dvd_trans (by norm_num) h6) hM o (hl hsz),
    updateChance_half (Nat.dvd_trans (by norm_num) h6) hM o' (hl hsz')]
  obtain ⟨out1, t1, -, hI1, hd1⟩ := ho.inv
  obtain ⟨out2, t2, -, hI2, hd2⟩ := ho'.inv
  have e1 : o.totalCost = treeCost m.get o.ctree.inds t := WInv.cost hI1 ht
  have e2 : o'.totalCost = treeCost m.get o'.ctree.inds t' := WInv.cost hI2 ht'
  obtain ⟨⟨Ka, sa, hWa, hsa⟩, u1⟩ := three_update (WInv.forget hI1) hsz (probMH beta) hne
  obtain ⟨⟨Kb, sb, hWb, hsb⟩, u2⟩ := three_update (WInv.forget hI2) hsz' (probMH beta) (Ne.symm hne)
  rw [u1, u2, ← e1, ← e2]
  have key : ENNReal.ofReal (o.totalCost ^ (-beta)) *
        (⟨o, 3, o.totalCost⟩ : Walk σ ℝ).stepHalf m (probMH beta) o'.ctree =
      ENNReal.ofReal (o'.totalCost ^ (-beta)) *
        (⟨o', 3, o'.totalCost⟩ : Walk τ ℝ).stepHalf m (probMH beta) o.ctree := by
    have upg : ∀ {υ : Type} {v : InfOpt υ ℝ} {out? : Option ISet} {s : PTree} {K : Ctx} {r : PTree},
        OInv m out? (!dis) v r → WInv m none false (⟨v, 3, v.totalCost⟩ : Walk υ ℝ) K s →
        WInv m none (!dis) (⟨v, 3, v.totalCost⟩ : Walk υ ℝ) K s := by
      intro υ v out? s K r hO hW
      refine ⟨hW.wf, hW.root, hW.nodes, hW.leaf, hW.part, hW.tail, hW.total, by simp, ?_, hO.dis⟩
      intro hs
      have hsh := hO.shr hs
      rw [all_iff hO.wf.enc] at hsh
      rw [all_iff hW.wf.enc]
      intro p hp a b h0 h1
      exact hsh p ((hO.wf.mem p).2 ((hW.wf.mem p).1 hp)) a b h0 h1
    exact (upg hI1 hWa).balance (upg hI2 hWb) hsa hsb rfl (Ne.symm hne) hd1 hd2
      (show 0 < o.totalCost by rw [e1]; exact hpos) (show 0 < o'.totalCost by rw [e2]; exact hpos') hb
  have s : ∀ a b : ENNReal, a * (3⁻¹ * (2 * b)) = 3⁻¹ * (2 * (a * b)) := by intro a b; ring
  rw [s, s, key]

/-! ### Two trees for three tensors -/

/-- Tensors on the indices 0; 0, 1; and 1, 2 of dimension 2, with output index 2: contracting the first two first. -/
def threeA : CTree :=
  ⟨.ofList [⟨none, none, some 3⟩, ⟨none, none, some 3⟩, ⟨none, none, some 4⟩, ⟨some 0, some 1, some 4⟩, ⟨some 3, some 2, none⟩],
    3, fun i => [{0}, {0, 1}, {1, 2}, {1}, {2}].getD i ∅, .int 2⟩

/-- The same tensors: contracting the last two first. -/
def threeB : CTree :=
  ⟨.ofList [⟨none, none, some 4⟩, ⟨none, none, some 3⟩, ⟨none, none, some 3⟩, ⟨some 2, some 1, some 4⟩, ⟨some 3, some 0, none⟩],
    3, fun i => [{0}, {0, 1}, {1, 2}, {0, 2}, {2}].getD i ∅, .int 2⟩

def threeTA : PTree := .node 4 (.node 3 (.leaf 0) (.leaf 1)) (.leaf 2)
def threeTB : PTree := .node 4 (.node 3 (.leaf 2) (.leaf 1)) (.leaf 0)

theorem threeA_wf : WellFormed threeA.tree threeTA := by
  refine ⟨by simp [threeA, threeTA, Encodes, Tree.ofList, PTree.root], by decide, ?_, by decide, ?_⟩
  · intro p
    have : threeA.tree.size = 5 := rfl
    rw [this]; simp [threeTA, postorder]; omega
  · intro p
    have : (threeA.tree.size + 1) / 2 = 3 := rfl
    rw [this]; simp [threeTA, leaves]; omega

theorem threeB_wf : WellFormed threeB.tree threeTB := by
  refine ⟨by simp [threeB, threeTB, Encodes, Tree.ofList, PTree.root], by decide, ?_, by decide, ?_⟩
  · intro p
    have : threeB.tree.size = 5 := rfl
    rw [this]; simp [threeTB, postorder]; omega
  · intro p
    have : (threeB.tree.size + 1) / 2 = 3 := rfl
    rw [this]; simp [threeTB, leaves]; omega

theorem threeA_exact : IndsExact threeA.inds {2} threeTA := by
  rw [indsExact_iff]
  simp only [threeTA, PTree.Sem, PTree.root, PTree.L, leaves, threeA, leafInds]
  decide

theorem threeB_exact : IndsExact threeB.inds {2} threeTB := by
  rw [indsExact_iff]
  simp only [threeTB, PTree.Sem, PTree.root, PTree.L, leaves, threeB, leafInds]
  decide

theorem threeA_cost : treeCost (realModel (.int 2)).get threeA.inds threeTA = 8 := by
  have : treeCost (fun s => simpleGet (.int 2) s) threeA.inds threeTA = 8 := by decide +kernel
  simp only [threeTA, treeCost, realModel] at this ⊢
  exact_mod_cast this

theorem threeB_cost : treeCost (realModel (.int 2)).get threeB.inds threeTB = 12 := by
  have : treeCost (fun s => simpleGet (.int 2) s) threeB.inds threeTB = 12 := by decide +kernel
  simp only [threeTB, treeCost, realModel] at this ⊢
  exact_mod_cast this

/-- The hypotheses of `C76_step` and `C76_three_partial` hold for these two trees, of costs 8 and 12, with any generators, and
the loop can be at the contraction 3 of both. -/
example (g : Prng σ ℝ) (g' : Prng τ ℝ) (seed : σ) (seed' : τ) (prob : ℝ → ℝ → ℝ) (h : (g.next seed).1 % 3 = 0)
    (h' : (g'.next seed').1 % 3 = 2) : ∃ o o' w w',
    ReachedOpt (realModel (.int 2)) false g o ∧ ReachedOpt (realModel (.int 2)) false g' o' ∧
    o.ctree = threeA ∧ o'.ctree = threeB ∧ threeA ≠ threeB ∧ o.ctree.tree.size = 5 ∧ o'.ctree.tree.size = 5 ∧
    LoopState g (realModel (.int 2)) prob o w ∧ LoopState g' (realModel (.int 2)) prob o' w' ∧ w'.posB = w.posB ∧
    w.o.ctree = threeA ∧ w'.o.ctree = threeB := by
  obtain ⟨o, ho, -, hs⟩ := make_ok (m := realModel (.int 2)) (dis := false) seed threeA_wf (by decide +kernel)
    (by rw [threeA_cost]; norm_num)
  obtain ⟨o', ho', -, hs'⟩ := make_ok (m := realModel (.int 2)) (dis := false) seed' threeB_wf (by decide +kernel)
    (by rw [threeB_cost]; norm_num)
  obtain ⟨-, hT, -⟩ := make_inv threeA_wf ho (out? := none) (by simp)
  obtain ⟨-, hT', -⟩ := make_inv threeB_wf ho' (out? := none) (by simp)
  refine ⟨o, o', _, _, ⟨threeA, seed, none, threeTA, {2}, o, [], threeA_wf, fun _ => threeA_exact, ho, rfl⟩,
    ⟨threeB, seed', none, threeTB, {2}, o', [], threeB_wf, fun _ => threeB_exact, ho', rfl⟩, hT, hT', ?_, by rw [hT]; rfl,
    by rw [hT']; rfl, .start (posB := 3) ?_, .start (posB := 3) ?_, rfl, hT, hT'⟩
  · intro e
    have := congrArg (fun c : CTree => (c.tree.nodes 0).parent) e
    revert this; decide
  · rw [hT, hs]
    have : threeA.tree.nLeaves = 3 := rfl
    rw [this, h]; rfl
  · rw [hT', hs']
    have : threeB.tree.nLeaves = 3 := rfl
    rw [this, h']; rfl

/-! ### Four tensors on one index -/

theorem fourT_exact {l : List Node} {t : PTree} : IndsExact (fourT l).inds {0} t := by
  intro K s _ x
  have hs : ∃ p, p ∈ s.leaves := List.exists_mem_of_length_pos s.length_leaves_pos
  obtain ⟨p, hp⟩ := hs
  simp only [fourT]
  exact ⟨fun h => ⟨⟨p, hp, h⟩, Or.inl h⟩, fun h => h.1.elim fun q hq => hq.2⟩

theorem fourT_cost {l : List Node} (hl : l.length = 7) {t : PTree} (h : WellFormed (fourT l).tree t) :
    treeCost (realModel (.int 2)).get (fourT l).inds t = 6 := by
  have h4 := four_leaves hl h
  have : treeCost (realModel (.int 2)).get (fun _ => ({0} : ISet)) t = 6 := by
    rw [treeCost_const, h4]; norm_num [realModel, simpleGet]
  exact this

theorem fourT_made {l : List Node} (hl : l.length = 7) {t : PTree} (h : WellFormed (fourT l).tree t) (seed : σ) :
    ∃ o, InfOpt.make (realModel (.int 2)) (fourT l) seed false none = some (.ok o) := by
  have hv : (fourT l).isValid (!false) = true := by
    rw [ctree_isValid_iff h]
    refine ⟨by rfl, ?_, fun _ => ?_⟩
    · exact (all_iff h.enc).2 fun p _ a b _ _ => by simp only [LocQ, fourT]; decide
    · exact (all_iff h.enc).2 fun p _ a b _ _ => by simp [ShQ, fourT]
  obtain ⟨o, ho, -⟩ := make_ok (m := realModel (.int 2)) seed h hv (by rw [fourT_cost hl h]; norm_num)
  exact ⟨o, ho⟩

theorem fourT_oinv {l : List Node} {t : PTree} (h : WellFormed (fourT l).tree t) {seed : σ} {o : InfOpt σ ℝ}
    (ho : InfOpt.make (realModel (.int 2)) (fourT l) seed false none = some (.ok o)) :
    OInv (realModel (.int 2)) none false o t ∧ o.ctree = fourT l ∧ o.disableShared = false := by
  obtain ⟨h1, h2, h3, -⟩ := make_inv h ho (out? := none) (by simp)
  exact ⟨WInv.forget h1, h2, h3⟩

theorem update_ge {o : InfOpt σ ℝ} {m : CostModel ℝ} {prob : ℝ → ℝ → ℝ} {T : CTree} (hn : o.ctree.tree.nLeaves = 4)
    {x : ENNReal} (s : Finset ℕ) (hs : s ⊆ Finset.range 4) (hx : x ≤ ∑ q ∈ s, o.leafHalf m prob T q) :
    4⁻¹ * x ≤ o.updateHalf m prob T := by
  unfold InfOpt.updateHalf
  rw [hn]
  have : (∑ q ∈ s, o.leafHalf m prob T q) ≤ ∑ q ∈ Finset.range 4, o.leafHalf m prob T q :=
    Finset.sum_le_sum_of_subset hs
  push_cast
  gcongr
  exact hx.trans this

theorem four_chance {l : List Node} (hl : l ∈ fourOne ++ fourTwo) {t : PTree} (h : WellFormed (fourT l).tree t) {seed : σ}
    {o : InfOpt σ ℝ} (ho : InfOpt.make (realModel (.int 2)) (fourT l) seed false none = some (.ok o)) (beta : ℝ) :
    4⁻¹ * 2⁻¹ ≤ o.updateHalf (realModel (.int 2)) (probMH beta) (fourT fourBal) := by
  obtain ⟨hO, hT, hd⟩ := fourT_oinv h ho
  have hlen := four_len l (List.mem_cons_of_mem _ hl)
  have hn : o.ctree.tree.nLeaves = 4 := by
    rw [hT]; unfold Tree.nLeaves; simp [fourT, Tree.ofList, hlen]
  rcases List.mem_append.1 hl with h1 | h1
  · obtain ⟨q, hq, B, -, b, hm⟩ := fourOne_moves l h1
    refine update_ge hn {q} (by simpa using hq) ?_
    simpa using leaf_one hO hT hd (by omega) hm beta
  · obtain ⟨q, hq, q', hq', hne, B, -, b, b', hm, hm'⟩ := fourTwo_moves l h1
    refine update_ge hn {q, q'} (by intro x; simp; rintro (rfl | rfl) <;> omega) ?_
    rw [Finset.sum_pair hne]
    have e : (2⁻¹ : ENNReal) = 2⁻¹ * 2⁻¹ + 2⁻¹ * 2⁻¹ := by
      rw [← mul_add, ENNReal.inv_two_add_inv_two, mul_one]
    calc (2⁻¹ : ENNReal) = 2⁻¹ * 2⁻¹ + 2⁻¹ * 2⁻¹ := e
      _ ≤ _ := add_le_add (leaf_two hO hT hd (by omega) (by omega) hm beta) (leaf_two hO hT hd (by omega) (by omega) hm' beta)

theorem sum_const_le {α : Type} (f : α → ENNReal) (c : ENNReal) : ∀ (l : List α), (∀ a ∈ l, c ≤ f a) →
    (l.length : ENNReal) * c ≤ (l.map f).sum
  | [], _ => by simp
  | a :: l, h => by
    have h1 := sum_const_le f c l fun b hb => h b (List.mem_cons_of_mem _ hb)
    have h2 := h a List.mem_cons_self
    simp only [List.length_cons, List.map_cons, List.sum_cons, Nat.cast_add, Nat.cast_one]
    rw [add_mul, one_mul, add_comm]
    exact add_le_add h2 h1

theorem fourT_inj {l l' : List Node} (h : fourT l = fourT l') (hl : l.length = l'.length) : l = l' := by
  have h2 : ∀ i, l.getD i default = l'.getD i default := fun i => congrArg (fun c : CTree => c.tree.nodes i) h
  refine List.ext_getElem hl fun i h3 h4 => ?_
  have := h2 i
  simpa [List.getD, h3, h4] using this

/-- C76, violated for whole updates: at no temperature do updates leave the weights alone. There are twelve trees for four
tensors on one common index, all of the same cost 6 as a thirteenth, such that the chances to be led to the thirteenth add up to
more than one. So for every weight that depends on the cost only, be it `cost ^ (-beta)` or another, and for every `beta`, an
update carries more weight into the thirteenth tree than it has: the search prefers it to trees of the same cost. -/
theorem C76_violated (seed : σ) : ∃ (trees : List CTree) (T : CTree), trees.length = 12 ∧ trees.Nodup ∧
    (∀ c ∈ T :: trees, ∃ t, WellFormed c.tree t ∧ IndsExact c.inds {0} t ∧
      treeCost (realModel (.int 2)).get c.inds t = 6) ∧
    ∃ os : CTree → InfOpt σ ℝ, (∀ c ∈ T :: trees, InfOpt.make (realModel (.int 2)) c seed false none = some (.ok (os c))) ∧
      ∀ (beta : ℝ) (W : ℝ → ENNReal) (M : ℕ), 0 < W 6 → W 6 < ⊤ → 0 < M → 4 ∣ M →
        W 6 < (trees.map fun c => W 6 * (os c).updateChance M (realModel (.int 2)) (probMH beta) T).sum := by
  have htree : ∀ l ∈ fourBal :: (fourOne ++ fourTwo), ∃ t, WellFormed (fourT l).tree t := by
    intro l hl
    rcases List.mem_cons.1 hl with rfl | hl
    · exact fourBal_isTree
    · rcases List.mem_append.1 hl with h | h
      · exact fourOne_isTree l h
      · exact fourTwo_isTree l h
  have hmk : ∀ c : CTree, ∃ o : InfOpt σ ℝ, ∀ l ∈ fourBal :: (fourOne ++ fourTwo), c = fourT l →
      InfOpt.make (realModel (.int 2)) c seed false none = some (.ok o) := by
    intro c
    by_cases hc : ∃ l ∈ fourBal :: (fourOne ++ fourTwo), c = fourT l
    · obtain ⟨l, hl, rfl⟩ := hc
      obtain ⟨t, ht⟩ := htree l hl
      obtain ⟨o, ho⟩ := fourT_made (four_len l hl) ht seed
      exact ⟨o, fun _ _ _ => ho⟩
    · obtain ⟨t, ht⟩ := htree fourBal List.mem_cons_self
      obtain ⟨o, -⟩ := fourT_made (four_len fourBal List.mem_cons_self) ht seed
      exact ⟨o, fun l hl e => absurd ⟨l, hl, e⟩ hc⟩
  choose os hos using hmk
  refine ⟨(fourOne ++ fourTwo).map fourT, fourT fourBal, by rfl, ?_, ?_, os, ?_, ?_⟩
  · refine (List.nodup_map_iff_inj_on four_nodup).2 ?_
    intro l hl l' hl' h
    exact fourT_inj h ((four_len l (List.mem_cons_of_mem _ hl)).trans (four_len l' (List.mem_cons_of_mem _ hl')).symm)
  · intro c hc
    rw [← List.map_cons] at hc
    obtain ⟨l, hl, rfl⟩ := List.mem_map.1 hc
    obtain ⟨t, ht⟩ := htree l hl
    exact ⟨t, ht, fourT_exact, fourT_cost (four_len l hl) ht⟩
  · intro c hc
    rw [← List.map_cons] at hc
    obtain ⟨l, hl, rfl⟩ := List.mem_map.1 hc
    exact hos _ l hl rfl
  · intro beta W M h0 htop hM h4
    have h1 := sum_const_le (fun c => W 6 * (os c).updateChance M (realModel (.int 2)) (probMH beta) (fourT fourBal))
      (W 6 * (4⁻¹ * 2⁻¹)) ((fourOne ++ fourTwo).map fourT) ?_
    · refine lt_of_lt_of_le ?_ h1
      have e : (((fourOne ++ fourTwo).map fourT).length : ENNReal) = 12 := by
        rw [List.length_map]; rfl
      rw [e]
      have e2 : (12 : ENNReal) * (W 6 * (4⁻¹ * 2⁻¹)) = W 6 * (12 * (4⁻¹ * 2⁻¹)) := by ring
      have e3 : (12 : ENNReal) * (4⁻¹ * 2⁻¹) = 1 + 2⁻¹ := by
        rw [← ENNReal.toReal_eq_toReal_iff' (by finiteness) (by finiteness)]
        rw [ENNReal.toReal_add (by finiteness) (by finiteness)]
        norm_num
      rw [e2, e3, mul_add, mul_one]
      refine ENNReal.lt_add_right htop.ne ?_
      exact (ENNReal.mul_pos h0.ne' (by simp)).ne'
    · intro c hc
      obtain ⟨l, hl, rfl⟩ := List.mem_map.1 hc
      obtain ⟨t, ht⟩ := htree l (List.mem_cons_of_mem _ hl)
      have ho := hos _ l (List.mem_cons_of_mem _ hl) rfl
      have hT := (fourT_oinv ht ho).2.1
      have hn : (os (fourT l)).ctree.tree.nLeaves = 4 := by
        rw [hT]; unfold Tree.nLeaves; simp [fourT, Tree.ofList, four_len l (List.mem_cons_of_mem _ hl)]
      rw [updateChance_half (Nat.dvd_trans (by norm_num) h4) hM _ (by rw [hn]; exact h4)]
      exact mul_le_mul_right (four_chance hl ht ho beta) _

end TNCO
