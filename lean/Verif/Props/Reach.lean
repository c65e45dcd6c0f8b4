import Verif.Lemmas.ReachGreedy
import Verif.Props.Balance

/-!
# Property C77: the search finds the best tree, if it may accept costlier ones

`InfOpt.chance` is the chance that the state of the optimizer satisfies a condition after a history of updates (Spec/Reach.lean).
A history is a list of acceptance functions, one per update: a schedule of temperatures is one, with `probMH beta` for each
value of beta.
-/

namespace TNCO
open PTree MeasureTheory

variable {σ : Type}

/-- An optimizer made by the constructor from a tree with exact index sets, and updated any number of times, with any acceptance
functions and any generator. -/
structure Started (m : CostModel ℝ) (dis : Bool) (out : ISet) (c : CTree) (g : Prng σ ℝ) (o : InfOpt σ ℝ) : Prop where
  tree : ∃ t0, WellFormed c.tree t0 ∧ IndsExact c.inds out t0
  run : ∃ seed minC o0 probs, InfOpt.make m c seed dis minC = some (.ok o0) ∧ o0.run g m probs = some o

/-- Another valid tree for the same tensors and the same output. -/
structure OtherTree (dis : Bool) (out : ISet) (c c' : CTree) (t' : PTree) : Prop where
  wf : WellFormed c'.tree t'
  size : c'.tree.size = c.tree.size
  exact : IndsExact c'.inds out t'
  same : ∀ p < c.tree.nLeaves, c'.inds p = c.inds p
  valid : c'.isValid (!dis) = true

section
variable {m : CostModel ℝ} {dis : Bool} {out : ISet} {c c' : CTree} {t' : PTree} {g : Prng σ ℝ} {o : InfOpt σ ℝ}

theorem Started.live (h : Started m dis out c g o) : 1 < c.tree.size ∧
    ∃ t, Live m out dis c.inds c.tree.size (o.withPrng ()) t := by
  obtain ⟨⟨t0, hwf, hex⟩, seed, minC, o0, probs, hmk, hrun⟩ := h
  obtain ⟨hO, hc, hdis, -, -, hpos, -⟩ := make_inv hwf hmk (out? := some out) (by rintro _ ⟨⟩; exact indsExact_iff.1 hex)
  have hO' : OInv m (some out) (!dis) o0 t0 := hO
  obtain ⟨o', t, hrun', hI, hS⟩ := run_history g m (by simp) probs hO'
  rw [hrun] at hrun'; cases hrun'
  refine ⟨?_, t, ⟨⟨hI.wf, hI.root, hI.nodes, hI.leaf, hI.part, hI.tail, hI.total, hI.sem, hI.shr, hI.dis⟩,
    hS.disable.trans hdis, hS.size.trans (by rw [hc]), ?_⟩⟩
  · have hsz := hwf.size_eq
    have e : o0.totalCost = treeCost m.get o0.ctree.inds t0 := WInv.cost hO' (by rw [hc]; exact hwf)
    cases t0 with
    | leaf p => rw [e] at hpos; simp [treeCost] at hpos
    | node p l r =>
      have h1 := l.length_leaves_pos
      have h2 := r.length_leaves_pos
      simp only [PTree.leaves, List.length_append] at hsz
      omega
  · intro p hp
    have e : o.ctree.tree.nLeaves = o0.ctree.tree.nLeaves := by unfold Tree.nLeaves; rw [hS.size]
    have hp' : p < o0.ctree.tree.nLeaves := by rw [← e]; exact hp
    have := hS.leafInds p hp'
    rw [hc] at this
    exact this

theorem OtherTree.sem (h : OtherTree dis out c c' t') : t'.Sem c'.inds out := indsExact_iff.1 h.exact

theorem OtherTree.nLeaves (h : OtherTree dis out c c' t') : c'.tree.nLeaves = c.tree.nLeaves := by
  unfold Tree.nLeaves; rw [h.size]

theorem OtherTree.leafs (h : OtherTree dis out c c' t') : ∀ p ∈ t'.leaves, c'.inds p = c.inds p := by
  intro p hp
  exact h.same p (by rw [← h.nLeaves]; exact (h.wf.leaves p).1 hp)

theorem OtherTree.joined (h : OtherTree dis out c c' t') : Joined (adjOf dis c.inds) t' := by
  refine joined_of h.sem h.leafs fun hd => ?_
  subst hd
  exact ((ctree_isValid_iff h.wf _).1 h.valid).2.2 rfl

theorem OtherTree.leaves_iff (h : OtherTree dis out c c' t') : ∀ q, q ∈ t'.leaves ↔ q < (c.tree.size + 1) / 2 := by
  intro q
  rw [← h.size]
  exact h.wf.leaves q

theorem OtherTree.cost (h : OtherTree dis out c c' t') : treeCost m.get c'.inds t' = t'.semCost m.get c.inds out :=
  treeCost_sem h.sem h.leafs

end

/-- C77: the draws. Whatever the generator, the update leads to the state that one finds by starting at a leaf, iterating with
some integers and numbers, one pair per iteration, and recording the minimum: the draws that the chances below are about. -/
theorem C77_draws {P R : Type} [Zero R] [Add R] [Sub R] [LT R] [DecidableLT R] [LE P] [DecidableLE P] (g : Prng σ P)
    (m : CostModel R) (prob : R → R → P) (o o' : InfOpt σ R) (h : o.update g m prob = some o') (x : ℕ × P) :
    ∃ q, q = (g.next o.prng).1 % o.ctree.tree.nLeaves ∧
      (((o.ctree.tree.nodes q).parent = none ∧ o'.withPrng () = o.withPrng ()) ∨
       ∃ B, (o.ctree.tree.nodes q).parent = some B ∧ ∃ draws : List (ℕ × P), draws.length ≤ o.ctree.tree.size ∧
        o'.withPrng () = (Walk.after m prob draws ((⟨o, B, o.totalCost⟩ : Walk σ R).withPrng x)).o.updateMin.withPrng ()) := by
  refine ⟨_, rfl, ?_⟩
  unfold InfOpt.update at h
  simp only at h
  split at h
  · next hp =>
    left
    simp only [Option.some.injEq] at h
    subst h
    exact ⟨hp, rfl⟩
  · next B hp =>
    right
    refine ⟨B, hp, ?_⟩
    obtain ⟨w', hw', rfl⟩ := Option.map_eq_some_iff.1 h
    obtain ⟨ds, hl, hd⟩ := run_draw g m prob _ _ _ ((⟨o, B, o.totalCost⟩ : Walk σ R).withPrng x) hw' rfl
    refine ⟨ds, hl, ?_⟩
    have e : ∀ {υ τ : Type} (a : InfOpt υ R) (b : InfOpt τ R), a.withPrng () = b.withPrng () →
        a.updateMin.withPrng () = b.updateMin.withPrng () := by
      intro υ τ a b hab
      obtain ⟨a1, a2, a3, a4, a5, a6, a7⟩ := a
      obtain ⟨b1, b2, b3, b4, b5, b6, b7⟩ := b
      simp only [InfOpt.withPrng, InfOpt.mk.injEq, true_and] at hab
      obtain ⟨rfl, rfl, rfl, rfl, rfl, rfl⟩ := hab
      unfold InfOpt.updateMin InfOpt.totalCost
      dsimp only
      split <;> rfl
    exact e _ _ (congrArg (fun v : Walk Unit R => v.o) hd)

/-- The hypotheses of `C77_draws` hold for the running example, and the tree changes. -/
example : ∃ o0 o, InfOpt.make exModel exCT true false none = some (.ok o0) ∧
    o0.run altPrng exModel [probBase] = some o ∧ o.ctree.tree.nodes 3 ≠ o0.ctree.tree.nodes 3 := by
  have := exists_of_eval (x := InfOpt.make exModel exCT true false none)
    (f := fun o => o.run altPrng exModel [probBase])
    (Q := fun a b => decide (b.ctree.tree.nodes 3 ≠ a.ctree.tree.nodes 3)) (by decide +kernel)
  simpa only [decide_eq_true_eq] using this

/-- C77: the chances are chances. The chances of exclusive conditions add up, and those of a condition and its opposite to one. -/
theorem C77_chance (M : ℕ) (m : CostModel ℝ) (o : InfOpt σ ℝ) (probs : List (ℝ → ℝ → ℝ)) (hM : 0 < M)
    (E E' : InfOpt Unit ℝ → Prop) :
    ((∀ x, ¬ (E x ∧ E' x)) → o.chance M m probs (fun x => E x ∨ E' x) = o.chance M m probs E + o.chance M m probs E') ∧
    o.chance M m probs E + o.chance M m probs (fun x => ¬ E x) = 1 := by
  classical
  unfold InfOpt.chance
  constructor
  · intro hex
    rw [← InfOpt.means_add]
    congr 1
    funext x
    have := hex x
    by_cases h1 : E x <;> by_cases h2 : E' x <;> simp_all
  · rw [← InfOpt.means_add]
    refine Eq.trans ?_ (means_const (m := m) hM 1 probs (o.withPrng ()))
    congr 1
    funext x
    by_cases h1 : E x <;> simp only [h1, not_true_eq_false, not_false_eq_true, if_true, if_false, add_zero, zero_add]

/-- C77: every tree can be reached. From any state of the optimizer there is a number of updates after which the tree is, with a
positive chance, any given valid tree for the same tensors; provided that the updates accept at least as often as the rule of
Metropolis and Hastings at some fixed temperature, and that all leaves can be drawn. -/
theorem C77_reach (m : CostModel ℝ) (dis : Bool) (out : ISet) (c c' : CTree) (t' : PTree) (g : Prng σ ℝ) (o : InfOpt σ ℝ)
    (beta : ℝ) (M : ℕ) (ho : Started m dis out c g o) (h' : OtherTree dis out c c' t') (hpos : ∀ s, 0 < m.get s) (hb : 0 ≤ beta)
    (hM : 2 ≤ M) (hMl : c.tree.nLeaves ≤ M) :
    ∃ n, ∀ probs : List (ℝ → ℝ → ℝ), probs.length = n →
      (∀ p ∈ probs, ∀ delta old, 0 < old → probMH beta delta old ≤ p delta old) →
      0 < o.chance M m probs fun x => ∃ t, WellFormed x.ctree.tree t ∧ SameTree t t' ∧
        x.totalCost = treeCost m.get c'.inds t' := by
  classical
  obtain ⟨hN, t, hl⟩ := ho.live
  obtain ⟨lo, hi, h0, hle, hcost⟩ := costs_in hpos out dis c.inds c.tree.size
  obtain ⟨hp0, hp1, hacc⟩ := accepts_mh h0 hle hb
  have hend : ∀ (x : InfOpt Unit ℝ) (s : PTree), Live m out dis c.inds c.tree.size x s → SameTree s t' →
      ∃ t, WellFormed x.ctree.tree t ∧ SameTree t t' ∧ x.totalCost = treeCost m.get c'.inds t' := by
    intro x s hx hs
    exact ⟨s, hx.inv.wf, hs, by rw [hx.total, h'.cost, hs.semCost]⟩
  have hperm : t.leaves.Perm t'.leaves := by
    refine (List.perm_ext_iff_of_nodup (leaves_nodup hl.inv.wf.nodup) (leaves_nodup h'.wf.nodup)).2 fun q => ?_
    have e := hl.inv.wf.leaves q
    rw [e, h'.leaves_iff]
    have e2 := hl.size
    simp only at e2 ⊢
    rw [e2]
  have hNM : (c.tree.size + 1) / 2 ≤ M := hMl
  obtain ⟨k, hk⟩ := (reaches_all (adjOf_symm dis c.inds) t.leaves.length t t' (le_refl _) hl.joined h'.joined
    (leaves_nodup hl.inv.wf.nodup) hperm).chain
  refine ⟨k, fun probs hlen hprobs => ?_⟩
  unfold InfOpt.chance
  cases k with
  | zero =>
    rw [List.length_eq_zero_iff.1 hlen]
    simp only [InfOpt.means]
    rw [if_pos (hend _ t hl hk)]
    exact one_pos
  | succ k =>
    obtain ⟨s, h1, h2⟩ := hk
    cases probs with
    | nil => simp at hlen
    | cons q qs =>
      have hmc : 0 < moveChance M c.tree.size ((hi / lo) ^ (-beta)) * (moveChance M c.tree.size ((hi / lo) ^ (-beta)) ^ k * 1) :=
        pos_iff_ne_zero.2 (mul_ne_zero (moveChance_pos hp0) (mul_ne_zero (pow_ne_zero _ (moveChance_pos hp0)) one_ne_zero))
      refine lt_of_lt_of_le hmc ?_
      simp only [InfOpt.means]
      refine Live.mean_move hM hp1 hcost (hacc q (hprobs q (by simp))) hNM hl h1 fun o' s' ho' hs => ?_
      refine Live.chain_ge hM hNM hp1 hcost (h2.pre hs) ho' (by simp at hlen; omega)
        (fun r hr => hacc r (hprobs r (by simp [hr]))) fun o2 t2 ps h3 h4 h5 => ?_
      have : ps = [] := by
        refine List.length_eq_zero_iff.1 ?_
        simp at hlen; omega
      subst this
      simp only [InfOpt.means]
      rw [if_pos (hend _ t2 h3.1 h4)]

/-- C77: the search finds the best tree. The chance that the lowest cost seen is at most that of any given valid tree for the
same tensors tends to one with the number of updates; whatever the state it starts from, and whatever the schedule of
temperatures, if it stays above some temperature. -/
theorem C77_limit (m : CostModel ℝ) (dis : Bool) (out : ISet) (c c' : CTree) (t' : PTree) (beta : ℝ) (M : ℕ)
    (h' : OtherTree dis out c c' t') (hpos : ∀ s, 0 < m.get s) (hb : 0 ≤ beta) (hM : 2 ≤ M)
    (hMl : c.tree.nLeaves ≤ M) (eta : ENNReal) (he : 0 < eta) :
    ∃ n0, ∀ (g : Prng σ ℝ) (o : InfOpt σ ℝ) (probs : List (ℝ → ℝ → ℝ)), Started m dis out c g o → n0 ≤ probs.length →
      (∀ p ∈ probs, ∀ delta old, 0 < old → probMH beta delta old ≤ p delta old) →
      1 - eta ≤ o.chance M m probs fun x => x.minTotal ≤ treeCost m.get c'.inds t' := by
  by_cases hN : 1 < c.tree.size
  · obtain ⟨lo, hi, h0, hle, hcost⟩ := costs_in hpos out dis c.inds c.tree.size
    obtain ⟨hp0, hp1, hacc⟩ := accepts_mh h0 hle hb
    obtain ⟨n0, hn⟩ := hit_limit hM hMl hN hp1 hcost hp0 h'.joined h'.leaves_iff (leaves_nodup h'.wf.nodup) he
    refine ⟨n0, fun g o probs ho hlen hprobs => ?_⟩
    obtain ⟨-, t, hl⟩ := ho.live
    rw [h'.cost]
    exact hn hl hlen fun q hq => hacc q (hprobs q hq)
  · exact ⟨0, fun g o probs ho _ _ => absurd ho.live.1 hN⟩

/-- C77: the chance that the search has not found a tree as good falls exponentially with the number of updates: every `k` updates multiply
its bound by `r < 1`, both the same for all starting states, generators and schedules above the temperature. -/
theorem C77_rate (m : CostModel ℝ) (dis : Bool) (out : ISet) (c c' : CTree) (t' : PTree) (beta : ℝ) (M : ℕ)
    (h' : OtherTree dis out c c' t') (hpos : ∀ s, 0 < m.get s) (hb : 0 ≤ beta) (hM : 2 ≤ M)
    (hMl : c.tree.nLeaves ≤ M) :
    ∃ (k : ℕ) (r : ENNReal), r < 1 ∧ ∀ (j : ℕ) (g : Prng σ ℝ) (o : InfOpt σ ℝ) (probs : List (ℝ → ℝ → ℝ)), Started m dis out c g o →
      j * k < probs.length → (∀ p ∈ probs, ∀ delta old, 0 < old → probMH beta delta old ≤ p delta old) →
      1 - r ^ j ≤ o.chance M m probs fun x => x.minTotal ≤ treeCost m.get c'.inds t' := by
  by_cases hN : 1 < c.tree.size
  · obtain ⟨lo, hi, h0, hle, hcost⟩ := costs_in hpos out dis c.inds c.tree.size
    obtain ⟨hp0, hp1, hacc⟩ := accepts_mh h0 hle hb
    obtain ⟨k, r, hr, hn⟩ := hit_rate hM hMl hN hp1 hcost hp0 h'.joined h'.leaves_iff (leaves_nodup h'.wf.nodup)
    refine ⟨k, r, hr, fun j g o probs ho hlen hprobs => ?_⟩
    obtain ⟨-, t, hl⟩ := ho.live
    rw [h'.cost]
    exact hn j hl hlen fun q hq => hacc q (hprobs q hq)
  · exact ⟨0, 0, by simp, fun j g o probs ho _ _ => absurd ho.live.1 hN⟩

/-- Every power `k` times (helper). -/
theorem tsum_pow_div (r : ENNReal) (k : ℕ) (hk : 0 < k) : ∑' n : ℕ, r ^ (n / k) = k * (1 - r)⁻¹ := by
  haveI : NeZero k := ⟨by omega⟩
  have e : ∀ p : ℕ × Fin k, r ^ ((Nat.divModEquiv k).symm p / k) = (fun (j : ℕ) (_ : Fin k) => r ^ j) p.1 p.2 := by
    rintro ⟨j, i⟩
    have e : (Nat.divModEquiv k).symm (j, i) = j * k + i := rfl
    rw [e, Nat.mul_comm, Nat.mul_add_div hk, Nat.div_eq_of_lt i.2, add_zero]
  rw [← (Nat.divModEquiv k).symm.tsum_eq, tsum_congr e, ENNReal.tsum_prod (f := fun (j : ℕ) (_ : Fin k) => r ^ j), ← ENNReal.tsum_geometric, ← ENNReal.tsum_mul_left]
  refine tsum_congr fun j => ?_
  simp

/-- C77: the mean number of updates until a tree as good is found (the sum of the chances that more are needed) is finite; one bound holds for
all starting states, generators and schedules above the temperature. -/
theorem C77_mean_time (m : CostModel ℝ) (dis : Bool) (out : ISet) (c c' : CTree) (t' : PTree) (beta : ℝ) (M : ℕ)
    (h' : OtherTree dis out c c' t') (hpos : ∀ s, 0 < m.get s) (hb : 0 ≤ beta) (hM : 2 ≤ M)
    (hMl : c.tree.nLeaves ≤ M) :
    ∃ B : ENNReal, B ≠ ⊤ ∧ ∀ (g : Prng σ ℝ) (o : InfOpt σ ℝ) (probs : ℕ → ℝ → ℝ → ℝ), Started m dis out c g o →
      (∀ n delta old, 0 < old → probMH beta delta old ≤ probs n delta old) →
      ∑' n, (1 - o.chance M m ((List.range n).map probs) fun x => x.minTotal ≤ treeCost m.get c'.inds t') ≤ B := by
  obtain ⟨k, r, hr, h⟩ := C77_rate (σ := σ) m dis out c c' t' beta M h' hpos hb hM hMl
  refine ⟨1 + (k + 1 : ℕ) * (1 - r)⁻¹, ?_, fun g o probs ho hp => ?_⟩
  · refine ENNReal.add_ne_top.2 ⟨ENNReal.one_ne_top, ENNReal.mul_ne_top (ENNReal.natCast_ne_top _) ?_⟩
    rw [ENNReal.inv_ne_top]
    exact (tsub_pos_of_lt hr).ne'
  · rw [tsum_eq_zero_add' ENNReal.summable, ← tsum_pow_div r (k + 1) (by omega)]
    refine add_le_add tsub_le_self (ENNReal.tsum_le_tsum fun n => ?_)
    rw [tsub_le_iff_left]
    have h1 : n / (k + 1) * k < ((List.range (n + 1)).map probs).length := by
      rw [List.length_map, List.length_range]
      have := Nat.div_mul_le_self n (k + 1)
      have h2 : n / (k + 1) * k ≤ n / (k + 1) * (k + 1) := Nat.mul_le_mul_left _ (by omega)
      omega
    have h2 := h (n / (k + 1)) g o _ ho h1 (by
      intro p hp' delta old h0
      obtain ⟨i, -, rfl⟩ := List.mem_map.1 hp'
      exact hp i delta old h0)
    rw [tsub_le_iff_left] at h2
    exact h2.trans_eq (by rw [add_comm])

/-- The acceptance functions of `C77_reach` and `C77_limit` include those that accept everything, and those of all schedules of
values of beta up to a bound. -/
example (beta b : ℝ) (h : b ≤ beta) (h0 : 0 ≤ beta) : ∀ p ∈ [probMH b, probBase], ∀ delta old : ℝ, 0 < old →
    probMH beta delta old ≤ p delta old := by
  intro p hp delta old ho
  simp only [List.mem_cons, List.not_mem_nil, or_false] at hp
  rcases hp with rfl | rfl
  · unfold probMH
    split
    · exact le_refl _
    · next hd =>
      have : 0 ≤ delta / old := div_nonneg (not_le.1 hd).le ho.le
      exact Real.rpow_le_rpow_of_exponent_le (by linarith) (by linarith)
  · unfold probMH probBase
    split
    · exact le_refl _
    · next hd =>
      have : 0 ≤ delta / old := div_nonneg (not_le.1 hd).le ho.le
      exact Real.rpow_le_one_of_one_le_of_nonpos (by linarith) (by linarith)

/-! ### A tree that the greedy search does not leave -/

/-- Four tensors on five indices of dimension 2: ((0, 1), 2), 3. -/
def stuckA : CTree :=
  ⟨.ofList [⟨none, none, some 4⟩, ⟨none, none, some 4⟩, ⟨none, none, some 5⟩, ⟨none, none, some 6⟩, ⟨some 0, some 1, some 5⟩,
    ⟨some 4, some 2, some 6⟩, ⟨some 5, some 3, none⟩],
    5, fun i => [{0, 1, 2, 4}, {4}, {0, 2, 3}, {1, 3}, {0, 1, 2}, {1, 3}, ∅].getD i ∅, .int 2⟩

/-- The same tensors: (0, (2, 3)), 1. -/
def stuckB : CTree :=
  ⟨.ofList [⟨none, none, some 5⟩, ⟨none, none, some 6⟩, ⟨none, none, some 4⟩, ⟨none, none, some 4⟩, ⟨some 2, some 3, some 5⟩,
    ⟨some 0, some 4, some 6⟩, ⟨some 5, some 1, none⟩],
    5, fun i => [{0, 1, 2, 4}, {4}, {0, 2, 3}, {1, 3}, {0, 1, 2}, {4}, ∅].getD i ∅, .int 2⟩

def stuckTA : PTree := .node 6 (.node 5 (.node 4 (.leaf 0) (.leaf 1)) (.leaf 2)) (.leaf 3)
def stuckTB : PTree := .node 6 (.node 5 (.leaf 0) (.node 4 (.leaf 2) (.leaf 3))) (.leaf 1)

theorem stuckA_wf : WellFormed stuckA.tree stuckTA := by
  refine ⟨by simp [stuckA, stuckTA, Encodes, Tree.ofList, PTree.root], by decide, ?_, by decide, ?_⟩
  · intro p
    have : stuckA.tree.size = 7 := rfl
    rw [this]; simp [stuckTA, postorder]; omega
  · intro p
    have : (stuckA.tree.size + 1) / 2 = 4 := rfl
    rw [this]; simp [stuckTA, leaves]; omega

theorem stuckB_wf : WellFormed stuckB.tree stuckTB := by
  refine ⟨by simp [stuckB, stuckTB, Encodes, Tree.ofList, PTree.root], by decide, ?_, by decide, ?_⟩
  · intro p
    have : stuckB.tree.size = 7 := rfl
    rw [this]; simp [stuckTB, postorder]; omega
  · intro p
    have : (stuckB.tree.size + 1) / 2 = 4 := rfl
    rw [this]; simp [stuckTB, leaves]; omega

theorem stuckA_exact : IndsExact stuckA.inds ∅ stuckTA := by
  rw [indsExact_iff]
  simp only [stuckTA, PTree.Sem, PTree.root, PTree.L, leaves, stuckA, leafInds]
  decide +kernel

theorem stuckB_exact : IndsExact stuckB.inds ∅ stuckTB := by
  rw [indsExact_iff]
  simp only [stuckTB, PTree.Sem, PTree.root, PTree.L, leaves, stuckB, leafInds]
  decide +kernel

theorem stuckA_cost : treeCost (realModel (.int 2)).get stuckA.inds stuckTA = 36 := by
  have : treeCost (fun s => simpleGet (.int 2) s) stuckA.inds stuckTA = 36 := by decide +kernel
  simp only [stuckTA, treeCost, realModel] at this ⊢
  exact_mod_cast this

theorem stuckB_cost : treeCost (realModel (.int 2)).get stuckB.inds stuckTB = 34 := by
  have : treeCost (fun s => simpleGet (.int 2) s) stuckB.inds stuckTB = 34 := by decide +kernel
  simp only [stuckTB, treeCost, realModel] at this ⊢
  exact_mod_cast this

theorem stuck_other : OtherTree false ∅ stuckA stuckB stuckTB := by
  refine ⟨stuckB_wf, rfl, stuckB_exact, ?_, by decide +kernel⟩
  have : stuckA.tree.nLeaves = 4 := rfl
  rw [this]
  decide

theorem stuck_min : StrictMin (realModel (.int 2)) false stuckA := by
  intro o o' A B C D E pa h1 h2 h3
  have hA : A < 7 := by
    by_contra hge
    have : stuckA.tree.nodes A = default := by
      simp only [stuckA, Tree.ofList, List.getD]
      rw [List.getElem?_eq_none (by simp; omega)]
      rfl
    rw [this] at h1
    have e := congrArg Node.c0 h1
    unfold mkNode at e
    cases o <;> simp at e <;> cases e
  have hlt : ∀ a b a' b' : ISet, simpleGet (.int 2) a + simpleGet (.int 2) b < simpleGet (.int 2) a' + simpleGet (.int 2) b' →
      (realModel (.int 2)).get a + (realModel (.int 2)).get b < (realModel (.int 2)).get a' + (realModel (.int 2)).get b' := by
    intro a b a' b' h
    simp only [realModel]
    exact_mod_cast h
  refine hlt _ _ _ _ ?_
  have h3 := h3 rfl
  interval_cases A <;> cases o <;> simp [stuckA, Tree.ofList, mkNode] at h1
  all_goals
    obtain ⟨rfl, rfl, rfl⟩ := h1
    cases o' <;> simp [stuckA, Tree.ofList, mkNode] at h2
  all_goals
    obtain ⟨rfl, rfl⟩ := h2
    revert h3
    decide +kernel

/-- The hypotheses of `C77_reach`, `C77_limit`, `C77_rate` and `C77_mean_time` hold for these trees, of costs 36 and 34, at any temperature. -/
example (g : Prng σ ℝ) (seed : σ) : ∃ o, Started (realModel (.int 2)) false ∅ stuckA g o ∧
    OtherTree false ∅ stuckA stuckB stuckTB ∧ (∀ s, 0 < (realModel (.int 2)).get s) ∧ stuckA.tree.nLeaves ≤ 2 ^ 32 := by
  obtain ⟨o, ho, -⟩ := make_ok (m := realModel (.int 2)) (dis := false) seed stuckA_wf (by decide +kernel)
    (by rw [stuckA_cost]; norm_num)
  refine ⟨o, ⟨⟨_, stuckA_wf, stuckA_exact⟩, seed, none, o, [], ho, rfl⟩, stuck_other, fun s => ?_, ?_⟩
  · simp [realModel, simpleGet]
  · have : stuckA.tree.nLeaves = 4 := rfl
    rw [this]; norm_num

/-- C77, violated for the greedy search: there are a tree of cost 36 and another valid tree for the same tensors of cost 34, such
that the greedy search that starts from the first never sees a cost below 36, whatever the number of updates. -/
theorem C77_violated (seed : σ) : ∃ c c' t t' o, WellFormed c.tree t ∧ IndsExact c.inds ∅ t ∧
    treeCost (realModel (.int 2)).get c.inds t = 36 ∧ OtherTree false ∅ c c' t' ∧
    treeCost (realModel (.int 2)).get c'.inds t' = 34 ∧ InfOpt.make (realModel (.int 2)) c seed false none = some (.ok o) ∧
    ∀ M n, 0 < M → o.chance M (realModel (.int 2)) (List.replicate n probGreedy) (fun x => x.minTotal < 36) = 0 := by
  classical
  obtain ⟨o, ho, -⟩ := make_ok (m := realModel (.int 2)) (dis := false) seed stuckA_wf (by decide +kernel)
    (by rw [stuckA_cost]; norm_num)
  refine ⟨stuckA, stuckB, stuckTA, stuckTB, o, stuckA_wf, stuckA_exact, stuckA_cost, stuck_other, stuckB_cost, ho, ?_⟩
  intro M n hM
  obtain ⟨hO, hc, hdis, -, hmin, -, -, hv, -⟩ := make_inv stuckA_wf ho (out? := some ∅)
    (by rintro _ ⟨⟩; exact indsExact_iff.1 stuckA_exact)
  have hO' : OInv (realModel (.int 2)) (some ∅) (!false) o stuckTA := hO
  have hmt : o.minTotal = 36 := by
    have := getCost_eq (m := realModel (.int 2)) stuckA_wf ((ctree_isValid_iff stuckA_wf _).1 hv).2.1 (fuel := stuckA.fuel) (le_refl _)
    simp only [Option.getD_none] at hmin
    rw [this, stuckA_cost] at hmin
    simpa using hmin.symm
  have hst : Stuck (realModel (.int 2)) ∅ false stuckA.inds 7 stuckA 36 (o.withPrng ()) := by
    refine ⟨stuckTA, ⟨⟨hO'.wf, hO'.root, hO'.nodes, hO'.leaf, hO'.part, hO'.tail, hO'.total, hO'.sem, hO'.shr, hO'.dis⟩,
      hdis, ?_, ?_⟩, hc, hmt⟩
    · have : (o.withPrng ()).ctree = stuckA := hc
      rw [this]; rfl
    · have : (o.withPrng ()).ctree = stuckA := hc
      rw [this]; intros; rfl
  have h1 : 1 ≤ o.chance M (realModel (.int 2)) (List.replicate n probGreedy) (fun x => ¬ x.minTotal < 36) := by
    unfold InfOpt.chance
    refine Stuck.means hM (by norm_num) stuck_min stuckA_wf (by rw [stuckA_cost]) ?_ n _ hst
    rintro x ⟨-, -, -, hx⟩
    rw [if_pos (show ¬ x.minTotal < 36 by rw [hx]; norm_num)]
  have h2 := (C77_chance M (realModel (.int 2)) o (List.replicate n probGreedy) hM (fun x => x.minTotal < 36)
    (fun _ => False)).2
  have h3 : o.chance M (realModel (.int 2)) (List.replicate n probGreedy) (fun x => x.minTotal < 36) + 1 ≤ 0 + 1 := by
    rw [zero_add]
    calc _ ≤ _ := add_le_add_right h1 _
      _ = 1 := h2
  have := (ENNReal.add_le_add_iff_right ENNReal.one_ne_top).1 h3
  exact le_antisymm this bot_le

end TNCO
