import Verif.Lemmas.Rounding
import Verif.Props.InfMem

/-!
# Property C66: the infinite-memory optimizer with floating-point costs

`InfOpt.makeWith bad` is the constructor (`bad x`: `log2(x)` is infinite or NaN), `InfOpt.run g m o probs` a history of updates. Costs are numbers of a type
`R` with any operations in `C66_tree`, and numbers `Fl F` of a floating-point format in the rest.
-/

namespace TNCO
open PTree

section
variable {σ P R : Type} [Zero R] [Add R] [Sub R] [LT R] [DecidableLT R] [LE P] [DecidableLE P]

theorem run_append_raw (g : Prng σ P) (m : CostModel R) (p1 p2 : List (R → R → P)) (o : InfOpt σ R) :
    o.run g m (p1 ++ p2) = (o.run g m p1).bind fun o' => o'.run g m p2 := by
  induction p1 generalizing o with
  | nil => rfl
  | cons p ps ih =>
    simp only [List.cons_append, InfOpt.run]
    cases o.update g m p with
    | none => rfl
    | some o' => exact ih o'

omit [Sub R] [LT R] [DecidableLT R] in
/-- The constructor with another test of the costs (helper). -/
theorem makeWith_of (bad : R → Prop) [DecidablePred bad] {m : CostModel R} {c : CTree} {t : PTree} (hwf : WellFormed c.tree t) {dis : Bool}
    (hv : c.isValid (!dis) = true) (seed : σ) : ∃ o : InfOpt σ R, InfOpt.makeWith (fun _ => False) m c seed dis none = some (.ok o) ∧
      InfOpt.makeWith bad m c seed dis none = some (if bad o.totalCost ∨ bad o.minTotal then .error "domain_error" else .ok o) := by
  unfold InfOpt.makeWith CostCache.make getCost CTree.fuel
  simp only [Option.getD_none, hv, traverse_eq hwf (le_refl _), Option.map_some, bind, pure, Option.bind_some, Bool.not_true, Bool.or_self,
    Bool.false_eq_true, if_false, or_self]
  refine ⟨_, rfl, ?_⟩
  split <;> rfl

/-- Nothing is asked of the arithmetic. -/
theorem trivial_rel (m : CostModel R) : ShadowRel m (⟨fun _ => 0⟩ : CostModel ℤ) (fun _ _ => True) (fun _ _ => True) :=
  ⟨fun _ => trivial, trivial, fun _ _ _ => trivial, fun _ _ _ => trivial⟩

/-- C66: whatever the arithmetic does - rounding, overflow, NaN, comparisons that are not an order - every history of updates runs to completion and its
result is a contraction tree of the same network: the same positions, leaf indices, output indices and dimensions, exact index sets, accepted by `is_valid`
(with the shared-index check if it is enabled). -/
theorem C66_tree (bad : R → Prop) [DecidablePred bad] (g : Prng σ P) (m : CostModel R) (c : CTree) (seed : σ) (dis : Bool) (minC : Option CTree)
    (t0 : PTree) (out : ISet) (o0 : InfOpt σ R) (probs : List (R → R → P)) (hwf : WellFormed c.tree t0) (hex : IndsExact c.inds out t0)
    (hmk : InfOpt.makeWith bad m c seed dis minC = some (.ok o0)) :
    ∃ o t, o0.run g m probs = some o ∧ WellFormed o.ctree.tree t ∧ o.ctree.tree.size = c.tree.size ∧
      (∀ p < (c.tree.size + 1) / 2, o.ctree.inds p = c.inds p) ∧ o.ctree.inds (c.tree.size - 1) = c.inds (c.tree.size - 1) ∧
      o.ctree.dims = c.dims ∧ IndsExact o.ctree.inds out t ∧ o.ctree.isValid (!dis) = true := by
  obtain ⟨v, hO, hS, hc, hdis, -, -, -, -, hv, -⟩ := make_shadow (trivial_rel m) hwf hmk (out? := some out)
    (by rintro _ ⟨⟩; exact indsExact_iff.1 hex)
  obtain ⟨o, v', t, hrun, hI, hS', hst⟩ := history_shadow (trivial_rel m) g (by intro h; simp) probs hO hS
  have hvc : v.ctree = c := by rw [← hS.ctree, hc]
  have hwf' : WellFormed v'.ctree.tree t := hI.wf
  refine ⟨o, t, hrun, ?_⟩
  rw [hS'.ctree]
  have h1 := hst.size
  have h2 := hst.leafInds
  have h3 := hst.rootInds
  have h4 := hst.dims
  have h5 := hst.nInds
  rw [hvc] at h1 h2 h3 h4 h5
  refine ⟨hwf', h1, h2, h3, h4, indsExact_iff.2 (hI.sem out rfl), (ctree_isValid_iff hwf' _).2 ⟨?_, PTree.sem_loc (hI.sem out rfl), ?_⟩⟩
  · rw [h4, h5]; exact ((ctree_isValid_iff hwf _).1 hv).1
  · intro h; exact hI.shr (by simpa using h)

end

section
variable {σ P : Type} [LE P] [DecidableLE P] {F : FloatFormat} {p kc : ℕ} {U : ISet} {m : CostModel (Fl F)} {cost : ISet → ℕ}

/-- The trees of an optimizer keep the leaves of the network (helper). -/
theorem static_leaves {G : Type} {v v' : InfOpt σ G} (h : Static v v') (hU : ∀ q < v.ctree.tree.nLeaves, v.ctree.inds q ⊆ U) :
    ∀ q < v'.ctree.tree.nLeaves, v'.ctree.inds q ⊆ U := by
  intro q hq
  have hn : v'.ctree.tree.nLeaves = v.ctree.tree.nLeaves := by unfold Tree.nLeaves; rw [h.size]
  rw [h.leafInds q (hn ▸ hq)]
  exact hU q (hn ▸ hq)

/-- C66: after any history of updates, the total cost is the cost of the current tree with the error of `kc + n_tensors - 1` roundings - however long the
history is. (`kc` roundings per contraction cost, see `C66_simple` and `C66_sparse`; `Within` allows infinity only for costs beyond the format.) -/
theorem C66_cost (g : Prng σ P) (c : CTree) (seed : σ) (dis : Bool) (minC : Option CTree) (o0 o : InfOpt σ (Fl F))
    (probs : List (Fl F → Fl F → P)) (hm : RoundedCosts F p kc U m cost) (htree : IsTree c.tree) (hU : ∀ q < c.tree.nLeaves, c.inds q ⊆ U)
    (hmk : InfOpt.makeWith Fl.badLog m c seed dis minC = some (.ok o0)) (hrun : o0.run g m probs = some o) :
    ∃ t, WellFormed o.ctree.tree t ∧ Within F p (kc + (c.tree.size - 1)) o.totalCost (treeCost cost o.ctree.inds t : ℕ) := by
  obtain ⟨t0, hwf⟩ := htree
  obtain ⟨v, hO, hS, hc, -⟩ := make_shadow (ledger_rel hm) hwf hmk (out? := none) (by simp)
  obtain ⟨o', v', t, hrun', hI, hS', hst⟩ := history_shadow (ledger_rel hm) g (by intro h; simp at h) probs hO hS
  rw [hrun] at hrun'; cases hrun'
  have hvc : v.ctree = c := by rw [← hS.ctree, hc]
  have hU' := static_leaves hst (by rw [hvc]; exact hU)
  rw [← hS'.ctree] at hU'
  obtain ⟨h1, -, h2⟩ := shadow_total hI hS' hU'
  have := hst.size
  rw [← hS'.ctree, hvc] at this
  exact ⟨t, h1, by rw [← this]; exact h2⟩

/-- C66: `min_ctree` is the initial one or the tree after an update, the recorded minimum is its cost up to the same error, and its exact cost is at most the
exact cost of every tree visited, up to the errors of the two. -/
theorem C66_min (g : Prng σ P) (c : CTree) (seed : σ) (dis : Bool) (o0 o : InfOpt σ (Fl F))
    (probs : List (Fl F → Fl F → P)) (hm : RoundedCosts F p kc U m cost) (htree : IsTree c.tree) (hU : ∀ q < c.tree.nLeaves, c.inds q ⊆ U)
    (hmk : InfOpt.makeWith Fl.badLog m c seed dis none = some (.ok o0)) (hrun : o0.run g m probs = some o) :
    (o.minCtree = c ∨ ∃ p1 p2 o1, p1 ≠ [] ∧ probs = p1 ++ p2 ∧ o0.run g m p1 = some o1 ∧ o.minCtree = o1.ctree) ∧
    ∃ t, WellFormed o.minCtree.tree t ∧
      Within F p (kc + (c.tree.size - 1)) o.minTotal (treeCost cost o.minCtree.inds t : ℕ) ∧
      ∀ p1 p2 o1, probs = p1 ++ p2 → o0.run g m p1 = some o1 → ∃ t1, WellFormed o1.ctree.tree t1 ∧
        (1 - 1 / 2 ^ p) ^ (kc + (c.tree.size - 1)) * ((treeCost cost o.minCtree.inds t : ℕ) : ℚ) ≤
          (1 + 1 / 2 ^ p) ^ (kc + (c.tree.size - 1)) * ((treeCost cost o1.ctree.inds t1 : ℕ) : ℚ) := by
  obtain ⟨t0, hwf⟩ := htree
  obtain ⟨v, hO, hS, hc, -, hmc, hmt, hb1, hb2, hv, -⟩ := make_shadow (ledger_rel hm) hwf hmk (out? := none) (by simp)
  simp only [Option.getD_none] at hmc hmt
  have hvc : v.ctree = c := by rw [← hS.ctree, hc]
  have hU0 : ∀ q < o0.ctree.tree.nLeaves, o0.ctree.inds q ⊆ U := by rw [hc]; exact hU
  have hloc0 := ((ctree_isValid_iff hwf _).1 hv).2.1
  have hw0 := getCost_within hm hwf hloc0 hU hmt
  have hfin : o0.minTotal ≠ Flt.inf false := by intro e; rw [e] at hb2; exact hb2 trivial
  have hsz : o0.ctree.tree.size ≠ 1 := by
    intro e
    have hz : 0 ∈ t0.leaves := (hwf.leaves 0).2 (by rw [← hc, e]; omega)
    have := treeCost_ledger (cost := cost) hloc0 fun q hq => hU q (by unfold Tree.nLeaves; exact (hwf.leaves q).1 hq)
    obtain ⟨e1, e2, e3⟩ := hwf.size_eq
    have hl : t0.leaves.length = 1 := by rw [e2]; unfold Tree.nLeaves; rw [← hc, e]
    have hcost : treeCost cost c.inds t0 = 0 := by
      cases t0 with
      | leaf q => rfl
      | node q l r =>
        have p1 := l.inner_card
        have p2 := r.inner_card
        simp only [leaves, List.length_append] at hl
        omega
    rw [hcost] at hw0
    rcases hw0 with ⟨q, eq, -, -, h⟩ | ⟨eq, h⟩
    · rw [eq] at hb2
      refine hb2 ?_
      show q ≤ 0
      simpa using h
    · exact hfin eq
  have hmain := min_history_shadow hm g probs hO hS hU0 hsz hw0.ne_nan hrun
  have hminfin : o.minTotal ≠ Flt.inf false := by
    intro e
    have h := hmain.2.1
    rw [e] at h
    rcases hw0 with ⟨q, eq, -⟩ | ⟨eq, -⟩
    · rw [eq] at h; exact h rfl
    · exact hfin eq
  have cur : ∀ ps o1, o0.run g m ps = some o1 →
      ∃ t, WellFormed o1.ctree.tree t ∧ Within F p (kc + (c.tree.size - 1)) o1.totalCost (treeCost cost o1.ctree.inds t : ℕ) :=
    fun ps o1 h1 => C66_cost g c seed dis none o0 o1 ps hm ⟨t0, hwf⟩ hU hmk h1
  obtain ⟨tm, hwm, hm1, hm2⟩ : ∃ t, WellFormed o.minCtree.tree t ∧
      Within F p (kc + (c.tree.size - 1)) o.minTotal (treeCost cost o.minCtree.inds t : ℕ) ∧
      (o.minCtree = c ∨ ∃ p1 p2 o1, p1 ≠ [] ∧ probs = p1 ++ p2 ∧ o0.run g m p1 = some o1 ∧ o.minCtree = o1.ctree) := by
    rcases hmain.2.2.2 with ⟨a, b⟩ | ⟨p1, p2, o1, h0, h1, h2, h3, h4⟩
    · rw [b, a, hmc]; exact ⟨t0, hwf, hw0, Or.inl rfl⟩
    · obtain ⟨t, q1, q2⟩ := cur p1 o1 h2
      rw [h4, h3]; exact ⟨t, q1, q2, Or.inr ⟨p1, p2, o1, h0, h1, h2, rfl⟩⟩
  refine ⟨hm2, tm, hwm, hm1, ?_⟩
  intro p1 p2 o1 hp h1
  subst hp
  rw [run_append_raw, h1, Option.bind_some] at hrun
  obtain ⟨o1', v1, t1, hr1, hi1, hS1, hs1⟩ := history_shadow (ledger_rel hm) g (by intro h; simp at h) p1 hO hS
  rw [h1] at hr1; cases hr1
  have hsz1 : o1.ctree.tree.size ≠ 1 := by rw [hS1.ctree, hs1.size, ← hS.ctree]; exact hsz
  have hU1 := static_leaves hs1 (by rw [hvc]; exact hU)
  rw [← hS1.ctree] at hU1
  have hm0 := min_history_shadow hm g p1 hO hS hU0 hsz hw0.ne_nan h1
  have hmm := min_history_shadow hm g p2 hi1 hS1 hU1 hsz1 hm0.1 hrun
  by_cases hp1 : p1 = []
  · subst hp1
    simp only [InfOpt.run, Option.some.injEq] at h1; subst h1
    rw [hc]
    exact ⟨t0, hwf, within_compare hm1 hw0 hminfin hmm.2.1⟩
  · obtain ⟨t, q1, q2⟩ := cur p1 o1 h1
    exact ⟨t, q1, within_compare hm1 q2 hminfin (not_lt_trans' hm0.1 hmm.2.1 (hm0.2.2.1 hp1))⟩

omit [LE P] [DecidableLE P] in
/-- C66: the constructor accepts every valid tree with a contraction whose cost fits in the format with a margin for the roundings (no "Precision is too
low."). -/
theorem C66_accepts (c : CTree) (seed : σ) (dis : Bool) (t : PTree) (hm : RoundedCosts F p kc U m cost) (hpos : ∀ s ⊆ U, 1 ≤ cost s)
    (hwf : WellFormed c.tree t) (hU : ∀ q < c.tree.nLeaves, c.inds q ⊆ U) (hv : c.isValid (!dis) = true) (hsz : c.tree.size ≠ 1)
    (hfit : (1 + 1 / 2 ^ p) ^ (kc + (c.tree.size - 1)) * ((treeCost cost c.inds t : ℕ) : ℚ) < 2 ^ (F.emax + 1)) :
    ∃ o : InfOpt σ (Fl F), InfOpt.makeWith Fl.badLog m c seed dis none = some (.ok o) := by
  obtain ⟨o, h1, h2⟩ := makeWith_of (m := m) Fl.badLog hwf hv seed
  obtain ⟨v, hO, hS, hc, -, -, hmt, -⟩ := make_shadow (ledger_rel hm) hwf h1 (out? := none) (by simp)
  simp only [Option.getD_none] at hmt
  have hloc := ((ctree_isValid_iff hwf _).1 hv).2.1
  have w1 := getCost_within hm hwf hloc hU hmt
  obtain ⟨-, -, w2⟩ := shadow_total hO hS (by rw [hc]; exact hU)
  rw [hc] at w2
  have hp : 1 ≤ treeCost cost c.inds t := by
    cases t with
    | leaf q =>
      obtain ⟨e1, e2, e3⟩ := hwf.size_eq
      simp only [leaves, List.length_cons, List.length_nil] at e2
      omega
    | node q l r =>
      have hUl : ∀ i ∈ (node q l r).leaves, c.inds i ⊆ U := fun i hi => hU i (by unfold Tree.nLeaves; exact (hwf.leaves i).1 hi)
      simp only [leaves, List.mem_append] at hUl
      have := hpos _ (Finset.union_subset (treeCost_ledger (cost := cost) hloc.2.1 fun i hi => hUl i (Or.inl hi)).1
        (treeCost_ledger (cost := cost) hloc.2.2 fun i hi => hUl i (Or.inr hi)).1)
      rw [treeCost]
      omega
  have good : ∀ {x : Fl F}, Within F p (kc + (c.tree.size - 1)) x (treeCost cost c.inds t : ℕ) → ¬ Fl.badLog x := by
    intro x hx
    rcases hx with ⟨q, rfl, -, h, -⟩ | ⟨rfl, h⟩
    · have := within_pos hm.one (by exact_mod_cast hp) h
      exact not_le.2 this
    · exact absurd hfit (not_lt.2 h)
  rw [if_neg (not_or.2 ⟨good w2, good w1⟩)] at h2
  exact ⟨o, h2⟩

/-- C66: the simple cost model rounds at most `2 n + 2` times for `n` indices - with one common dimension (computed by `std::pow` in double precision)
only for formats no larger than `double`. -/
theorem C66_simple_partial (dims : Dims) (hp : 1 ≤ p) (hF : p ≤ F.prec) (hd : PosDims dims U) (hw : PowFits F p dims) :
    RoundedCosts F p (2 * U.card + 2) U (floatModel F dims) (simpleGet dims) :=
  ⟨hp, hF, fun s hs => (floatGet_within hp hF (hd.mono hs) hw).mono hp (by have := Finset.card_le_card hs; omega) (by positivity)⟩

/-- C66: the cost model with sparse indices. -/
theorem C66_sparse_partial (sparse : ISet) (n : ℕ) (dims : Dims) (hp : 1 ≤ p) (hF : p ≤ F.prec) (hd : PosDims dims U) (hw : PowFits F p dims)
    {m : CostModel (Fl F)} (hm : floatSparseModel F sparse n dims = some m) :
    RoundedCosts F p (2 * U.card + 5) U m (sparseGet sparse n dims) := by
  unfold floatSparseModel at hm
  split at hm
  · simp at hm
  · next hn =>
    cases hm
    exact ⟨hp, hF, fun s hs => (floatSparseGet_within hp hF (by omega) (hd.mono hs) hw).mono hp (by have := Finset.card_le_card hs; omega)
      (by positivity)⟩

end

/-! ## One common dimension with the larger types -/

/-- Two tensors with the same 103 indices of dimension 1024: one contraction that costs `2^1030`. -/
def bigCT : CTree where
  tree := Tree.ofList [⟨none, none, some 2⟩, ⟨none, none, some 2⟩, ⟨some 0, some 1, none⟩]
  nInds := 103
  inds := fun p => if p < 2 then Finset.range 103 else ∅
  dims := .int 1024

def bigTree : PTree := .node 2 (.leaf 0) (.leaf 1)

theorem bigCT_wf : WellFormed bigCT.tree bigTree := by
  refine ⟨by simp [bigCT, bigTree, Encodes, Tree.ofList, PTree.root], by decide, ?_, by decide, ?_⟩
  · intro p
    have : bigCT.tree.size = 3 := rfl
    rw [this]; simp [bigTree, postorder]; omega
  · intro p
    have : (bigCT.tree.size + 1) / 2 = 2 := rfl
    rw [this]; simp [bigTree, leaves]; omega

theorem bigCT_cost : treeCost (simpleGet bigCT.dims) bigCT.inds bigTree = 2 ^ 1030 := by decide +kernel

theorem bigCT_valid : bigCT.isValid true = true := by decide +kernel

/-- **C66 is violated**: with one common dimension the cost `2^1030` is infinite in every cost type, since the power is computed as a `double`; the
constructor raises `domain_error` ("Precision is too low.") even for `float1024`, whose largest number is beyond `2^(2^29)`. -/
theorem C66_violated (F : FloatFormat) {σ : Type} (seed : σ) :
    InfOpt.makeWith Fl.badLog (floatModel F bigCT.dims) bigCT seed false none = some (.error "domain_error") ∧
    WellFormed bigCT.tree bigTree ∧ bigCT.isValid true = true ∧ treeCost (simpleGet bigCT.dims) bigCT.inds bigTree = 2 ^ 1030 := by
  refine ⟨?_, bigCT_wf, bigCT_valid, bigCT_cost⟩
  obtain ⟨o, h1, h2⟩ := makeWith_of (m := floatModel F bigCT.dims) Fl.badLog bigCT_wf (dis := false) bigCT_valid seed
  obtain ⟨-, -, -, -, -, -, hmt, -⟩ := make_shadow (trivial_rel (floatModel F bigCT.dims)) bigCT_wf h1 (out? := none) (by simp)
  have hinf : (floatModel F bigCT.dims).get (∅ ∪ Finset.range 103) = Flt.inf false := by
    have h : float64.round (((1024 : ℕ) : ℚ) ^ (∅ ∪ Finset.range 103 : ISet).card) = (Fl.of (Flt.inf false) : Fl float64) := by decide +kernel
    change F.convert (float64.round (((1024 : ℕ) : ℚ) ^ (∅ ∪ Finset.range 103 : ISet).card)) = _
    rw [h]; rfl
  have hm : o.minTotal = (0 : Fl F) + (floatModel F bigCT.dims).get (∅ ∪ Finset.range 103) := by
    unfold getCost CTree.fuel at hmt
    rw [Option.getD_none, traverse_eq bigCT_wf (le_refl _), Option.map_some, Option.some.injEq] at hmt
    exact hmt.symm
  have hbad : Fl.badLog o.minTotal := by rw [hm, hinf]; exact trivial
  rw [h2, if_pos (Or.inr hbad)]

/-- **C66 is violated**: with one common dimension only the 53 bits of a `double` are right, whatever the format. -/
theorem C66_violated_bits (F : FloatFormat) (h : 64 ≤ F.prec) :
    floatGet F (.int 3) (Finset.range 40) ≠ Flt.fin ((simpleGet (.int 3) (Finset.range 40) : ℕ) : ℚ) := by
  have h0 : float64.round (((3 : ℕ) : ℚ) ^ (Finset.range 40).card) = (Fl.of (Flt.fin 12157665459056928768) : Fl float64) := by decide +kernel
  have h1 : simpleGet (.int 3) (Finset.range 40) = 12157665459056928801 := by decide +kernel
  rw [h1]
  change F.convert (float64.round (((3 : ℕ) : ℚ) ^ (Finset.range 40).card)) ≠ _
  rw [h0]
  change F.round 12157665459056928768 ≠ _
  intro e
  have hr : roundTo F.prec 12157665459056928768 = ((12157665459056928801 : ℕ) : ℚ) := by
    by_cases c1 : 2 ^ (F.emax + 1) ≤ roundTo F.prec 12157665459056928768
    · rw [show F.round 12157665459056928768 = Flt.inf false from if_pos c1] at e; cases e
    · by_cases c2 : roundTo F.prec 12157665459056928768 ≤ - 2 ^ (F.emax + 1)
      · rw [show F.round 12157665459056928768 = Flt.inf true from (if_neg c1).trans (if_pos c2)] at e; cases e
      · rw [show F.round 12157665459056928768 = Flt.fin (roundTo F.prec 12157665459056928768) from (if_neg c1).trans (if_neg c2)] at e
        exact Flt.fin.inj e
  have hn := roundTo_near (p := F.prec) 12157665459056928768
  rw [hr] at hn
  have h2 : |(12157665459056928768 : ℚ)| / 2 ^ F.prec ≤ |12157665459056928768| / 2 ^ 64 :=
    div_le_div_of_nonneg_left (abs_nonneg _) (by positivity) (pow_le_pow_right₀ (by norm_num) h)
  have := hn.trans h2
  norm_num at this

/-! ## Examples -/

/-- The hypotheses hold for the running example in single precision: the error of `2 * 3 + 2 + 4` roundings with 24 bits. -/
theorem exCT_rounded : RoundedCosts float32 24 8 {0, 1, 2} (floatModel float32 exCT.dims) (simpleGet exCT.dims) :=
  C66_simple_partial (U := {0, 1, 2}) exCT.dims (by decide) (by decide) (show ∀ i ∈ ({0, 1, 2} : ISet), 1 ≤ [2, 3, 2].getD i 0 by decide) trivial

/-- The acceptance rules of the examples: everything, and only decreasing moves. -/
def floatBase (_ _ : Fl float32) : ℚ := 1
def floatGreedy (d _ : Fl float32) : ℚ := if d < 0 then 1 else 0

example : WellFormed exCT.tree exCTree ∧ (∀ q < exCT.tree.nLeaves, exCT.inds q ⊆ {0, 1, 2}) ∧
    ∃ o0 o, InfOpt.makeWith Fl.badLog (floatModel float32 exCT.dims) exCT true false none = some (.ok o0) ∧
      o0.run altPrng (floatModel float32 exCT.dims) [floatBase, floatGreedy, floatBase] = some o ∧
      o.ctree.tree.nodes 3 ≠ o0.ctree.tree.nodes 3 ∧ o0.totalCost = (Fl.of (Flt.fin 16) : Fl float32) := by
  have := exists_of_eval (x := InfOpt.makeWith Fl.badLog (floatModel float32 exCT.dims) exCT true false none)
    (f := fun o => o.run altPrng (floatModel float32 exCT.dims) [floatBase, floatGreedy, floatBase])
    (Q := fun a b => decide (b.ctree.tree.nodes 3 ≠ a.ctree.tree.nodes 3 ∧ a.totalCost = (Fl.of (Flt.fin 16) : Fl float32))) (by decide +kernel)
  exact ⟨exCT_wf, by decide, by simpa only [decide_eq_true_eq] using this⟩

/-- Rounding happens: the cost `2^24 + 1` of a tree is `2^24` in single precision. -/
example : (float32.ofNat (2 ^ 24) + float32.ofNat 1 : Fl float32) = (Fl.of (Flt.fin (2 ^ 24)) : Fl float32) := by decide +kernel

/-- The sparse model of the example accepts its arguments. -/
example : ∃ m, floatSparseModel float64 {1} 2 exCT.dims = some m ∧ RoundedCosts float64 53 11 {0, 1, 2} m (sparseGet {1} 2 exCT.dims) :=
  ⟨_, rfl, C66_sparse_partial (U := {0, 1, 2}) {1} 2 exCT.dims (by decide) (by decide)
    (show ∀ i ∈ ({0, 1, 2} : ISet), 1 ≤ [2, 3, 2].getD i 0 by decide) trivial rfl⟩

/-- The cost of the running example fits in single precision. -/
example : (1 + 1 / 2 ^ 24) ^ (8 + (exCT.tree.size - 1)) * ((treeCost (simpleGet exCT.dims) exCT.inds exCTree : ℕ) : ℚ) < 2 ^ (float32.emax + 1) := by
  decide +kernel

end TNCO
