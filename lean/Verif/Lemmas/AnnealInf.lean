import Verif.Lemmas.AnnealNet
import Verif.Props.Pickle

/-! One path in the infinite-memory app. -/

namespace TNCO
open PTree

section
variable {σ R : Type} [AddCommGroup R] [LinearOrder R] [IsOrderedAddMonoid R]

theorem cache_total {m : CostModel R} {c : CTree} {t : PTree} {k : CostCache R} (hwf : WellFormed c.tree t)
    (k1 : ∀ p ∈ t.leaves, k.partialCost p = 0 ∧ k.contractionCost p = 0)
    (k2 : t.All fun p a b => k.contractionCost p = m.get (c.inds a ∪ c.inds b)) (k3 : t.All (PartInv k.contractionCost k.partialCost)) :
    k.partialCost (c.tree.size - 1) = treeCost m.get c.inds t := by
  rw [← hwf.root, part_sum k3 fun p hp => ⟨(k1 p hp).2, (k1 p hp).1⟩]
  clear k3 hwf
  induction t with
  | leaf p => simpa [postorder, treeCost] using (k1 p (by simp [leaves])).2
  | node p l r ihl ihr =>
    obtain ⟨h1, h2, h3⟩ := k2
    simp only [postorder, treeCost, List.map_append, List.sum_append, List.map_cons, List.map_nil, List.sum_cons, List.sum_nil, add_zero]
    rw [ihl (fun p hp => k1 p (by simp [leaves, hp])) h2, ihr (fun p hp => k1 p (by simp [leaves, hp])) h3, h1]
    abel

/-- The constructor accepts valid trees with positive costs. -/
theorem infMake_ok {m : CostModel R} {c : CTree} {t : PTree} {seed : σ} (hwf : WellFormed c.tree t) (hv : c.isValid true = true)
    (hcost : 0 < treeCost m.get c.inds t) : ∃ o, InfOpt.make m c seed false none = some (.ok o) := by
  obtain ⟨hd, hloc, hsh⟩ := (ctree_isValid_iff hwf _).1 hv
  obtain ⟨k, hk, k1, k2, k3⟩ := costCache_make (m := m) hwf hloc (fuel := c.fuel) (le_refl _)
  have hg := getCost_eq (m := m) hwf hloc (fuel := c.fuel) (le_refl _)
  have htot := cache_total hwf k1 k2 k3
  unfold InfOpt.make InfOpt.makeWith
  simp only [Option.getD_none, Bool.not_false, hv, hk, hg, bind, pure, Option.bind_some, Bool.not_true, Bool.or_self,
    Bool.false_eq_true, if_false]
  rw [if_neg]
  · exact ⟨_, rfl⟩
  · unfold InfOpt.totalCost
    simp only [htot]
    push Not
    exact ⟨hcost, hcost⟩

end

variable {ι τ σ P V : Type} [DecidableEq ι] [LinearOrder P]

/-- Positive costs. -/
def PyCM.Ok (cm : PyCM ι) : Prop := cm.sparse.getD ∅ ≠ ∅ → 0 < (cm.nProjs.getD 0).toNat

theorem pyCM_make_ok {sparse : Option (Finset ι)} {nProjs : Option ℤ} {cm : PyCM ι} (h : PyCM.make sparse nProjs = .ok cm) :
    cm = ⟨sparse, nProjs⟩ ∧ cm.Ok := by
  unfold PyCM.make at h
  cases nProjs with
  | none =>
    simp only [Bool.false_eq_true, if_false, ne_eq, not_true, and_false, and_true] at h
    split at h
    · cases h
    next h3 =>
    cases h
    exact ⟨rfl, fun h => (h3 h).elim⟩
  | some n =>
    simp only [decide_eq_true_eq, reduceCtorEq, and_false, if_false] at h
    split at h
    · cases h
    next h1 =>
    split at h
    · cases h
    cases h
    refine ⟨rfl, fun _ => ?_⟩
    simp only [Option.getD_some]
    omega

theorem nameCost_pos {d : ι → ℕ} {sparse : Finset ι} {n : ℕ} {s : Finset ι} (hn : sparse ≠ ∅ → 0 < n) (hd : ∀ x ∈ s, 0 < d x) :
    0 < nameCost d sparse n s := by
  unfold nameCost
  split
  · exact_mod_cast Finset.prod_pos hd
  next h =>
  have h1 : 0 < ∏ x ∈ s \ sparse, d x := Finset.prod_pos fun x hx => hd x (Finset.mem_sdiff.1 hx).1
  have h2 : 0 < ∏ x ∈ s ∩ sparse, d x := Finset.prod_pos fun x hx => hd x (Finset.mem_inter.1 hx).1
  have := hn h
  exact_mod_cast Nat.mul_pos h1 (Nat.lt_min.2 ⟨h2, this⟩)

theorem runN_inf (E : SaEnv ι τ σ P V) (N : NetworkRec ι) (cm : PyCM ι) (bs : List ℚ) : ∀ (n : ℕ) (o : PyInf ι σ ℤ × CostModel ℤ),
    (infAnneal E N cm).runN n bs o =
      (o.1.core.run E.prng.toPrng o.2 (bs.map E.prob)).map fun c => .ok (⟨c, o.1.cache⟩, o.2) := by
  induction bs with
  | nil => intro n o; rfl
  | cons b bs ih =>
    intro n o
    simp only [Anneal.runN, infAnnealWith, List.map_cons, InfOpt.run]
    cases h : o.1.core.update E.prng.toPrng o.2 (E.prob b) with
    | none => rfl
    | some c =>
      simp only [Option.map_some, Option.bind_some]
      exact ih (n + 1) (⟨c, o.1.cache⟩, o.2)

/-- What is true of the result for one path. -/
structure PartOk (cost : Finset ι → ℤ) (tsInds : List (List ι)) (out extra : Finset ι) (p : List (ℕ × ℕ)) (c : ℤ) (path : List (ℕ × ℕ)) : Prop where
  single : ∃ F u, replay (initTerms tsInds.length) path = some F ∧ F.filter Term.isPair = [u]
  touches : ∀ k, Touches tsInds.length path k ↔ Touches tsInds.length p k
  cost : c = pathCost cost tsInds out extra path

theorem inf_pos {N : NetworkRec ι} {cm : PyCM ι} (hN : N.Plain) (hcm : cm.Ok) {pt : PyTree ι} (hc : Component N.tsInds N.output pt)
    (hd : ∀ (j : ℕ) x, pt.indsOrder[j]? = some x → N.dim x = pt.core.dims.get j)
    (hmem : ∀ x ∈ pt.indsOrder, ∃ k, x ∈ N.tsInds.getD k []) {m : CostModel ℤ}
    (hm : cm.core pt.indsOrder pt.core.dims = .ok m) {s : ISet} (hs : s ⊆ Finset.range pt.core.nInds) : 0 < m.get s := by
  rw [hc.nInds] at hs
  rw [core_get hm hc.order hd hs]
  refine nameCost_pos hcm fun x hx => ?_
  obtain ⟨j, -, hj⟩ := mem_nameSet.1 hx
  obtain ⟨k, hk⟩ := hmem x (List.mem_of_getElem? hj)
  have hkl : k < N.tsInds.length := by
    by_contra h
    rw [List.getD_eq_default _ _ (by omega)] at hk; cases hk
  rw [List.getD_eq_getElem _ _ hkl] at hk
  obtain ⟨d, hd0, hd⟩ := hN.dims _ (List.getElem_mem hkl) x hk
  simp only [NetworkRec.dim, hd, Option.getD_some]
  omega

theorem part_size {pt : PyTree ι} {T : PTree} {F : List Term} {u : Term}
    (ho : Over pt pt.core T) (hu : F.filter Term.isPair = [u]) (hTu : (T.toTerm fun q => pt.tensorsPos.getD q 0) = u) :
    pt.core.tree.size ≠ 1 := by
  intro h1
  cases T with
  | leaf q =>
    have : u ∈ F.filter Term.isPair := by rw [hu]; simp
    have := (List.mem_filter.1 this).2
    rw [← hTu] at this
    simp [toTerm, Term.isPair] at this
  | node q l r =>
    have h2 := (ho.wf.mem q).1 (by simp [postorder])
    have h3 := (ho.wf.mem l.root).1 (by simp [postorder, root_mem])
    have h4 := ho.wf.nodup
    simp only [postorder] at h4
    have := (List.nodup_append.1 h4).2.2 l.root (by simp [root_mem]) q (by simp)
    omega

/-- The constructor succeeds. -/
theorem inf_make (E : SaEnv ι τ σ P V) {N : NetworkRec ι} {cm : PyCM ι} (hN : N.Plain) (he : EnumOk E.enum) (hcm : cm.Ok)
    {paths : List (List (ℕ × ℕ))} (hP : PartPaths N.tsInds paths) {p : List (ℕ × ℕ)} (hp : p ∈ paths) (hne : p ≠ [])
    (hsp : ∀ x ∈ cm.sparse.getD ∅, ∃ k, Touches N.tsInds.length p k ∧ x ∈ N.tsInds.getD k []) (seed : ℕ) :
    ∃ o, (infAnneal E N cm).make seed p = some (.ok o) := by
  obtain ⟨pt, T, F, u, hpt, hc, ho, hti, hv, hd, hF, hu, hTu, htch, hord⟩ := part_tree hN he hP hp hne
  obtain ⟨m, hm⟩ : ∃ m, cm.core pt.indsOrder pt.core.dims = .ok m := by
    unfold PyCM.core
    simp only
    split
    · exact ⟨_, rfl⟩
    next h0 =>
    rw [if_neg]
    · unfold sparseModel
      rw [if_neg (by have := hcm h0; omega)]
      exact ⟨_, rfl⟩
    · push Not
      intro x hx
      rw [List.mem_toFinset, hord]
      exact hsp x hx
  simp only [infAnnealWith, hpt, hm, PyInf.make, Option.map_none]
  obtain ⟨o, ho'⟩ := infMake_ok (seed := E.prngSeed seed) ho.wf hv (treeCost_pos (n := pt.core.nInds)
    (fun s hs => inf_pos hN hcm hc hd (fun x hx => (hord x).1 hx |>.imp fun k h => h.2) hm hs) (fun q => hti.clean.inds_lt q) ho.wf (part_size ho hu hTu))
  rw [ho']
  exact ⟨_, rfl⟩

theorem Term.same_rfl (a : Term) : a.Same a := by
  induction a with
  | tensor i => exact .tensor i
  | pair a b h1 h2 => exact .pair h1 h2

theorem over_cost {N : NetworkRec ι} {cm : PyCM ι} {pt : PyTree ι} (hc : Component N.tsInds N.output pt)
    (hd : ∀ (j : ℕ) x, pt.indsOrder[j]? = some x → N.dim x = pt.core.dims.get j) {m : CostModel ℤ}
    (hm : cm.core pt.indsOrder pt.core.dims = .ok m) {c : CTree} {T : PTree} (ho : Over pt c T)
    (hin : ∀ p, c.inds p ⊆ Finset.range pt.indsOrder.length) {S : ISet} (hS : S ⊆ Finset.range pt.indsOrder.length)
    {path : List (ℕ × ℕ)} {F : List Term} {u : Term} (hF : replay (initTerms N.tsInds.length) path = some F)
    (hu : F.filter Term.isPair = [u]) (hs : u.Same (T.toTerm fun p => pt.tensorsPos.getD p 0)) :
    treeCost (fun X => m.get (X ∪ S)) c.inds T = pathCost (N.cost cm) N.tsInds N.output (nameSet pt.indsOrder S) path := by
  rw [pathCost_single hF hu, total_same (fun h => pairCost_same h) hs]
  exact hc.treeCost ho hin hS fun s hs => core_get hm hc.order hd hs

/-- What comes out for a path, after any number of updates. -/
theorem inf_part (E : SaEnv ι τ σ P V) {N : NetworkRec ι} {cm : PyCM ι} (hN : N.Plain) (he : EnumOk E.enum) (hcm : cm.Ok)
    {paths : List (List (ℕ × ℕ))} (hP : PartPaths N.tsInds paths) {p : List (ℕ × ℕ)} (hp : p ∈ paths) (hne : p ≠ []) {seed : ℕ}
    {o : PyInf ι σ ℤ × CostModel ℤ} (hmk : (infAnneal E N cm).make seed p = some (.ok o)) (n : ℕ) (bs : List ℚ) :
    ∃ o' k, (infAnneal E N cm).runN n bs o = some (.ok o') ∧ (infAnneal E N cm).finish o' = some (.ok k) ∧
      PartOk (N.cost cm) N.tsInds N.output ∅ p k.cost k.path ∧ k.cost ≤ pathCost (N.cost cm) N.tsInds N.output ∅ p := by
  obtain ⟨pt, T, F, u, hpt, hc, ho, hti, hv, hd, hF, hu, hTu, htch, hord⟩ := part_tree hN he hP hp hne
  simp only [infAnnealWith, hpt] at hmk
  split at hmk
  · cases hmk
  next m hm =>
  unfold PyInf.make at hmk
  simp only [Option.map_none] at hmk
  cases hoc : InfOpt.make m pt.core (E.prngSeed seed) false none with
  | none => rw [hoc] at hmk; simp [ShipErr.toPy] at hmk
  | some r =>
  cases r with
  | error e => rw [hoc] at hmk; simp [ShipErr.toPy] at hmk
  | ok oc =>
  rw [hoc] at hmk
  simp only [Option.some.injEq, Except.ok.injEq] at hmk
  subst hmk
  have hpos := fun s hs => inf_pos hN hcm hc hd (fun x hx => (hord x).1 hx |>.imp fun k h => h.2) hm (s := s) hs
  have hsz := make_size ho.wf hoc
  -- any history
  have key : ∀ qs o1, oc.run E.prng.toPrng m qs = some o1 → ∃ T1, Over pt o1.ctree T1 ∧ o1.ctree.Tidy pt.indsOrder ∧
      o1.ctree.isValid false = true ∧ o1.ctree.dims = pt.core.dims ∧ o1.totalCost = treeCost m.get o1.ctree.inds T1 := by
    intro qs o1 h1
    obtain ⟨-, ti, -, -, hvf, hdm, -, -⟩ := inf_state hti ho.wf ho.exact hpos hoc h1
    obtain ⟨o1', T1, h1', wf, sz, lf, -, -, ex, -⟩ := C13_update_keeps_tree E.prng.toPrng m pt.core (E.prngSeed seed) false none T _ oc qs
      ho.wf ho.exact hoc
    rw [h1] at h1'; cases h1'
    exact ⟨T1, ⟨wf, sz, lf, ex⟩, ti, hvf, hdm,
      (C14_total_cost_exact E.prng.toPrng m pt.core (E.prngSeed seed) false none oc o1 qs ⟨T, ho.wf⟩ hoc h1).1 T1 wf⟩
  obtain ⟨o', -, hrun, -⟩ := C13_update_keeps_tree E.prng.toPrng m pt.core (E.prngSeed seed) false none T _ oc (bs.map E.prob)
    ho.wf ho.exact hoc
  obtain ⟨hmin, hmt, hle⟩ := C15_min_is_best E.prng.toPrng m pt.core (E.prngSeed seed) false none oc o' _ ⟨T, ho.wf⟩ hoc hrun
  obtain ⟨qs, o1, hq, hmo⟩ : ∃ qs o1, oc.run E.prng.toPrng m qs = some o1 ∧ o'.minCtree = o1.ctree := by
    rcases hmin with h | ⟨p1, p2, o1, -, -, h1, h2⟩
    · refine ⟨[], oc, rfl, ?_⟩
      rw [h, (make_inv ho.wf hoc (out? := none) (by simp)).2.1]; rfl
    · exact ⟨p1, o1, h1, h2⟩
  obtain ⟨T1, ho1, ht1, hv1, hd1, hc1⟩ := key qs o1 hq
  have hmt1 : o'.minTotal = o1.totalCost := by
    have h1 := (C14_total_cost_exact E.prng.toPrng m pt.core (E.prngSeed seed) false none oc o1 qs ⟨T, ho.wf⟩ hoc hq).2.1
    rw [hmo, h1] at hmt
    exact (Option.some.inj hmt).symm
  obtain ⟨path, F', u', hpath, hF', hu', hsame, htch'⟩ := part_path hc ho1 (by rw [ho1.size]; exact hsz)
  have hct : getCtree pt.cache o'.minCtree = .ok ⟨o1.ctree, pt.nTensors, pt.tensorsPos, pt.indsOrder⟩ := by
    rw [hmo]
    obtain ⟨names, hn1, hn2, hn3⟩ := names_mapM (c := o1.ctree) (order := pt.indsOrder) ht1.len
    have h2 := ofNodes_tidy ht1 hv1 ho1.wf.linked.pos names pt.nTensors pt.tensorsPos hn2 hn3
    unfold getCtree
    simp only [PyTree.cache, hn1]
    rw [hd1] at h2
    exact h2
  have hlen : pt.core.nInds = pt.indsOrder.length := hc.nInds
  have hcost : o'.minTotal = pathCost (N.cost cm) N.tsInds N.output ∅ path := by
    have := over_cost hc hd hm ho1 (S := ∅) (fun q => by rw [ht1.len]; exact ht1.clean.inds_lt q) (by simp) hF' hu' hsame
    simp only [Finset.union_empty] at this
    rw [hmt1, hc1, this]
    simp [nameSet]
  have hini : oc.totalCost = pathCost (N.cost cm) N.tsInds N.output ∅ p := by
    have := over_cost hc hd hm ho (S := ∅) (fun q => by rw [hti.len]; exact hti.clean.inds_lt q) (by simp) hF hu (hTu ▸ Term.same_rfl u)
    simp only [Finset.union_empty] at this
    have e := (C14_total_cost_exact E.prng.toPrng m pt.core (E.prngSeed seed) false none oc oc [] ⟨T, ho.wf⟩ hoc rfl).1 T
      (by rw [(make_inv ho.wf hoc (out? := none) (by simp)).2.1]; exact ho.wf)
    rw [e, (make_inv ho.wf hoc (out? := none) (by simp)).2.1]
    rw [this]
    simp [nameSet]
  refine ⟨_, ⟨o'.minTotal, path⟩, by rw [runN_inf]; simp only; rw [hrun]; rfl, ?_, ⟨⟨F', u', hF', hu'⟩, fun k => ?_, hcost⟩, ?_⟩
  · simp only [infAnnealWith, hct, hpath, Option.map_some]; rfl
  · rw [htch', htch]
  · rw [← hini]
    exact (hle [] _ oc rfl rfl).2 (Or.inr rfl)

end TNCO
