import Verif.Spec.PathCost
import Verif.Props.Path
import Verif.Props.Cost
import Verif.Props.Pickle
import Verif.Lemmas.Trace
import Verif.Model.Anneal

/-! The cost of a tree with bit sets is the cost of its path with names. -/

namespace TNCO
open PTree
variable {ι : Type} [DecidableEq ι]

/-- The names of a set of positions. -/
def nameSet (order : List ι) (s : ISet) : Finset ι :=
  (((List.range order.length).filter (· ∈ s)).filterMap fun i => order[i]?).toFinset

theorem mem_nameSet {order : List ι} {s : ISet} {x : ι} : x ∈ nameSet order s ↔ ∃ i ∈ s, order[i]? = some x := by
  simp only [nameSet, List.mem_toFinset, List.mem_filterMap, List.mem_filter, List.mem_range, decide_eq_true_eq]
  constructor
  · rintro ⟨i, ⟨-, h⟩, h'⟩; exact ⟨i, h, h'⟩
  · rintro ⟨i, h, h'⟩; exact ⟨i, ⟨(List.getElem?_eq_some_iff.1 h').1, h⟩, h'⟩

theorem nameSet_inds (pt : PyTree ι) (h : pt.core.nInds = pt.indsOrder.length) (p : ℕ) :
    nameSet pt.indsOrder (pt.core.inds p) = pt.inds p := by
  unfold nameSet PyTree.inds
  rw [h]

theorem nameSet_union {order : List ι} (a b : ISet) : nameSet order (a ∪ b) = nameSet order a ∪ nameSet order b := by
  ext x
  simp only [mem_nameSet, Finset.mem_union, or_and_right, exists_or]

theorem nodup_getElem? {order : List ι} (h : order.Nodup) {i j : ℕ} {x : ι} (hi : order[i]? = some x) (hj : order[j]? = some x) : i = j := by
  obtain ⟨h1, rfl⟩ := List.getElem?_eq_some_iff.1 hi
  obtain ⟨h2, h3⟩ := List.getElem?_eq_some_iff.1 hj
  exact ((List.Nodup.getElem_inj_iff h).1 h3).symm

theorem nameSet_inter {order : List ι} (h : order.Nodup) (a b : ISet) : nameSet order (a ∩ b) = nameSet order a ∩ nameSet order b := by
  ext x
  simp only [mem_nameSet, Finset.mem_inter]
  constructor
  · rintro ⟨i, ⟨h1, h2⟩, h3⟩; exact ⟨⟨i, h1, h3⟩, i, h2, h3⟩
  · rintro ⟨⟨i, h1, h3⟩, j, h2, h4⟩
    have := nodup_getElem? h h3 h4
    subst this
    exact ⟨i, ⟨h1, h2⟩, h3⟩

theorem nameSet_sdiff {order : List ι} (h : order.Nodup) (a b : ISet) : nameSet order (a \ b) = nameSet order a \ nameSet order b := by
  ext x
  simp only [mem_nameSet, Finset.mem_sdiff]
  constructor
  · rintro ⟨i, ⟨h1, h2⟩, h3⟩
    refine ⟨⟨i, h1, h3⟩, ?_⟩
    rintro ⟨j, h4, h5⟩
    exact h2 (nodup_getElem? h h3 h5 ▸ h4)
  · rintro ⟨⟨i, h1, h3⟩, h4⟩
    exact ⟨i, ⟨h1, fun h5 => h4 ⟨i, h5, h3⟩⟩, h3⟩

theorem nameSet_image {order : List ι} {s : Finset ι} (h : s ⊆ order.toFinset) : nameSet order (s.image order.idxOf) = s := by
  ext x
  simp only [mem_nameSet, Finset.mem_image]
  constructor
  · rintro ⟨i, ⟨y, hy, rfl⟩, h'⟩
    rw [List.getElem?_idxOf (List.mem_toFinset.1 (h hy))] at h'
    cases h'; exact hy
  · intro hx
    exact ⟨_, ⟨x, hx, rfl⟩, List.getElem?_idxOf (List.mem_toFinset.1 (h hx))⟩

theorem nameSet_prod {order : List ι} (h : order.Nodup) {s : ISet} (hs : s ⊆ Finset.range order.length) {g : ℕ → ℕ} {d : ι → ℕ}
    (hg : ∀ (j : ℕ) x, order[j]? = some x → d x = g j) : ∏ i ∈ s, g i = ∏ x ∈ nameSet order s, d x := by
  have hlt : ∀ i ∈ s, i < order.length := fun i hi => Finset.mem_range.1 (hs hi)
  refine Finset.prod_bij (fun i hi => order[i]'(hlt i hi)) ?_ ?_ ?_ ?_
  · intro i hi; exact mem_nameSet.2 ⟨i, hi, List.getElem?_eq_getElem _⟩
  · intro i hi j hj e; exact (List.Nodup.getElem_inj_iff h).1 e
  · intro x hx
    obtain ⟨i, hi, h'⟩ := mem_nameSet.1 hx
    exact ⟨i, hi, (List.getElem?_eq_some_iff.1 h').2⟩
  · intro i hi; exact (hg i _ (List.getElem?_eq_getElem _)).symm

/-- The cost model of the app, by names. -/
theorem core_get {cm : PyCM ι} {order : List ι} {dims : Dims} {m : CostModel ℤ} (h : cm.core order dims = .ok m) (hnd : order.Nodup)
    {d : ι → ℕ} (hd : ∀ (j : ℕ) x, order[j]? = some x → d x = dims.get j) {s : ISet} (hs : s ⊆ Finset.range order.length) :
    m.get s = nameCost d (cm.sparse.getD ∅) (cm.nProjs.getD 0).toNat (nameSet order s) := by
  unfold PyCM.core at h
  unfold nameCost
  simp only at h
  split at h
  · next h0 =>
    cases h
    rw [if_pos h0]
    simp only [simpleModel, simpleGet_eq_prod, nameSet_prod hnd hs hd]
  · next h0 =>
    rw [if_neg h0]
    split at h
    · cases h
    next hsub =>
    rw [not_not] at hsub
    unfold sparseModel at h
    split at h
    · cases h
    · next m' hm =>
      cases h
      split at hm
      · cases hm
      cases hm
      simp only [sparseGet_eq, simpleGet_eq_prod]
      rw [nameSet_prod hnd (Finset.sdiff_subset.trans hs) hd, nameSet_prod hnd (Finset.inter_subset_left.trans hs) hd,
        nameSet_inter hnd, nameSet_sdiff hnd, nameSet_image hsub]

/-- What is known about the tree of a component `pt` of the network. -/
structure Component (tsInds : List (List ι)) (out : Finset ι) (pt : PyTree ι) : Prop where
  nTensors : pt.nTensors = tsInds.length
  len : pt.tensorsPos.length = (pt.core.tree.size + 1) / 2
  nodup : pt.tensorsPos.Nodup
  lt : ∀ p ∈ pt.tensorsPos, p < tsInds.length
  nInds : pt.core.nInds = pt.indsOrder.length
  order : pt.indsOrder.Nodup
  leaf : ∀ p < (pt.core.tree.size + 1) / 2, pt.inds p = (tsInds.getD (pt.tensorsPos.getD p 0) []).toFinset
  output : ∀ x, x ∈ pt.outputInds ↔ (x ∈ out ∧ ∃ p ∈ pt.tensorsPos, x ∈ tsInds.getD p []) ∨
    ∃ p ∈ pt.tensorsPos, x ∈ tsInds.getD p [] ∧ ∀ q ∈ pt.tensorsPos, x ∈ tsInds.getD q [] → q = p
  closed : ∀ p ∈ pt.tensorsPos, ∀ q x, x ∈ tsInds.getD p [] → x ∈ tsInds.getD q [] → q ∈ pt.tensorsPos

/-- A tree for the same tensors. -/
structure Over (pt : PyTree ι) (c : CTree) (T : PTree) : Prop where
  wf : WellFormed c.tree T
  size : c.tree.size = pt.core.tree.size
  leaf : ∀ p < (pt.core.tree.size + 1) / 2, c.inds p = pt.core.inds p
  exact : IndsExact c.inds (pt.core.inds (pt.core.tree.size - 1)) T

theorem toTerm_tensors (f : ℕ → ℕ) (t : PTree) : (t.toTerm f).tensors = t.leaves.map f := by
  induction t with
  | leaf p => rfl
  | node p l r ihl ihr => simp [toTerm, Term.tensors, leaves, ihl, ihr]

theorem Component.names {tsInds : List (List ι)} {out : Finset ι} {pt : PyTree ι} (hc : Component tsInds out pt) {c : CTree} {T : PTree}
    (ho : Over pt c T) {K : Ctx} {s : PTree} (hT : T = K.plug s) :
    nameSet pt.indsOrder (c.inds s.root) = termInds tsInds out (s.toTerm fun p => pt.tensorsPos.getD p 0) := by
  set f := fun p => pt.tensorsPos.getD p 0 with hf
  have hlv : ∀ p, p ∈ s.leaves ∨ p ∈ K.lvs ↔ p < pt.tensorsPos.length := by
    intro p
    rw [hc.len, ← ho.size, ← ho.wf.leaves p, hT, (Ctx.leaves_plug K s).mem_iff, List.mem_append]
  have hnd : (s.leaves ++ K.lvs).Nodup := by
    rw [← (Ctx.leaves_plug K s).nodup_iff, ← hT]; exact leaves_nodup ho.wf.nodup
  have hfmem : ∀ p < pt.tensorsPos.length, f p ∈ pt.tensorsPos := by
    intro p hp; simp only [hf]; rw [List.getD_eq_getElem _ _ hp]; exact List.getElem_mem _
  have hfinj : ∀ p < pt.tensorsPos.length, ∀ q < pt.tensorsPos.length, f p = f q → p = q := by
    intro p hp q hq e
    simp only [hf] at e
    rw [List.getD_eq_getElem _ _ hp, List.getD_eq_getElem _ _ hq] at e
    exact (List.Nodup.getElem_inj_iff hc.nodup).1 e
  have hfsur : ∀ q ∈ pt.tensorsPos, ∃ p < pt.tensorsPos.length, f p = q := by
    intro q hq
    obtain ⟨p, hp, rfl⟩ := List.getElem_of_mem hq
    exact ⟨p, hp, by simp only [hf]; rw [List.getD_eq_getElem _ _ hp]⟩
  -- names of leaves
  have hleaf : ∀ p < pt.tensorsPos.length, ∀ x i, pt.indsOrder[i]? = some x → (i ∈ c.inds p ↔ x ∈ tsInds.getD (f p) []) := by
    intro p hp x i hi
    rw [ho.leaf p (by rw [← hc.len]; exact hp)]
    have h1 := hc.leaf p (by rw [← hc.len]; exact hp)
    rw [← List.mem_toFinset, ← h1, ← nameSet_inds pt hc.nInds, mem_nameSet]
    constructor
    · intro h; exact ⟨i, h, hi⟩
    · rintro ⟨j, h, hj⟩; exact nodup_getElem? hc.order hi hj ▸ h
  have hname : ∀ p < pt.tensorsPos.length, ∀ x, x ∈ tsInds.getD (f p) [] → ∃ i : ℕ, pt.indsOrder[i]? = some x := by
    intro p hp x hx
    have h1 := hc.leaf p (by rw [← hc.len]; exact hp)
    rw [← List.mem_toFinset, ← h1, ← nameSet_inds pt hc.nInds, mem_nameSet] at hx
    obtain ⟨i, -, h⟩ := hx
    exact ⟨i, h⟩
  have hroot : ∀ x i, pt.indsOrder[i]? = some x → (i ∈ pt.core.inds (pt.core.tree.size - 1) ↔ x ∈ pt.outputInds) := by
    intro x i hi
    unfold PyTree.outputInds
    rw [← nameSet_inds pt hc.nInds, mem_nameSet]
    constructor
    · intro h; exact ⟨i, h, hi⟩
    · rintro ⟨j, h, hj⟩; exact nodup_getElem? hc.order hi hj ▸ h
  ext x
  rw [mem_nameSet]
  simp only [termInds, Finset.mem_filter, List.mem_toFinset, List.mem_flatMap, toTerm_tensors, Survives, List.mem_map]
  constructor
  · rintro ⟨i, hi, hix⟩
    obtain ⟨⟨p, hp, hip⟩, h2⟩ := (ho.exact K s hT i).1 hi
    have hpl := (hlv p).1 (Or.inl hp)
    have hxp := (hleaf p hpl x i hix).1 hip
    refine ⟨⟨f p, ⟨p, hp, rfl⟩, hxp⟩, ?_⟩
    rcases h2 with h2 | ⟨q, hq, hiq⟩
    · rcases (hc.output x).1 ((hroot x i hix).1 h2) with ⟨h3, -⟩ | ⟨p', h3, h4, h5⟩
      · exact Or.inl h3
      · right; right
        intro a ha b hb ⟨hxa, hxb⟩
        rw [h5 a (hc.closed p' h3 a x h4 hxa) hxa, h5 b (hc.closed p' h3 b x h4 hxb) hxb]
    · right; left
      have hql := (hlv q).1 (Or.inr hq)
      refine ⟨f q, hc.lt _ (hfmem q hql), ?_, (hleaf q hql x i hix).1 hiq⟩
      rintro ⟨p', hp', e⟩
      have := hfinj p' ((hlv p').1 (Or.inl hp')) q hql e
      subst this
      exact (List.nodup_append.1 hnd).2.2 p' hp' p' hq rfl
  · rintro ⟨⟨_, ⟨p, hp, rfl⟩, hxp⟩, h2⟩
    have hpl := (hlv p).1 (Or.inl hp)
    obtain ⟨i, hi⟩ := hname p hpl x hxp
    refine ⟨i, (ho.exact K s hT i).2 ⟨⟨p, hp, (hleaf p hpl x i hi).2 hxp⟩, ?_⟩, hi⟩
    rcases h2 with h2 | ⟨q, hq, hq2, hxq⟩ | h2
    · left
      exact (hroot x i hi).2 ((hc.output x).2 (Or.inl ⟨h2, f p, hfmem p hpl, hxp⟩))
    · right
      obtain ⟨q', hq', rfl⟩ := hfsur q (hc.closed (f p) (hfmem p hpl) q x hxp hxq)
      refine ⟨q', ?_, (hleaf q' hq' x i hi).2 hxq⟩
      rcases (hlv q').2 hq' with h | h
      · exact (hq2 ⟨q', h, rfl⟩).elim
      · exact h
    · left
      refine (hroot x i hi).2 ((hc.output x).2 (Or.inr ⟨f p, hfmem p hpl, hxp, fun q hq hxq => ?_⟩))
      exact h2 q (hc.lt q hq) (f p) (hc.lt _ (hfmem p hpl)) ⟨hxq, hxp⟩

/-- The cost of a tree is the cost of its bracketing. -/
theorem Component.treeCost {R : Type} [AddCommMonoid R] {tsInds : List (List ι)} {out : Finset ι} {pt : PyTree ι} (hc : Component tsInds out pt)
    {c : CTree} {T : PTree} (ho : Over pt c T) (hin : ∀ p, c.inds p ⊆ Finset.range pt.indsOrder.length)
    {g : ISet → R} {cost : Finset ι → R} {S : ISet} (hS : S ⊆ Finset.range pt.indsOrder.length)
    (hg : ∀ s, s ⊆ Finset.range pt.indsOrder.length → g s = cost (nameSet pt.indsOrder s)) :
    TNCO.treeCost (fun X => g (X ∪ S)) c.inds T =
      (T.toTerm fun p => pt.tensorsPos.getD p 0).total (pairCost cost tsInds out (nameSet pt.indsOrder S)) := by
  have key : ∀ (s : PTree) (K : Ctx), T = K.plug s → TNCO.treeCost (fun X => g (X ∪ S)) c.inds s =
      (s.toTerm fun p => pt.tensorsPos.getD p 0).total (pairCost cost tsInds out (nameSet pt.indsOrder S)) := by
    intro s
    induction s with
    | leaf p => intro K _; rfl
    | node p l r ihl ihr =>
      intro K hT
      have hl : T = (Ctx.frame true p r K).plug l ∨ T = (Ctx.frame false p r K).plug l := by
        simp only [Ctx.plug, fork]; simp [hT]
      have hr : T = (Ctx.frame true p l K).plug r ∨ T = (Ctx.frame false p l K).plug r := by
        simp only [Ctx.plug, fork]; simp [hT]
      obtain ⟨Kl, hl⟩ : ∃ K, T = Ctx.plug K l := by rcases hl with h | h <;> exact ⟨_, h⟩
      obtain ⟨Kr, hr⟩ : ∃ K, T = Ctx.plug K r := by rcases hr with h | h <;> exact ⟨_, h⟩
      simp only [TNCO.treeCost, toTerm, Term.total, ihl Kl hl, ihr Kr hr, pairCost]
      rw [hg _ (Finset.union_subset (Finset.union_subset (hin _) (hin _)) hS), nameSet_union, nameSet_union, hc.names ho hl, hc.names ho hr]
  exact key T .top rfl

theorem Term.Same.tensors {a b : Term} (h : a.Same b) : a.tensors.Perm b.tensors := by
  induction h with
  | tensor => exact .refl _
  | pair _ _ h1 h2 => exact h1.append h2
  | swap _ _ h1 h2 => exact (h1.append h2).trans List.perm_append_comm

theorem termInds_congr {tsInds : List (List ι)} {out : Finset ι} {a b : Term} (h : a.tensors.Perm b.tensors) :
    termInds tsInds out a = termInds tsInds out b := by
  ext x
  simp only [termInds, Finset.mem_filter, List.mem_toFinset, List.mem_flatMap, Survives, h.mem_iff]

theorem pairCost_same {R : Type} [Zero R] {cost : Finset ι → R} {tsInds : List (List ι)} {out extra : Finset ι} {a b : Term} (h : a.Same b) :
    pairCost cost tsInds out extra a = pairCost cost tsInds out extra b := by
  cases h with
  | tensor => rfl
  | pair h1 h2 => simp only [pairCost, termInds_congr h1.tensors, termInds_congr h2.tensors]
  | swap h1 h2 => simp only [pairCost, termInds_congr h1.tensors, termInds_congr h2.tensors, Finset.union_comm]

/-- The cost of a path that leaves one contracted tensor. -/
theorem pathCost_single {R : Type} [AddCommMonoid R] {cost : Finset ι → R} {tsInds : List (List ι)} {out extra : Finset ι} {path : List (ℕ × ℕ)}
    {F : List Term} {u : Term} (hF : replay (initTerms tsInds.length) path = some F) (hu : F.filter Term.isPair = [u]) :
    pathCost cost tsInds out extra path = u.total (pairCost cost tsInds out extra) := by
  unfold pathCost
  rw [← trace_total_init _ hF]
  have : ∀ F : List Term, (F.map (Term.total (pairCost cost tsInds out extra))).sum =
      ((F.filter Term.isPair).map (Term.total (pairCost cost tsInds out extra))).sum := by
    intro F
    induction F with
    | nil => rfl
    | cons a F ih =>
      cases a with
      | tensor i => simp [Term.isPair, Term.total, ih]
      | pair a b => rw [List.filter_cons_of_pos rfl, List.map_cons, List.sum_cons, List.map_cons, List.sum_cons, ih]
  rw [this, hu]
  simp

end TNCO
