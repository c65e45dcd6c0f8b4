import Verif.Lemmas.PathCore

/-! The constructor as a whole. -/

namespace TNCO
open PTree
variable {ι : Type} [DecidableEq ι]

/-- What is known about a tree built from a path; `out` are the requested outputs. -/
structure Built (n : ℕ) (c : List (ℕ × ℕ × ℕ)) (tsInds : List (List ι)) (dims : PyDims ι)
    (out : Finset ι) (t0 : PTree) (t : PTree) (pt : PyTree ι) : Prop where
  wf : WellFormed pt.core.tree t
  map : ∀ f, t.toTerm (fun p => f (pt.tensorsPos.getD p 0)) = t0.toTerm f
  pos : pt.tensorsPos = tensorsPosOf n c
  len : pt.tensorsPos.length = (pt.core.tree.size + 1) / 2
  leaf : ∀ p < (pt.core.tree.size + 1) / 2,
    pt.inds p = (tsInds.getD (pt.tensorsPos.getD p 0) []).toFinset
  exact : NamesExact pt.inds pt.outputInds t
  coreExact : IndsExact pt.core.inds (pt.core.inds (pt.core.tree.size - 1)) t
  output : ∀ x, x ∈ pt.outputInds ↔ x ∈ out ∨ ∃ p ∈ pt.tensorsPos, x ∈ tsInds.getD p [] ∧
    ∀ q ∈ pt.tensorsPos, x ∈ tsInds.getD q [] → q = p
  nInds : pt.core.nInds = pt.indsOrder.length
  nodup : pt.indsOrder.Nodup
  mem : ∀ x, x ∈ pt.indsOrder ↔ ∃ p ∈ pt.tensorsPos, x ∈ tsInds.getD p []
  dims : ∀ j x, pt.indsOrder[j]? = some x → dims.get? x = some (pt.core.dims.get j)

theorem mapM_some_iff {α β : Type} (f : α → Option β) (l : List α) (r : List β) :
    l.mapM f = some r ↔ r.length = l.length ∧ ∀ (i : ℕ) (h : i < l.length), r[i]? = f l[i] := by
  induction l generalizing r with
  | nil =>
    rw [List.mapM_nil]
    simp only [pure, Option.some.injEq]
    constructor
    · rintro rfl; simp
    · rintro ⟨h, -⟩; exact (List.length_eq_zero_iff.1 (by simpa using h)).symm
  | cons a l ih =>
    rw [List.mapM_cons]
    simp only [bind, pure, Option.bind_eq_some_iff, Option.some.injEq]
    constructor
    · rintro ⟨b, hb, r', hr', rfl⟩
      obtain ⟨h1, h2⟩ := (ih r').1 hr'
      refine ⟨by simp [h1], fun i hi => ?_⟩
      cases i with
      | zero => simp [hb]
      | succ i => simp only [List.getElem?_cons_succ, List.getElem_cons_succ]; exact h2 i (by simpa using hi)
    · rintro ⟨h1, h2⟩
      cases r with
      | nil => simp at h1
      | cons b r =>
        have h0 := h2 0 (by simp)
        rw [List.getElem?_cons_zero, List.getElem_cons_zero] at h0
        refine ⟨b, h0.symm, r, (ih r).2 ⟨by simpa using h1, fun i hi => ?_⟩, rfl⟩
        have hi' := h2 (i + 1) (by simpa using hi)
        rw [List.getElem?_cons_succ, List.getElem_cons_succ] at hi'
        exact hi'

theorem toList_some {dims : PyDims ι} {order : List ι} {ds : List ℕ}
    (h : dims.toList order = .ok ds) : ds.length = order.length ∧
      ∀ (j : ℕ) (x : ι), order[j]? = some x → ds[j]? = dims.get? x := by
  cases dims with
  | int d =>
    simp only [PyDims.toList, Except.ok.injEq] at h
    subst h
    refine ⟨by simp, fun j x hx => ?_⟩
    rw [List.getElem?_map, hx]; rfl
  | dict f =>
    simp only [PyDims.toList] at h
    split at h
    · simp at h
    next l hl =>
      simp only [Except.ok.injEq] at h
      subst h
      obtain ⟨h1, h2⟩ := (mapM_some_iff f order l).1 hl
      refine ⟨h1, fun j x hx => ?_⟩
      obtain ⟨hj, rfl⟩ := List.getElem?_eq_some_iff.1 hx
      rw [h2 j hj]; rfl

theorem count_used {tsInds : List (List ι)} (hts : ∀ l ∈ tsInds, l.Nodup) (SL : List ℕ) (x : ι) :
    (usedInds tsInds SL).count x =
      (SL.map PTree.leaf).countP (hasB (fun p => (tsInds.getD p []).toFinset) x) := by
  induction SL with
  | nil => rfl
  | cons p SL ih =>
    have e : (tsInds.getD p []).count x =
        if hasB (fun p => (tsInds.getD p []).toFinset) x (.leaf p) = true then 1 else 0 := by
      have hn : (tsInds.getD p []).Nodup := by
        by_cases hp : p < tsInds.length
        · rw [List.getD_eq_getElem _ _ hp]; exact hts _ (List.getElem_mem hp)
        · rw [List.getD_eq_default _ _ (by omega)]; simp
      have h1 := List.nodup_iff_count_le_one.1 hn x
      by_cases hx : x ∈ tsInds.getD p []
      · have := List.count_pos_iff.2 hx
        rw [if_pos (by rw [hasB_iff]; exact ⟨p, by simp [leaves], by simpa using hx⟩)]
        omega
      · rw [List.count_eq_zero_of_not_mem hx, if_neg]
        rw [hasB_iff]
        rintro ⟨q, hq, hxq⟩
        simp only [leaves, List.mem_singleton] at hq
        subst hq
        exact hx (by simpa using hxq)
    unfold usedInds at *
    rw [List.flatMap_cons, List.count_append, ih, e, List.map_cons, List.countP_cons]
    omega

theorem mem_used {tsInds : List (List ι)} {SL : List ℕ} {x : ι} :
    x ∈ usedInds tsInds SL ↔ ∃ p ∈ SL, x ∈ tsInds.getD p [] := by
  simp only [usedInds, List.mem_flatMap]

/-- Requested outputs together with indices of one tensor. -/
noncomputable def fullOut (tsInds : List (List ι)) (SL : List ℕ) (out : Finset ι) : Finset ι :=
  open Classical in out ∪ (usedInds tsInds SL).toFinset.filter fun x =>
    ∃ p ∈ SL, x ∈ tsInds.getD p [] ∧ ∀ q ∈ SL, x ∈ tsInds.getD q [] → q = p

theorem mem_fullOut {tsInds : List (List ι)} {SL : List ℕ} {out : Finset ι} {x : ι} :
    x ∈ fullOut tsInds SL out ↔ x ∈ out ∨ ∃ p ∈ SL, x ∈ tsInds.getD p [] ∧
      ∀ q ∈ SL, x ∈ tsInds.getD q [] → q = p := by
  classical
  simp only [fullOut, Finset.mem_union, Finset.mem_filter, List.mem_toFinset]
  refine or_congr_right (and_iff_right_of_imp ?_)
  rintro ⟨p, hp, hx, -⟩
  exact mem_used.2 ⟨p, hp, hx⟩

/-- The intermediate tensors are computed without a failed assertion. -/
theorem indsLoop_path {enum : Finset ι → List ι} (he : EnumOk enum) {tsInds : List (List ι)}
    (hts : ∀ l ∈ tsInds, l.Nodup) {c G} (hG : PathForest tsInds.length c G) (out : Finset ι) (check : Bool)
    (hout : ∀ x ∈ out, x ∈ usedInds tsInds (tensorsPosOf tsInds.length c)) :
    (indsLoop enum check c
        (addOutput (hyperCount (usedInds tsInds (tensorsPosOf tsInds.length c))) out) (fun p => tsInds[p]?) =
          .error .valueError ∧ check = true ∧ Unshared (fun p => (tsInds.getD p []).toFinset) G) ∨
    ∃ I, indsLoop enum check c
        (addOutput (hyperCount (usedInds tsInds (tensorsPosOf tsInds.length c))) out) (fun p => tsInds[p]?) =
          .ok I ∧
      (∀ t ∈ G, ∀ s, Sub s t → GoodI (fun p => (tsInds.getD p []).toFinset)
        (tensorsPosOf tsInds.length c)
        (fullOut tsInds (tensorsPosOf tsInds.length c) out) I s) ∧
      (∀ p < tsInds.length, I p = some (tsInds.getD p [])) ∧ (check = true → SharedAll I c) := by
  set SL := tensorsPosOf tsInds.length c with hSLdef
  have hn : (Run.labels G).Nodup := hG.labels.nodup_iff.2 (posList_nodup _ _)
  have hSL : (G.flatMap leaves).Perm SL := by
    have := hG.run.leaves_perm
    simpa [List.flatMap_map, leaves] using this
  have hlt : ∀ p ∈ SL, p < tsInds.length := fun p hp => (mem_tensorsPosOf.1 hp).2
  have hget : ∀ p < tsInds.length, tsInds[p]? = some (tsInds.getD p []) := by
    intro p hp
    rw [List.getD_eq_getElem _ _ hp, List.getElem?_eq_getElem hp]
  have hinv : IInv (fun p => (tsInds.getD p []).toFinset) SL out (fullOut tsInds SL out)
      (SL.map .leaf) (addOutput (hyperCount (usedInds tsInds SL)) out) (fun p => tsInds[p]?) := by
    refine ⟨?_, ?_⟩
    · intro t ht s hs
      obtain ⟨p, hp, rfl⟩ := List.mem_map.1 ht
      cases hs with
      | refl =>
        refine ⟨tsInds.getD p [], hget p (hlt p hp), fun x => ?_⟩
        simp only [leaves, List.mem_singleton, exists_eq_left, List.mem_toFinset]
        refine (and_iff_left_of_imp fun hx => ?_).symm
        by_cases h : ∃ q ∈ SL, q ≠ p ∧ x ∈ tsInds.getD q []
        · exact Or.inr h
        · push Not at h
          refine Or.inl (mem_fullOut.2 (Or.inr ⟨p, hp, hx, fun q hq hxq => ?_⟩))
          by_contra hne
          exact h q hq hne hxq
    · intro x _
      unfold addOutput hyperCount
      rw [count_used hts]
      split <;> omega
  rcases indsLoop_spec he (out := out) (out' := fullOut tsInds SL out) check
    (fun x => by rw [mem_fullOut]; simp only [List.mem_toFinset]) hG.run hn hSL _ _ hinv with h | ⟨I, hc', h1, h2, h3, h4⟩
  · exact Or.inl h
  · refine Or.inr ⟨I, h1, h2.good, fun p hp => ?_, h4⟩
    rw [h3 p, hget p hp]
    rw [hG.third]
    simp; omega

theorem posList_getD_idxOf {n : ℕ} {c} {p : ℕ} (hp : p ∈ posList n c) :
    (posList n c).getD ((posList n c).idxOf p) 0 = p := by
  rw [List.getD_eq_getElem _ _ (List.idxOf_lt_length_of_mem hp)]
  exact List.getElem_idxOf _

theorem posList_idxOf_getD {n : ℕ} {c} {j : ℕ} (hj : j < (posList n c).length) :
    (posList n c).idxOf ((posList n c).getD j 0) = j := by
  rw [List.getD_eq_getElem _ _ hj]
  exact (posList_nodup n c).idxOf_getElem j hj

theorem Run.all {Q : ℕ → ℕ → ℕ → Prop} {F c F'} (h : Run F c F') (hF : ∀ t ∈ F, t.All Q)
    (hc : ∀ t ∈ c, Q t.2.2 t.1 t.2.1) : ∀ t ∈ F', t.All Q := by
  induction h with
  | nil h => exact fun t ht => hF t (h.mem_iff.2 ht)
  | @cons F a b rest z c F' h _ ih =>
    refine ih (fun t ht => ?_) (fun t ht => hc t (by simp [ht]))
    rcases List.mem_cons.1 ht with rfl | ht
    · exact ⟨hc _ (List.mem_cons_self ..), hF a (h.mem_iff.2 (by simp)), hF b (h.mem_iff.2 (by simp))⟩
    · exact hF t (h.mem_iff.2 (by simp [ht]))

theorem all_mapP {Q : ℕ → ℕ → ℕ → Prop} (f : ℕ → ℕ) (t : PTree) :
    (t.mapP f).All Q ↔ t.All fun p a b => Q (f p) (f a) (f b) := by
  induction t with
  | leaf p => exact Iff.rfl
  | node p l r ihl ihr => simp only [mapP, PTree.All, root_mapP, ihl, ihr]

/-- The core tree that the constructor is about to validate. -/
def rawCore (n : ℕ) (c : List (ℕ × ℕ × ℕ)) (ts : List (List ι)) (ds : List ℕ) : CTree :=
  ⟨Tree.ofList (buildNodes (posList n c) c),
    maxInds (ts.map fun xs => xs.map fun x => (uniqueEverseen ts.flatten).idxOf x),
    fun p => ((ts.map fun xs => xs.map fun x => (uniqueEverseen ts.flatten).idxOf x).getD p []).toFinset,
    (Dims.vec ds).collapse⟩

theorem built {tsInds : List (List ι)} {c : List (ℕ × ℕ × ℕ)} (hc : c ≠ []) {t0 : PTree}
    (hG : PathForest tsInds.length c [t0]) {dims : PyDims ι} {out : Finset ι} {I : ℕ → Option (List ι)}
    {check : Bool} {ts : List (List ι)} {ds : List ℕ}
    (hgood : ∀ s, Sub s t0 → GoodI (fun p => (tsInds.getD p []).toFinset)
        (tensorsPosOf tsInds.length c) (fullOut tsInds (tensorsPosOf tsInds.length c) out) I s)
    (hleaf : ∀ p < tsInds.length, I p = some (tsInds.getD p []))
    (hout : ∀ x ∈ out, x ∈ usedInds tsInds (tensorsPosOf tsInds.length c))
    (hsh : check = true → SharedAll I c)
    (hmap : (posList tsInds.length c).mapM I = some ts)
    (hds : dims.toList (uniqueEverseen ts.flatten) = .ok ds) :
    Built tsInds.length c tsInds dims out t0
      (t0.mapP fun x => (posList tsInds.length c).idxOf x)
      ⟨rawCore tsInds.length c ts ds, tsInds.length, tensorsPosOf tsInds.length c, uniqueEverseen ts.flatten⟩ ∧
    ((rawCore tsInds.length c ts ds).isValid check = true ↔ ∀ d ∈ ds, d ≠ 0) := by
  set n := tsInds.length
  set SL := tensorsPosOf n c with hSLdef
  set order := uniqueEverseen ts.flatten with horder
  set t := t0.mapP fun x => (posList n c).idxOf x with ht
  set core := rawCore n c ts ds with hcore
  set σ : ℕ → ℕ := fun j => (posList n c).getD j 0 with hσ
  obtain ⟨hwf, hlen, -⟩ := hG.wellFormed hc
  rw [← ht, ← hSLdef] at *
  have hsize : (Tree.ofList (buildNodes (posList n c) c)).size = (posList n c).length := hG.size hc
  obtain ⟨hts1, hts2⟩ := (mapM_some_iff _ _ _).1 hmap
  obtain ⟨hds1, hds2⟩ := toList_some hds
  have hmemt : ∀ p, p ∈ t.postorder ↔ p < (posList n c).length := by
    intro p; rw [hwf.mem, hsize]
  have hlab0 : ∀ x ∈ t0.postorder, x ∈ posList n c := by
    intro x hx
    exact hG.labels.mem_iff.1 (by simpa [Run.labels] using hx)
  have htσ : t.mapP σ = t0 := by
    rw [ht, mapP_mapP]
    conv_rhs => rw [← mapP_id t0]
    exact mapP_congr fun p hp => posList_getD_idxOf (hlab0 p hp)
  have hSL0 : t0.leaves.Perm SL := by
    have := hG.run.leaves_perm
    simpa [List.flatMap_map, leaves] using this
  have hσinj : ∀ p ∈ t.postorder, ∀ q ∈ t.postorder, σ p = σ q → p = q := by
    intro p hp q hq e
    have h1 := posList_idxOf_getD ((hmemt p).1 hp)
    have h2 := posList_idxOf_getD ((hmemt q).1 hq)
    rw [← h1, ← h2]
    exact congrArg (fun z => (posList n c).idxOf z) e
  have hIts : ∀ p < (posList n c).length, I (σ p) = some (ts.getD p []) := by
    intro p hp
    have := hts2 p hp
    rw [hσ]
    simp only [List.getD_eq_getElem _ _ hp]
    rw [← this, List.getD_eq_getElem _ _ (by omega), List.getElem?_eq_getElem]
  have hσleaf : ∀ p < SL.length, σ p = SL.getD p 0 ∧ SL.getD p 0 < n ∧ SL.getD p 0 ∈ SL := by
    intro p hp
    have h1 : σ p = SL.getD p 0 := by
      rw [hσ]; simp only [posList]
      rw [List.getD_append _ _ _ _ hp]
    have h2 : SL.getD p 0 ∈ SL := by
      rw [List.getD_eq_getElem _ _ hp]; exact List.getElem_mem hp
    exact ⟨h1, (mem_tensorsPosOf.1 h2).2, h2⟩
  have hlt : SL.length ≤ (posList n c).length := by
    show (tensorsPosOf n c).length ≤ _
    simp [posList]
  have hmapget : ∀ p < ts.length,
      (ts.map fun xs => xs.map fun x => order.idxOf x).getD p [] = (ts.getD p []).map fun x => order.idxOf x := by
    intro p hp
    rw [List.getD_eq_getElem _ _ (by simpa using hp), List.getElem_map, List.getD_eq_getElem _ _ hp]
  have hcinds : ∀ p < ts.length, core.inds p = ((ts.getD p []).toFinset).image fun x => order.idxOf x := by
    intro p hp
    show ((ts.map fun xs => xs.map fun x => order.idxOf x).getD p []).toFinset = _
    rw [hmapget p hp]
    ext i; simp
  have hmemo : ∀ p < ts.length, ∀ x ∈ ts.getD p [], x ∈ order := by
    intro p hp x hx
    rw [List.getD_eq_getElem _ _ hp] at hx
    exact mem_uniqueEverseen.2 (List.mem_flatten.2 ⟨_, List.getElem_mem hp, hx⟩)
  have hnInds : core.nInds = order.length := maxInds_order ts
  set pt : PyTree ι := ⟨core, n, SL, order⟩ with hpt
  have hinds : ∀ p < ts.length, pt.inds p = (ts.getD p []).toFinset := by
    intro p hp
    ext x
    simp only [PyTree.inds, List.mem_toFinset, List.mem_filterMap, List.mem_filter, List.mem_range,
      decide_eq_true_eq]
    show (∃ i, (i < core.nInds ∧ i ∈ core.inds p) ∧ order[i]? = some x) ↔ _
    rw [hnInds, hcinds p hp]
    simp only [Finset.mem_image, List.mem_toFinset]
    constructor
    · rintro ⟨i, ⟨-, y, hy, rfl⟩, hx⟩
      rw [List.getElem?_idxOf (hmemo p hp y hy), Option.some.injEq] at hx
      exact hx ▸ hy
    · intro hx
      exact ⟨order.idxOf x, ⟨List.idxOf_lt_length_of_mem (hmemo p hp x hx), x, hx, rfl⟩,
        List.getElem?_idxOf (hmemo p hp x hx)⟩
  have hindsLeaf : ∀ p < SL.length, pt.inds p = (tsInds.getD (SL.getD p 0) []).toFinset := by
    intro p hp
    have h1 := hIts p (by omega)
    rw [(hσleaf p hp).1, hleaf _ (hσleaf p hp).2.1, Option.some.injEq] at h1
    rw [hinds p (by omega), h1]
  have hleaves : ∀ p, p ∈ t.leaves ↔ p < SL.length := by
    intro p; rw [hwf.leaves, hlen]
  have hex : NamesExact pt.inds (fullOut tsInds SL out) t := by
    refine namesExact_of_good (I := I) (σ := σ) (Lf := fun p => (tsInds.getD p []).toFinset)
      hwf.nodup hσinj (by rw [htσ]; exact hgood) (by rw [htσ]; exact hSL0) ?_ ?_
    · intro p hp
      have hp' := (hmemt p).1 hp
      exact ⟨_, hIts p hp', hinds p (by omega)⟩
    · intro p hp
      have hp' := (hleaves p).1 hp
      rw [hindsLeaf p hp', (hσleaf p hp').1]
  have hroot : t.root = core.tree.size - 1 := hwf.root
  have hfull : ∀ x ∈ fullOut tsInds SL out, ∃ p ∈ t.leaves, x ∈ pt.inds p := by
    intro x hx
    have : x ∈ usedInds tsInds SL := by
      rcases mem_fullOut.1 hx with h | ⟨p, hp, h, -⟩
      · exact hout x h
      · exact mem_used.2 ⟨p, hp, h⟩
    obtain ⟨q, hq, hxq⟩ := mem_used.1 this
    have hj := List.idxOf_lt_length_of_mem hq
    refine ⟨SL.idxOf q, (hleaves _).2 hj, ?_⟩
    rw [hindsLeaf _ hj, List.mem_toFinset, List.getD_eq_getElem SL _ hj, List.getElem_idxOf]
    exact hxq
  have houtEq : pt.outputInds = fullOut tsInds SL out := by
    ext x
    show x ∈ pt.inds (core.tree.size - 1) ↔ _
    rw [← hroot, hex .top t rfl x]
    simp only [Ctx.lvs, List.not_mem_nil, false_and, exists_false, or_false]
    exact and_iff_right_of_imp (hfull x)
  have hcoreEx : IndsExact core.inds ((fullOut tsInds SL out).image fun x => order.idxOf x) t := by
    refine indsExact_of_names hex ?_ ?_ ?_
    · intro x hx
      obtain ⟨p, hp, hxp⟩ := hfull x hx
      have hp' : p < ts.length := by have := (hleaves p).1 hp; omega
      rw [hinds p hp', List.mem_toFinset] at hxp
      exact hmemo p hp' x hxp
    · intro p hp x hx
      have hp' : p < ts.length := by have := (hmemt p).1 hp; omega
      rw [hinds p hp', List.mem_toFinset] at hx
      exact hmemo p hp' x hx
    · intro p hp
      have hp' : p < ts.length := by have := (hmemt p).1 hp; omega
      rw [hcinds p hp', hinds p hp']
  have hrootmem : t.root < ts.length := by
    have := (hmemt _).1 t.root_mem; omega
  have hcoreOut : core.inds (core.tree.size - 1) = (fullOut tsInds SL out).image fun x => order.idxOf x := by
    rw [← hroot, hcinds _ hrootmem, ← hinds _ hrootmem, hroot]
    exact congrArg (Finset.image _) houtEq
  refine ⟨⟨hwf, ?_, rfl, hlen.symm, ?_, by rw [houtEq]; exact hex, ?_, ?_, hnInds, uniqueEverseen_nodup _, ?_, ?_⟩, ?_⟩
  · intro f
    have e := toTerm_mapP f σ t
    rw [htσ] at e
    rw [e]
    refine toTerm_congr fun p hp => ?_
    show f (SL.getD p 0) = f (σ p)
    rw [(hσleaf p ((hleaves p).1 hp)).1]
  · intro p hp
    exact hindsLeaf p (by rw [← hlen]; exact hp)
  · show IndsExact core.inds (core.inds (core.tree.size - 1)) t
    rw [hcoreOut]; exact hcoreEx
  · intro x
    rw [houtEq, mem_fullOut]
  · intro x
    show x ∈ order ↔ ∃ p ∈ SL, x ∈ tsInds.getD p []
    constructor
    · intro hx
      obtain ⟨xs, hxs, hx⟩ := List.mem_flatten.1 (mem_uniqueEverseen.1 hx)
      obtain ⟨j, hj, rfl⟩ := List.getElem_of_mem hxs
      have hjt : j ∈ t.postorder := (hmemt j).2 (by omega)
      have hxj : x ∈ pt.inds j := by
        rw [hinds j hj, List.mem_toFinset, List.getD_eq_getElem _ _ hj]; exact hx
      obtain ⟨K, s, hKs, hsr⟩ := exists_plug hjt
      rw [← hsr] at hxj
      obtain ⟨⟨p, hp, hxp⟩, -⟩ := (hex K s hKs x).1 hxj
      have hpt : p ∈ t.leaves := by rw [hKs, (K.leaves_plug s).mem_iff]; simp [hp]
      have hp' := (hleaves p).1 hpt
      rw [hindsLeaf p hp', List.mem_toFinset] at hxp
      exact ⟨_, (hσleaf p hp').2.2, hxp⟩
    · rintro ⟨q, hq, hxq⟩
      have hj := List.idxOf_lt_length_of_mem hq
      have hjl : SL.idxOf q < ts.length := by omega
      have : x ∈ pt.inds (SL.idxOf q) := by
        rw [hindsLeaf _ hj, List.mem_toFinset, List.getD_eq_getElem SL _ hj, List.getElem_idxOf]
        exact hxq
      rw [hinds _ hjl, List.mem_toFinset] at this
      exact hmemo _ hjl x this
  · intro j x hx
    have h1 := hds2 j x hx
    obtain ⟨hj, -⟩ := List.getElem?_eq_some_iff.1 hx
    have hj' : j < ds.length := by rw [hds1]; exact hj
    rw [← h1, List.getElem?_eq_getElem hj']
    show some ds[j] = some ((Dims.vec ds).collapse.get j)
    rw [dims_get_collapse ds j hj']
  · have hwf' : WellFormed core.tree t := hwf
    rw [ctree_isValid_iff hwf' check]
    have h1 : core.dims.ok core.nInds = true ↔ ∀ d ∈ ds, d ≠ 0 :=
      dims_ok_collapse ds core.nInds (by rw [hds1, hnInds])
    rw [h1]
    refine and_iff_left ⟨sem_loc (indsExact_iff.1 hcoreEx), fun hck => ?_⟩
    rw [ht, all_mapP]
    have hall := hG.run.all (Q := fun p a b => ∃ lx ly x, I a = some lx ∧ I b = some ly ∧ x ∈ lx ∧ x ∈ ly)
      (by
        intro u hu
        obtain ⟨p, -, rfl⟩ := List.mem_map.1 hu
        trivial)
      (fun u hu => hsh hck u hu) t0 (by simp)
    refine all_mono ?_ hall
    rintro p - a ha b hb ⟨lx, ly, x, h1, h2, hx, hy⟩
    have key : ∀ a ∈ t0.postorder, ∀ l, I a = some l → x ∈ l →
        order.idxOf x ∈ core.inds ((posList n c).idxOf a) := by
      intro a ha l hl hx
      have hp := List.idxOf_lt_length_of_mem (hlab0 a ha)
      have h3 := hIts _ hp
      have h4 : σ ((posList n c).idxOf a) = a := posList_getD_idxOf (hlab0 a ha)
      rw [h4, hl, Option.some.injEq] at h3
      rw [hcinds _ (by omega), ← h3]
      exact Finset.mem_image.2 ⟨x, by simpa using hx, rfl⟩
    exact ⟨order.idxOf x, Finset.mem_inter.2 ⟨key a ha lx h1 hx, key b hb ly h2 hy⟩⟩

end TNCO
