import Verif.Lemmas.TreeCheck
import Verif.Lemmas.PathOut
import Mathlib.Algebra.BigOperators.Group.List.Basic
import Mathlib.Order.Lattice

/-! The answer of `is_valid_contraction_tree`, all tests together. -/

namespace TNCO
open PTree

variable {ι : Type} [DecidableEq ι]

theorem Tree.same_refl (T : Tree) : T.same T = true := by simp [Tree.same]

theorem CTree.same_refl (c : CTree) : c.same c = true := by simp [CTree.same, Tree.same_refl]

theorem PyTree.same_refl (t : PyTree ι) : t.same t = true := by simp [PyTree.same, CTree.same_refl]

theorem same_swapped (t : PyTree ι) (h : (swapAll t.core.tree).size = t.core.tree.size) :
    ({ t with core := { t.core with tree := swapAll t.core.tree } } : PyTree ι).same t =
      (swapAll t.core.tree).same t.core.tree := by
  simp [PyTree.same, CTree.same]

theorem unpickle_tidy {enum : Finset ι → List ι} (he : EnumOk enum) {t : PyTree ι} (h : t.core.Tidy t.indsOrder)
    (hv : t.core.isValid false = true) (hs : 0 < t.core.tree.size) : t.unpickle enum = .ok t := by
  obtain ⟨names, h1, h2, h3⟩ := names_mapM (c := t.core) h.len
  unfold PyTree.unpickle PyTree.cache PyTree.dims
  simp only [h1]
  refine ofNodes_tidy h hv hs _ t.nTensors t.tensorsPos (by simpa using h2) ?_
  intro p hp x
  simp only [List.getElem_map]
  rw [(he _).2, List.mem_toFinset]
  exact h3 p (by simpa using hp) x

theorem swapWithNN_size (T : Tree) (p : ℕ) : (T.swapWithNN p).size = T.size := by
  unfold Tree.swapWithNN
  split
  · rfl
  split
  · rfl
  split
  · rfl
  split
  · rfl
  · rfl

theorem foldl_swap_size (l : List ℕ) (T : Tree) : (l.foldl Tree.swapWithNN T).size = T.size := by
  induction l generalizing T with
  | nil => rfl
  | cons p l ih => rw [List.foldl_cons, ih, swapWithNN_size]

theorem swapAll_size (T : Tree) : (swapAll T).size = T.size := foldl_swap_size _ _

theorem foldl_mul (l : List ℕ) (a : ℕ) : l.foldl (· * ·) a = a * l.prod := by
  induction l generalizing a with
  | nil => simp
  | cons b l ih => rw [List.foldl_cons, ih, List.prod_cons, Nat.mul_assoc]

theorem foldl_max {R : Type} [LinearOrder R] (l : List R) (a : R) :
    (∀ b ∈ a :: l, b ≤ l.foldl max a) ∧ l.foldl max a ∈ a :: l := by
  induction l generalizing a with
  | nil => simp
  | cons b l ih =>
    obtain ⟨h1, h2⟩ := ih (max a b)
    rw [List.foldl_cons]
    refine ⟨fun c hc => ?_, ?_⟩
    · rcases List.mem_cons.1 hc with rfl | hc
      · exact le_trans (le_max_left c b) (h1 _ (by simp))
      · rcases List.mem_cons.1 hc with rfl | hc
        · exact le_trans (le_max_right a c) (h1 _ (by simp))
        · exact h1 _ (by simp [hc])
    · rcases List.mem_cons.1 h2 with h2 | h2
      · rw [h2]
        rcases max_choice a b with h3 | h3 <;> rw [h3] <;> simp
      · simp [h2]

/-- The tests after the copy. -/
def treeTests (enum : Finset ι → List ι) (t : PyTree ι) (a : CheckArgs ι) : List (Except PyErr Bool) :=
  [optional (fun d => dimsAgree d (dimOf t.indsOrder t.core.dims) t.indsOrder) a.dims,
    optional (checkLeaves t a.once) a.tsInds,
    .ok (t.core.isValid (a.check.getD false)),
    optional (checkOutput t) a.output,
    optional (checkHyper enum t (a.check.getD false)) a.hyper]

theorem isValidTree_eq {enum : Finset ι → List ι} (he : EnumOk enum) {t : PyTree ι} (h : t.core.Tidy t.indsOrder)
    (hv : t.core.isValid false = true) (hs : 0 < t.core.tree.size) (a : CheckArgs ι) :
    isValidTree enum t a = if (swapAll t.core.tree).same t.core.tree then .error .assertionError
      else allTests (treeTests enum t a) := by
  unfold isValidTree
  simp only [unpickle_tidy he h hv hs, bind, Except.bind, PyTree.same_refl, Bool.not_true, Bool.false_eq_true, if_false,
    same_swapped t (swapAll_size _), pure, Except.pure, throw, throwThe, MonadExceptOf.throw, treeTests]

theorem carriers_leaves {t : PyTree ι} {s : PTree} (hw : WellFormed t.core.tree s) {ts : List (List ι)}
    (hlen : ts.length = t.core.tree.nLeaves) (hl : ∀ (p : ℕ) (h : p < ts.length), t.inds p = ts[p].toFinset) (x : ι) :
    (s.carriers fun p => decide (x ∈ t.inds p)) = ts.countP fun l => decide (x ∈ l) := by
  have hleaf : s.leaves.Perm (List.range ts.length) := by
    refine (List.perm_ext_iff_of_nodup ?_ List.nodup_range).2 fun p => ?_
    · exact leaves_nodup hw.nodup
    · rw [hw.leaves, List.mem_range, hlen]; rfl
  rw [carriers, hleaf.countP_eq]
  have : ∀ (us : List (List ι)) (f : ℕ → Finset ι), (∀ (p : ℕ) (h : p < us.length), f p = us[p].toFinset) →
      ((List.range us.length).countP fun p => decide (x ∈ f p)) = us.countP fun l => decide (x ∈ l) := by
    intro us
    induction us with
    | nil => intro f _; rfl
    | cons u us ih =>
      intro f hf
      have h0 := hf 0 (by simp)
      have := ih (fun p => f (p + 1)) fun p hp => by
        have := hf (p + 1) (by simpa using hp)
        simpa using this
      rw [List.length_cons, List.range_succ_eq_map, List.countP_cons, List.countP_map, List.countP_cons, ← this]
      simp only [h0]
      simp [Function.comp_def]
  exact this ts t.inds hl

/-- An index that is never contracted twice reaches the root. -/
theorem root_of_no_crossing {P : ℕ → Bool} {s : PTree} (h : s.All (KeepOk P)) (h0 : s.crossings P = 0)
    (hc : 0 < s.carriers P) : P s.root = true := by
  induction s with
  | leaf p => obtain ⟨q, hq, h1⟩ := carriers_pos.1 hc; simp only [PTree.leaves, List.mem_singleton] at hq; subst hq; exact h1
  | node p l r ihl ihr =>
    simp only [crossings] at h0
    rw [carriers_node] at hc
    have hb : ¬ (P l.root && P r.root) = true := fun hb => by rw [if_pos hb] at h0; omega
    rcases Nat.eq_zero_or_pos (l.carriers P) with hz | hz
    · have h1 := ihr h.2.2 (by omega) (by omega)
      refine h.1.1 fun e => hb ?_
      rw [e, h1]; rfl
    · have h1 := ihl h.2.1 (by omega) hz
      refine h.1.1 fun e => hb ?_
      rw [← e, h1]; rfl

theorem namesExact_iff {N : ℕ → Finset ι} {out : Finset ι} {s : PTree} :
    NamesExact N out s ↔ ∀ x, ExactAt (fun p => decide (x ∈ N p)) (x ∈ out) s := by
  unfold NamesExact ExactAt
  simp only [decide_eq_true_eq]
  exact ⟨fun h x K u e => h K u e x, fun h K u e x => h x K u e⟩

/-- Every index name occurs in a leaf. -/
theorem name_in_leaf {t : PyTree ι} {s : PTree} (hw : WellFormed t.core.tree s) (h : t.core.Tidy t.indsOrder)
    (hv : t.core.isValid false = true) {x : ι} (hx : x ∈ t.indsOrder) : ∃ p ∈ s.leaves, x ∈ t.inds p := by
  obtain ⟨i, hi, rfl⟩ := List.mem_iff_getElem.1 hx
  obtain ⟨p, hp, hip⟩ := h.cover i (by rw [← h.len]; exact hi)
  have hm : t.indsOrder[i] ∈ t.inds p := (mem_treeInds h.len).2 ⟨i, hi, hip, rfl⟩
  obtain ⟨K, u, rfl, rfl⟩ := exists_plug ((hw.mem p).2 hp)
  have hst := keepOk_of_loc h.len h.nodup ((ctree_isValid_iff hw false).1 hv).2.1 t.indsOrder[i]
  have := root_carrier ((Ctx.all_plug ..).1 hst).2 (by simpa using hm)
  obtain ⟨q, hq, h1⟩ := carriers_pos.1 this
  exact ⟨q, by rw [(Ctx.leaves_plug K u).mem_iff]; simp [hq], by simpa using h1⟩

theorem dimOf_ne_none {c : CTree} {order : List ι} (h : c.Tidy order) : ∀ x ∈ order, dimOf order c.dims x ≠ none := by
  obtain ⟨l, h1, -⟩ := tidy_dims h
  intro x hx e
  simp only [PyDims.toList] at h1
  split at h1
  · cases h1
  · next l' h2 =>
    obtain ⟨i, hi, rfl⟩ := List.mem_iff_getElem.1 hx
    obtain ⟨h3, h4⟩ := (mapM_some_iff ..).1 h2
    have := h4 i hi
    rw [e, List.getElem?_eq_none_iff] at this
    omega

theorem shared_iff {t : PyTree ι} {s : PTree} (hw : WellFormed t.core.tree s) :
    (∀ p < t.core.tree.size, (t.core.tree.nodes p).isLeaf = false → sharedAt t p ≠ ∅) ↔ SharesNames t := by
  unfold SharesNames
  refine forall_congr' fun p => forall_congr' fun hp => ?_
  unfold sharedAt
  rcases hw.split hp with ⟨K, ht, hN, -⟩ | ⟨K, l, r, ht, hN, -⟩
  · rw [hN]; simp [Node.isLeaf]
  · rw [hN]
    simp only [Node.isLeaf, Option.some.injEq]
    rw [← Finset.nonempty_iff_ne_empty]
    constructor
    · rintro h a b rfl rfl
      obtain ⟨x, hx⟩ := h rfl
      exact ⟨x, Finset.mem_inter.1 hx⟩
    · intro h _
      obtain ⟨x, hx⟩ := h _ _ rfl rfl
      exact ⟨x, Finset.mem_inter.2 hx⟩

theorem isValid_shared {t : PyTree ι} {s : PTree} (hw : WellFormed t.core.tree s) (h : t.core.Tidy t.indsOrder)
    (hv : t.core.isValid false = true) (check : Bool) :
    t.core.isValid check = true ↔ (check = true → SharesNames t) := by
  rw [ctree_isValid_iff hw] at hv ⊢
  have : s.All (ShQ t.core.inds) ↔ SharesNames t := by
    rw [all_iff hw.enc]
    unfold SharesNames
    simp only [hw.mem]
    refine forall_congr' fun p => forall_congr' fun hp => forall_congr' fun a => forall_congr' fun b => ?_
    refine forall_congr' fun _ => forall_congr' fun _ => ?_
    constructor
    · rintro ⟨i, hi⟩
      rw [Finset.mem_inter] at hi
      have hlt : i < t.indsOrder.length := by
        rw [h.len]; exact Finset.mem_range.1 (h.clean.inds_lt a hi.1)
      exact ⟨t.indsOrder[i], (mem_treeInds h.len).2 ⟨i, hlt, hi.1, rfl⟩, (mem_treeInds h.len).2 ⟨i, hlt, hi.2, rfl⟩⟩
    · rintro ⟨x, h1, h2⟩
      obtain ⟨i, hi, h3, h4⟩ := (mem_treeInds h.len).1 h1
      obtain ⟨j, hj, h5, h6⟩ := (mem_treeInds h.len).1 h2
      have : i = j := h.nodup.getElem_inj_iff.1 (h4.trans h6.symm)
      subst this
      exact ⟨i, Finset.mem_inter.2 ⟨h3, h5⟩⟩
  rw [← this]
  exact ⟨fun h => h.2.2, fun h => ⟨hv.1, hv.2.1, h⟩⟩

theorem checkLeaves_iff {t : PyTree ι} {s : PTree} (hw : WellFormed t.core.tree s) (h : t.core.Tidy t.indsOrder)
    (hv : t.core.isValid false = true) (ts : List (List ι)) :
    checkLeaves t false ts = .ok true ↔
      ts.length = t.core.tree.nLeaves ∧ ∀ (p : ℕ) (h : p < ts.length), t.inds p = ts[p].toFinset := by
  have hsz := hw.size_eq
  have hle : t.core.tree.nLeaves ≤ t.core.tree.size := by omega
  have hr : (List.range t.core.tree.size).take t.core.tree.nLeaves = List.range t.core.tree.nLeaves := by
    rw [List.take_range, Nat.min_eq_left hle]
  unfold checkLeaves
  rw [indsTo_eq h.len, hr]
  simp only [bind, Except.bind, pure, Except.pure, Bool.false_eq_true, if_false]
  have hiff : (List.range t.core.tree.nLeaves).map t.inds = ts.map List.toFinset ↔
      ts.length = t.core.tree.nLeaves ∧ ∀ (p : ℕ) (h : p < ts.length), t.inds p = ts[p].toFinset := by
    constructor
    · intro e
      have hlen : ts.length = t.core.tree.nLeaves := by simpa using (congrArg List.length e).symm
      refine ⟨hlen, fun p hp => ?_⟩
      have h1 : ((List.range t.core.tree.nLeaves).map t.inds)[p]? = (ts.map List.toFinset)[p]? := by rw [e]
      rw [List.getElem?_map, List.getElem?_map, List.getElem?_range (by omega), List.getElem?_eq_getElem hp] at h1
      simpa using h1
    · rintro ⟨hlen, hp⟩
      refine List.ext_getElem (by simp [hlen]) fun p h1 h2 => ?_
      simp only [List.getElem_map, List.getElem_range]
      exact hp p (by simpa using h2)
  by_cases hc : (List.range t.core.tree.nLeaves).map t.inds = ts.map List.toFinset
  · rw [if_neg (by simpa using hc)]
    simp only [Except.ok.injEq, decide_eq_true_eq]
    refine ⟨fun _ => hiff.1 hc, fun _ => ?_⟩
    obtain ⟨hlen, hp⟩ := hiff.1 hc
    ext x
    rw [PyTree.allInds, List.mem_toFinset, List.mem_toFinset, List.mem_flatten]
    constructor
    · rintro ⟨l, hl, hx⟩
      obtain ⟨p, h1, rfl⟩ := List.mem_iff_getElem.1 hl
      have : x ∈ t.inds p := by rw [hp p h1]; exact List.mem_toFinset.2 hx
      obtain ⟨i, h2, -, rfl⟩ := (mem_treeInds h.len).1 this
      exact List.getElem_mem _
    · intro hx
      obtain ⟨p, h1, h2⟩ := name_in_leaf hw h hv hx
      have h3 : p < ts.length := by rw [hlen]; exact (hw.leaves p).1 h1
      rw [hp p h3, List.mem_toFinset] at h2
      exact ⟨_, List.getElem_mem _, h2⟩
  · rw [if_pos hc]
    simp only [Except.ok.injEq, Bool.false_eq_true, false_iff]
    exact fun h => hc (hiff.2 h)

theorem checkOutput_iff {t : PyTree ι} (hl : t.indsOrder.length = t.core.nInds) (hs : 0 < t.core.tree.size) (out : List ι) :
    checkOutput t out = .ok true ↔ t.outputInds = out.toFinset := by
  unfold checkOutput
  simp [indsAt_last hl hs, bind, Except.bind, pure, Except.pure]

/-- The contractions are counted right exactly when the index sets are exact. -/
theorem counts_iff {t : PyTree ι} {s : PTree} (hw : WellFormed t.core.tree s) (h : t.core.Tidy t.indsOrder)
    (hv : t.core.isValid false = true) {ts : List (List ι)} {out : List ι} {hyper : ι → Option ℕ}
    (hlen : ts.length = t.core.tree.nLeaves) (hl : ∀ (p : ℕ) (h : p < ts.length), t.inds p = ts[p].toFinset)
    (hout : t.outputInds = out.toFinset)
    (hh : ∀ x ∈ ts.flatten, hyper x = some ((ts.countP fun l => decide (x ∈ l)) - 1 + if x ∈ out then 1 else 0)) :
    (∀ x, 0 < (s.crossings fun p => decide (x ∈ t.inds p)) + (if x ∈ t.outputInds then 1 else 0) →
        hyper x = some ((s.crossings fun p => decide (x ∈ t.inds p)) + if x ∈ t.outputInds then 1 else 0)) ↔
      NamesExact t.inds t.outputInds s := by
  rw [namesExact_iff]
  refine forall_congr' fun x => ?_
  have hst := keepOk_of_loc h.len h.nodup ((ctree_isValid_iff hw false).1 hv).2.1 x
  have hcar := carriers_leaves hw hlen hl x
  have hroot : s.root = t.core.tree.size - 1 := hw.root
  have hflat : 0 < (s.carriers fun p => decide (x ∈ t.inds p)) → x ∈ ts.flatten := by
    intro h0
    rw [hcar, List.countP_pos_iff] at h0
    obtain ⟨l, hl, hx⟩ := h0
    exact List.mem_flatten.2 ⟨l, hl, by simpa using hx⟩
  have hif : (if x ∈ t.outputInds then 1 else 0) = if x ∈ out then 1 else 0 := by
    simp only [hout, List.mem_toFinset]
  constructor
  · intro hc
    refine exactAt_of_count hst (by rw [hroot, decide_eq_true_eq]; rfl) fun h0 => ?_
    have hpos : 0 < (s.crossings fun p => decide (x ∈ t.inds p)) + (if x ∈ t.outputInds then 1 else 0) := by
      by_contra hz
      have h1 : (s.crossings fun p => decide (x ∈ t.inds p)) = 0 := by omega
      have h2 := root_of_no_crossing hst h1 h0
      rw [hroot, decide_eq_true_eq] at h2
      have h3 : x ∈ t.outputInds := h2
      rw [if_pos h3] at hz
      omega
    have h1 := hc hpos
    rw [hh x (hflat h0), Option.some.injEq, hif, ← hcar] at h1
    omega
  · intro he hpos
    obtain ⟨h0, h1⟩ := count_of_exactAt he
    have hcp : 0 < (s.carriers fun p => decide (x ∈ t.inds p)) := by
      by_contra hz
      have h2 := h0 (by omega)
      rw [h2] at hpos
      by_cases ho : x ∈ t.outputInds
      · exact hz (root_carrier hst (by rw [hroot, decide_eq_true_eq]; exact ho))
      · rw [if_neg ho] at hpos; omega
    rw [hh x (hflat hcp), hif, ← hcar]
    have := h1 hcp
    congr 1; omega

end TNCO
