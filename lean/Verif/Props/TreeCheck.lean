import Verif.Lemmas.SwapAll
import Verif.Props.Path
import Verif.Props.RandomTensors
import Mathlib.Algebra.Order.Monoid.Defs
import Mathlib.Algebra.BigOperators.Group.Finset.Basic
import Mathlib.Algebra.BigOperators.Group.List.Basic

/-!
# Property C61: reading a contraction tree, and the check `is_valid_contraction_tree`

`hwf`: the tree is a binary tree (C09); `ht`: its index names are in order (`ofPath_tidy`: so are all
trees built from a path).
-/

namespace TNCO
open PTree
variable {ι : Type} [DecidableEq ι]

/-! ## Reading -/

/-- C61: `inds[key]` is the set at the position that Python counts from the front or from the
back; everything else is an `IndexError`. -/
theorem C61_inds (pt : PyTree ι) (hl : pt.indsOrder.length = pt.core.nInds) :
    (∀ p : ℕ, p < pt.core.tree.size → pt.indsAt p = .ok (pt.inds p) ∧
      pt.indsAt (p - pt.core.tree.size) = .ok (pt.inds p)) ∧
    (∀ key : ℤ, (key < -pt.core.tree.size ∨ (pt.core.tree.size : ℤ) ≤ key) → pt.indsAt key = .error .indexError) ∧
    (0 < pt.core.tree.size → pt.indsAt (-1) = .ok pt.outputInds) ∧
    ∀ k, pt.indsTo k = .ok (((List.range pt.core.tree.size).take k).map pt.inds) := by
  refine ⟨fun p hp => ⟨indsAt_nat hl hp, ?_⟩, fun key hk => ?_, indsAt_last hl, indsTo_eq hl⟩
  · have : pyPos pt.core.tree.size (p - pt.core.tree.size) = some p := by
      unfold pyPos
      rw [if_neg (by omega), if_pos (by omega)]
      simp
    unfold PyTree.indsAt
    rw [this]
    exact getInds_eq hl p
  · have : pyPos pt.core.tree.size key = none := by
      unfold pyPos
      by_cases h0 : 0 ≤ key
      · rw [if_pos h0, if_neg (by omega)]
      · rw [if_neg h0, if_neg (by omega)]
    unfold PyTree.indsAt
    rw [this]

/-- C61: two trees compare equal exactly when they are the same: nodes, index sets, dimensions
and names. -/
theorem C61_equal (t u : PyTree ι) (ht : t.core.Clean) (hu : u.core.Clean) :
    t.same u = true ↔ t.core = u.core ∧ t.indsOrder = u.indsOrder := by
  constructor
  · intro h
    simp only [PyTree.same, CTree.same, Tree.same, Bool.and_eq_true, decide_eq_true_eq, beq_iff_eq, List.all_eq_true,
      List.mem_range] at h
    obtain ⟨⟨⟨⟨h1, h2⟩, h3, h4⟩, h5⟩, h6⟩ := h
    refine ⟨?_, h6⟩
    obtain ⟨⟨⟨n, N⟩, m, I, D⟩, a, b, c⟩ := t
    obtain ⟨⟨⟨n', N'⟩, m', I', D'⟩, a', b', c'⟩ := u
    simp only at *
    subst h1 h3 h5
    have hN : N = N' := by
      funext p
      by_cases hp : p < n
      · exact h2 p hp
      · exact (ht.nodes_out p (by simpa using hp)).trans (hu.nodes_out p (by simpa using hp)).symm
    have hI : I = I' := by
      funext p
      by_cases hp : p < n
      · exact h4 p hp
      · exact (ht.inds_out p (by simpa using hp)).trans (hu.inds_out p (by simpa using hp)).symm
    rw [hN, hI]
  · rintro ⟨h1, h2⟩
    simp [PyTree.same, h1, h2, CTree.same_refl]

/-- C61: `max_width` is the largest width of a tensor of the tree, the width being the sum of the
logarithms of the dimensions of its indices. -/
theorem C61_max_width {R : Type} [AddCommMonoid R] [LinearOrder R] (log2 : ℕ → R) (h1 : log2 1 = 0)
    (hm : ∀ a b, 0 < a → 0 < b → log2 (a * b) = log2 a + log2 b) (enum : Finset ι → List ι) (he : EnumOk enum)
    (pt : PyTree ι) (t : PTree) (hwf : WellFormed pt.core.tree t) (ht : pt.core.Tidy pt.indsOrder)
    (hv : pt.core.isValid false = true) (dim : ι → ℕ) (hd : ∀ x ∈ pt.indsOrder, pt.dims.get? x = some (dim x)) :
    ∃ w, pt.maxWidth log2 enum = .ok w ∧ (∀ p < pt.core.tree.size, ∑ x ∈ pt.inds p, log2 (dim x) ≤ w) ∧
      ∃ p < pt.core.tree.size, ∑ x ∈ pt.inds p, log2 (dim x) = w := by
  have hin : ∀ p x, x ∈ pt.inds p → x ∈ pt.indsOrder := by
    intro p x hx
    obtain ⟨i, hi, -, rfl⟩ := (mem_treeInds ht.len).1 hx
    exact List.getElem_mem _
  have hpos : ∀ x ∈ pt.indsOrder, 0 < dim x := by
    intro x hx
    have h2 := hd x hx
    have h3 := ((ctree_isValid_iff hwf false).1 hv).1
    simp only [PyTree.dims, PyDims.get?, dimOf, if_pos hx] at h2
    cases hdm : pt.core.dims with
    | int n =>
      rw [hdm] at h2 h3
      simp only [Option.some.injEq, Dims.ok, bne_iff_ne, ne_eq] at h2 h3
      omega
    | vec l =>
      rw [hdm] at h2 h3
      simp only [Dims.ok, Bool.and_eq_true, List.all_eq_true, bne_iff_ne, ne_eq] at h2 h3
      have := h3.2 _ (List.mem_of_getElem? h2)
      omega
  have hlog : ∀ l : List ι, (∀ x ∈ l, 0 < dim x) → 0 < (l.map dim).prod ∧ log2 (l.map dim).prod = (l.map fun x => log2 (dim x)).sum := by
    intro l
    induction l with
    | nil => intro _; simp [h1]
    | cons a l ih =>
      intro h
      obtain ⟨h4, h5⟩ := ih fun x hx => h x (by simp [hx])
      have h6 := h a (by simp)
      simp only [List.map_cons, List.prod_cons, List.sum_cons]
      exact ⟨Nat.mul_pos h6 h4, by rw [hm _ _ h6 h4, h5]⟩
  have hw : ∀ p, (do
      let xs ← pt.getInds p
      let d ← pt.dimProd enum xs
      return log2 d : Except PyErr R) = .ok (∑ x ∈ pt.inds p, log2 (dim x)) := by
    intro p
    have hprod : pt.dimProd enum (pt.inds p) = .ok (((enum (pt.inds p)).map dim).prod) := by
      unfold PyTree.dimProd
      rw [mapM_of_forall (f := dimOf pt.indsOrder pt.core.dims) (g := dim) fun x hx => hd x (hin p x ((he _).2 x |>.1 hx))]
      simp only
      rw [foldl_mul, Nat.one_mul]
    have hsum : ((enum (pt.inds p)).map fun x => log2 (dim x)).sum = ∑ x ∈ pt.inds p, log2 (dim x) := by
      rw [← List.sum_toFinset _ (he _).1]
      refine Finset.sum_congr ?_ fun _ _ => rfl
      ext x; rw [List.mem_toFinset, (he _).2]
    simp only [getInds_eq ht.len, bind, Except.bind, hprod, pure, Except.pure]
    rw [(hlog _ fun x hx => hpos x (hin p x ((he _).2 x |>.1 hx))).2, hsum]
  have hsz := hwf.size_eq.2.2
  have hmap := mapM_ok (l := List.range pt.core.tree.size) fun p _ => hw p
  unfold PyTree.maxWidth
  rw [hmap]
  obtain ⟨n, hn⟩ : ∃ n, pt.core.tree.size = n + 1 := ⟨_, (Nat.succ_pred_eq_of_pos hsz).symm⟩
  have hl : (List.range pt.core.tree.size).map (fun p => ∑ x ∈ pt.inds p, log2 (dim x)) =
      (∑ x ∈ pt.inds 0, log2 (dim x)) :: ((List.range n).map Nat.succ).map fun p => ∑ x ∈ pt.inds p, log2 (dim x) := by
    rw [hn, List.range_succ_eq_map]; rfl
  obtain ⟨h4, h5⟩ := foldl_max (((List.range n).map Nat.succ).map fun p => ∑ x ∈ pt.inds p, log2 (dim x))
    (∑ x ∈ pt.inds 0, log2 (dim x))
  rw [← hl] at h4 h5
  refine ⟨_, by simp only [bind, Except.bind]; rw [hl]; rfl, fun p hp => h4 _ ?_, ?_⟩
  · exact List.mem_map.2 ⟨p, by simpa using hp, rfl⟩
  · obtain ⟨p, hp, h6⟩ := List.mem_map.1 h5
    exact ⟨p, by simpa using hp, h6⟩

/-! ## The number of contractions -/

/-- C61: in a tree built from a path an index is contracted one time fewer than there are tensors
that have it. -/
theorem C61_contractions (enum : Finset ι → List ι) (he : EnumOk enum) (path : List (ℕ × ℕ))
    (tsInds : List (List ι)) (hts : ∀ l ∈ tsInds, l.Nodup) (dims : PyDims ι) (output : Option (List ι))
    (check : Bool) (pt : PyTree ι) (h : PyTree.ofPath enum path tsInds dims output check = .ok pt) :
    ∃ t, WellFormed pt.core.tree t ∧ ∀ x ∈ pt.indsOrder,
      (t.crossings fun p => decide (x ∈ pt.inds p)) + 1 =
        pt.tensorsPos.countP fun p => decide (x ∈ tsInds.getD p []) := by
  obtain ⟨c, t0, t, out, -, -, hb, hv, -⟩ := ofPath_sound he hts h
  refine ⟨t, hb.wf, fun x hx => ?_⟩
  have hex := namesExact_iff.1 hb.exact x
  have hsz := hb.wf.size_eq
  have hcar : (t.carriers fun p => decide (x ∈ pt.inds p)) =
      pt.tensorsPos.countP fun p => decide (x ∈ tsInds.getD p []) := by
    rw [carriers_leaves hb.wf (ts := pt.tensorsPos.map fun p => tsInds.getD p []) (by rw [List.length_map, hb.len]; rfl) ?_ x]
    · rw [List.countP_map]; rfl
    · intro p hp
      rw [List.length_map] at hp
      rw [hb.leaf p (by rw [← hb.len]; exact hp), List.getElem_map, List.getD_eq_getElem _ _ hp]
  rw [← hcar]
  refine (count_of_exactAt hex).2 ?_
  rw [hcar, List.countP_pos_iff]
  obtain ⟨p, hp, hx⟩ := (hb.mem x).1 hx
  exact ⟨p, hp, by simpa using hx⟩

/-! ## The check -/

/-- C61: swapping every node of a tree with its neighbour, one after the other, gives back the
tree exactly if it has at most two leaves. -/
theorem C61_swapped (T : Tree) (h : IsTree T) : (swapAll T).same T = true ↔ T.nLeaves ≤ 2 := swapAll_same_iff h

example : IsTree exTree ∧ ¬ exTree.nLeaves ≤ 2 := ⟨exTree_isTree, by decide⟩

/-- C61: `is_valid_contraction_tree` makes exactly the tests for which it is given arguments. The first
condition comes from the assertion about the copy on which all nodes are swapped; `crossings` is the number of
contractions of an index. -/
theorem C61_tests (enum : Finset ι → List ι) (he : EnumOk enum) (pt : PyTree ι) (t : PTree)
    (hwf : WellFormed pt.core.tree t) (ht : pt.core.Tidy pt.indsOrder) (hv : pt.core.isValid false = true)
    (a : CheckArgs ι) (ho : a.once = false) :
    isValidTree enum pt a = .ok true ↔
      3 ≤ pt.core.tree.nLeaves ∧
      (∀ dims, a.dims = some dims → ∀ x ∈ pt.indsOrder, dims.get? x = pt.dims.get? x) ∧
      (∀ ts, a.tsInds = some ts →
        ts.length = pt.core.tree.nLeaves ∧ ∀ (p : ℕ) (h : p < ts.length), pt.inds p = ts[p].toFinset) ∧
      (∀ out, a.output = some out → pt.outputInds = out.toFinset) ∧
      (∀ hyper, a.hyper = some hyper → ∀ x,
        0 < (t.crossings fun p => decide (x ∈ pt.inds p)) + (if x ∈ pt.outputInds then 1 else 0) →
        hyper x = some ((t.crossings fun p => decide (x ∈ pt.inds p)) + if x ∈ pt.outputInds then 1 else 0)) ∧
      (a.check = some true → SharesNames pt) := by
  have hsz := hwf.size_eq.2.2
  rw [isValidTree_eq he ht hv hsz]
  have hsw' := swapAll_same_iff ⟨t, hwf⟩
  by_cases hsw : (swapAll pt.core.tree).same pt.core.tree = true
  · have := hsw'.1 hsw
    rw [if_pos hsw]
    constructor
    · intro h; simp at h
    · intro h; omega
  · rw [if_neg hsw]
    rw [hsw'] at hsw
    replace hsw : 3 ≤ pt.core.tree.nLeaves := by omega
    rw [allTests_iff]
    have hopt : ∀ {α : Type} (test : α → Except PyErr Bool) (o : Option α),
        optional test o = .ok true ↔ ∀ x, o = some x → test x = .ok true := by
      intro α test o
      cases o <;> simp [optional]
    have hck : a.check.getD false = true ↔ a.check = some true := by
      cases h : a.check <;> simp
    simp only [treeTests, List.forall_mem_cons, Except.ok.injEq, List.not_mem_nil, false_imp_iff, implies_true, and_true, hopt, ho,
      dimsAgree_iff (dimOf_ne_none ht), checkLeaves_iff hwf ht hv, isValid_shared hwf ht hv, checkOutput_iff ht.len hsz,
      checkHyper_iff he ht.len hwf, shared_iff hwf, hck]
    constructor
    · rintro ⟨h1, h2, h3, h4, h5⟩
      exact ⟨hsw, h1, h2, h4, fun h hh => (h5 h hh).2, h3⟩
    · rintro ⟨-, h1, h2, h4, h5, h3⟩
      exact ⟨h1, h2, h3, h4, fun h hh => ⟨h3, h5 h hh⟩⟩

/-- C61: with all arguments the answer is yes exactly for the
trees of the given network: the dimensions and the leaves are the given ones; the index sets are exact; the
operands of every contraction share an index if that is asked for. -/
theorem C61_check (enum : Finset ι → List ι) (he : EnumOk enum) (pt : PyTree ι) (t : PTree)
    (hwf : WellFormed pt.core.tree t) (ht : pt.core.Tidy pt.indsOrder) (hv : pt.core.isValid false = true)
    (ts : List (List ι)) (dims : PyDims ι) (out : List ι) (hyper : ι → Option ℕ) (check : Bool)
    (hh : ∀ x ∈ ts.flatten, hyper x = some ((ts.countP fun l => decide (x ∈ l)) - 1 + if x ∈ out then 1 else 0)) :
    isValidTree enum pt ⟨some ts, false, some dims, some out, some hyper, some check⟩ = .ok true ↔
      3 ≤ pt.core.tree.nLeaves ∧
      (∀ x ∈ pt.indsOrder, dims.get? x = pt.dims.get? x) ∧
      (ts.length = pt.core.tree.nLeaves ∧ ∀ (p : ℕ) (h : p < ts.length), pt.inds p = ts[p].toFinset) ∧
      pt.outputInds = out.toFinset ∧ NamesExact pt.inds pt.outputInds t ∧ (check = true → SharesNames pt) := by
  rw [C61_tests enum he pt t hwf ht hv _ rfl]
  simp only [Option.some.injEq, forall_eq']
  constructor
  · rintro ⟨h0, h1, h2, h4, h6, h3⟩
    exact ⟨h0, h1, h2, h4, (counts_iff hwf ht hv h2.1 h2.2 h4 hh).1 h6, h3⟩
  · rintro ⟨h0, h1, h2, h4, h5, h3⟩
    exact ⟨h0, h1, h2, h4, (counts_iff hwf ht hv h2.1 h2.2 h4 hh).2 h5, h3⟩

/-- C61: a tree built from a path is accepted for the network of the tensors that it
contracts if there are three or more; for fewer an assertion fails. -/
theorem C61_built (enum : Finset ι → List ι) (he : EnumOk enum) (path : List (ℕ × ℕ))
    (tsInds : List (List ι)) (hts : ∀ l ∈ tsInds, l.Nodup) (dims : PyDims ι) (output : Option (List ι))
    (check : Bool) (pt : PyTree ι) (h : PyTree.ofPath enum path tsInds dims output check = .ok pt)
    (ts : List (List ι)) (hsub : ts = pt.tensorsPos.map fun p => tsInds.getD p []) (out : List ι)
    (hout : ∀ x, x ∈ out ↔ x ∈ pt.outputInds) (hyper : ι → Option ℕ)
    (hh : ∀ x ∈ ts.flatten, hyper x = some ((ts.countP fun l => decide (x ∈ l)) - 1 + if x ∈ out then 1 else 0)) :
    isValidTree enum pt ⟨some ts, false, some dims, some out, some hyper, some check⟩ =
      if pt.core.tree.nLeaves ≤ 2 then .error .assertionError else .ok true := by
  obtain ⟨c, t0, t, o, -, -, hb, hv, -⟩ := ofPath_sound he hts h
  have ht := ofPath_tidy h
  have hvf : pt.core.isValid false = true := by
    obtain ⟨a, b, -⟩ := (ctree_isValid_iff hb.wf _).1 hv
    exact (ctree_isValid_iff hb.wf _).2 ⟨a, b, by simp⟩
  have hsz := hb.wf.size_eq.2.2
  by_cases hsw : pt.core.tree.nLeaves ≤ 2
  · rw [isValidTree_eq he ht hvf hsz, if_pos ((swapAll_same_iff ⟨t, hb.wf⟩).2 hsw), if_pos hsw]
  · rw [if_neg hsw, C61_check enum he pt t hb.wf ht hvf ts dims out hyper check hh]
    refine ⟨by omega, fun x hx => ?_, ⟨?_, fun p hp => ?_⟩, ?_, hb.exact, (isValid_shared hb.wf ht hvf check).1 hv⟩
    · obtain ⟨i, hi, rfl⟩ := List.mem_iff_getElem.1 hx
      rw [hb.dims i _ (List.getElem?_eq_getElem hi)]
      simp only [PyTree.dims, PyDims.get?, dimOf, if_pos hx, ht.nodup.idxOf_getElem i hi]
      have hne := dimOf_ne_none ht _ hx
      simp only [dimOf, if_pos hx, ht.nodup.idxOf_getElem i hi] at hne
      cases hd : pt.core.dims with
      | int n => rfl
      | vec l =>
        rw [hd] at hne
        simp only at hne ⊢
        rw [Dims.get, List.getD_eq_getElem?_getD]
        cases hl : l[i]? with
        | none => exact absurd hl hne
        | some d => rfl
    · rw [hsub, List.length_map, hb.len]; rfl
    · subst hsub
      rw [List.length_map] at hp
      rw [hb.leaf p (by rw [← hb.len]; exact hp), List.getElem_map, List.getD_eq_getElem _ _ hp]
    · ext x; rw [List.mem_toFinset, hout]

/-! ## Where it goes wrong -/

/-- C61, violated: with one or two tensors `swap_with_nn` does nothing, and the assertion that the swapped
copy is different fails for every tree. -/
theorem C61_violated_two (enum : Finset ι → List ι) (he : EnumOk enum) (pt : PyTree ι)
    (hwf : IsTree pt.core.tree) (ht : pt.core.Tidy pt.indsOrder) (hv : pt.core.isValid false = true)
    (h2 : pt.core.tree.nLeaves ≤ 2) (a : CheckArgs ι) : isValidTree enum pt a = .error .assertionError := by
  have hsz : 0 < pt.core.tree.size := by
    obtain ⟨t, h⟩ := hwf
    exact h.size_eq.2.2
  rw [isValidTree_eq he ht hv hsz, if_pos ((swapAll_same_iff hwf).2 h2)]

/-- C61, violated: `ts_inds` may be any iterable, but a one-shot iterator is never accepted for a
tree with at least one index. -/
theorem C61_violated_iterator (enum : Finset ι → List ι) (he : EnumOk enum) (pt : PyTree ι)
    (hwf : IsTree pt.core.tree) (ht : pt.core.Tidy pt.indsOrder) (hv : pt.core.isValid false = true)
    (hne : pt.indsOrder ≠ []) (ts : List (List ι)) (a : CheckArgs ι) (ha : a.tsInds = some ts) (ho : a.once = true) :
    isValidTree enum pt a ≠ .ok true := by
  obtain ⟨t, hwf⟩ := hwf
  rw [isValidTree_eq he ht hv hwf.size_eq.2.2]
  split
  · simp
  · intro h
    have := allTests_iff.1 h (optional (checkLeaves pt a.once) a.tsInds) (by simp [treeTests])
    rw [ha, ho] at this
    simp only [optional, checkLeaves, indsTo_eq ht.len, bind, Except.bind, pure, Except.pure, if_true] at this
    split at this
    · simp at this
    · simp only [List.flatten_nil, List.toFinset_nil, Except.ok.injEq, decide_eq_true_eq] at this
      have := of_decide_eq_true this
      exact hne (List.toFinset_eq_empty_iff _ |>.1 this.symm)

/-! ## A case: three tensors in a row, an output index shared by two of them -/

def rowInds : List (List ℕ) := [[10, 11], [11, 12], [12, 13]]

def rowTree : Except PyErr (PyTree ℕ) := PyTree.ofPath ascending [(1, 0), (0, 1)] rowInds (.int 2) (some [11, 13]) true

def rowArgs : CheckArgs ℕ :=
  ⟨some rowInds, false, some (.int 2), some [10, 11, 13], some fun x => if x = 11 then some 2 else some 1, some true⟩

/-- Whether the check of a tree says yes. -/
def saysYes (r : Except PyErr (PyTree ℕ)) (a : CheckArgs ℕ) : Bool :=
  match r with
  | .error _ => false
  | .ok pt => match isValidTree ascending pt a with
    | .ok b => b
    | .error _ => false

/-- The tree is accepted; with one count changed, or another output, or other leaves, it is not. -/
example : saysYes rowTree rowArgs = true ∧
    saysYes rowTree { rowArgs with hyper := some fun _ => some 1 } = false ∧
    saysYes rowTree { rowArgs with output := some [10, 13] } = false ∧
    saysYes rowTree { rowArgs with tsInds := some [[10, 11], [11, 12], [13]] } = false ∧
    saysYes rowTree { rowArgs with dims := some (.int 3) } = false ∧
    saysYes rowTree { rowArgs with once := true } = false := by decide +kernel

theorem rowTree_ok : ∃ pt, rowTree = .ok pt := by
  cases h : rowTree with
  | ok pt => exact ⟨pt, rfl⟩
  | error e =>
    have : saysYes rowTree rowArgs = true := by decide +kernel
    rw [h] at this
    cases this

/-- The hypotheses of `C61_check` and `C61_max_width` hold for it. -/
example : ∃ pt t, rowTree = .ok pt ∧ WellFormed pt.core.tree t ∧ pt.core.Tidy pt.indsOrder ∧ pt.core.isValid false = true ∧
    ∀ x ∈ rowInds.flatten, (if x = 11 then some 2 else some 1) =
      some ((rowInds.countP fun l => decide (x ∈ l)) - 1 + if x ∈ [10, 11, 13] then 1 else 0) := by
  obtain ⟨pt, h⟩ := rowTree_ok
  obtain ⟨c, t0, t, o, -, -, hb, hv, -⟩ := ofPath_sound ascending_ok (by decide) h
  obtain ⟨a, b, -⟩ := (ctree_isValid_iff hb.wf _).1 hv
  exact ⟨pt, t, h, hb.wf, ofPath_tidy h, (ctree_isValid_iff hb.wf _).2 ⟨a, b, by simp⟩, by decide⟩

/-- A tree with two leaves, for `C61_violated_two`. -/
example : ∃ pt : PyTree ℕ, PyTree.ofPath ascending [(0, 1)] [[10, 11], [11, 12]] (.int 2) none true = .ok pt ∧
    pt.core.tree.nLeaves = 2 := by
  have h : ∀ r : Except PyErr (PyTree ℕ), (match r with | .ok pt => pt.core.tree.nLeaves == 2 | .error _ => false) = true →
      ∃ pt, r = .ok pt ∧ pt.core.tree.nLeaves = 2 := by
    intro r hr
    cases r with
    | error e => cases hr
    | ok pt => exact ⟨pt, rfl, by simpa using hr⟩
  apply h
  decide +kernel

end TNCO
