import Verif.Lemmas.PathOut
import Verif.Lemmas.Trace

/-!
# Properties C09 - C12 and C51: contraction trees built from paths, and paths read off trees
-/

namespace TNCO
open PTree
variable {ι : Type} [DecidableEq ι]

/-! ## A running example: `((0 1) 3)` over four tensors, tensor 2 is not contracted -/

def exPath : List (ℕ × ℕ) := [(1, 0), (1, 2)]
def exInds : List (List ℕ) := [[10, 11], [11, 12], [20], [12, 13]]
def exTerm : Term := .pair (.tensor 3) (.pair (.tensor 0) (.tensor 1))

theorem exPath_replay : replay (initTerms 4) exPath = some [.tensor 2, exTerm] := by decide

noncomputable def exEnum : Finset ℕ → List ℕ := Finset.toList

theorem exEnum_ok : EnumOk exEnum := fun s => ⟨s.nodup_toList, fun _ => Finset.mem_toList⟩

/-! ## C09 -/

/-- C09: a path that contracts the tensors it touches to a single one is accepted. The
condition on the outputs is the one the library documents (hyper-indices need explicit
outputs); dimensions must exist and be positive; with `check_shared_inds` the two operands of
every contraction of the path must have a common index. -/
theorem C09_accepts (enum : Finset ι → List ι) (he : EnumOk enum) (path : List (ℕ × ℕ))
    (tsInds : List (List ι)) (hts : ∀ l ∈ tsInds, l.Nodup) (dims : PyDims ι) (output : Option (List ι))
    (hne : ∀ s ∈ path, s.1 ≠ s.2) (F : List Term) (u : Term)
    (hF : replay (initTerms tsInds.length) path = some F) (hu : F.filter Term.isPair = [u])
    (hout : output = none → ∀ x, (u.tensors.filter fun p => decide (x ∈ tsInds.getD p [])).length ≤ 2)
    (hd : ∀ p ∈ u.tensors, ∀ x ∈ tsInds.getD p [], ∃ d, d ≠ 0 ∧ dims.get? x = some d) (check : Bool)
    (hsh : check = true → ∀ a b, .pair a b ∈ trace (initTerms tsInds.length) path →
      ∃ x, (∃ i ∈ a.tensors, x ∈ tsInds.getD i []) ∧ ∃ j ∈ b.tensors, x ∈ tsInds.getD j []) :
    ∃ pt, PyTree.ofPath enum path tsInds dims output check = .ok pt :=
  ofPath_complete he hts hne hF hu hout hd check fun h a b hs =>
    hsh h a b (replay_sub_init hF (List.mem_of_mem_filter (hu ▸ List.mem_singleton_self u)) hs)

/-- The example is accepted. -/
theorem exPath_ok : ∃ pt, PyTree.ofPath exEnum exPath exInds (.int 2) (some [11, 13]) false = .ok pt :=
  C09_accepts exEnum exEnum_ok exPath exInds (by decide) _ _ (by decide) _ exTerm exPath_replay rfl
    (by simp) (fun _ _ _ _ => ⟨2, by decide, rfl⟩) false (by simp)

/-- The example is accepted also with `check_shared_inds`. -/
theorem exPath_shared : ∃ pt, PyTree.ofPath exEnum exPath exInds (.int 2) (some [11, 13]) true = .ok pt := by
  refine C09_accepts exEnum exEnum_ok exPath exInds (by decide) _ _ (by decide) _ exTerm exPath_replay rfl
    (by simp) (fun _ _ _ _ => ⟨2, by decide, rfl⟩) true fun _ a b h => ?_
  have e : trace (initTerms exInds.length) exPath = [.pair (.tensor 0) (.tensor 1), exTerm] := by decide
  rw [e] at h
  simp only [exTerm, List.mem_cons, Term.pair.injEq, List.not_mem_nil, or_false] at h
  rcases h with ⟨rfl, rfl⟩ | ⟨rfl, rfl⟩
  · exact ⟨11, ⟨0, by decide, by decide⟩, 1, by decide, by decide⟩
  · exact ⟨12, ⟨3, by decide, by decide⟩, 1, by decide, by decide⟩

/-- C09: an accepted path is represented exactly. Following the path on the list of tensors
leaves exactly one contracted tensor; the tree is a well-formed binary tree with the same
bracketing, whose leaves are the touched tensors in increasing order, each with its indices. -/
theorem C09_represents (enum : Finset ι → List ι) (he : EnumOk enum) (path : List (ℕ × ℕ))
    (tsInds : List (List ι)) (hts : ∀ l ∈ tsInds, l.Nodup) (dims : PyDims ι) (output : Option (List ι))
    (check : Bool) (hne : ∀ s ∈ path, s.1 ≠ s.2) (pt : PyTree ι)
    (h : PyTree.ofPath enum path tsInds dims output check = .ok pt) :
    ∃ t F u, WellFormed pt.core.tree t ∧ replay (initTerms tsInds.length) path = some F ∧
      F.filter Term.isPair = [u] ∧ (t.toTerm fun p => pt.tensorsPos.getD p 0) = u ∧
      pt.nTensors = tsInds.length ∧ pt.tensorsPos.Pairwise (· < ·) ∧
      (∀ p, p ∈ pt.tensorsPos ↔ p ∈ u.tensors) ∧
      pt.tensorsPos.length = (pt.core.tree.size + 1) / 2 ∧
      ∀ p < (pt.core.tree.size + 1) / 2, pt.inds p = (tsInds.getD (pt.tensorsPos.getD p 0) []).toFinset := by
  obtain ⟨c, t0, t, out, hG, -, hb, -, hnt, hrep⟩ := ofPath_sound he hts h
  obtain ⟨F, hF, hu⟩ := hrep hne
  refine ⟨t, F, t0.toTerm id, hb.wf, hF, hu, hb.map id, hnt, ?_, fun p => ?_, hb.len, hb.leaf⟩
  · rw [hb.pos]
    have h1 := tensorsPosOf_sorted tsInds.length c
    have h2 := tensorsPosOf_nodup tsInds.length c
    exact (h1.and h2).imp fun h => lt_of_le_of_ne h.1 h.2
  · have h1 := hG.run.leaves_perm
    simp only [List.flatMap_cons, List.flatMap_nil, List.append_nil, List.flatMap_map, leaves,
      List.flatMap_singleton'] at h1
    rw [hb.pos, tensors_toTerm, List.map_id, h1.mem_iff]

example : ∃ pt, PyTree.ofPath exEnum exPath exInds (.int 2) (some [11, 13]) false = .ok pt := exPath_ok

/-- C09: a path that reads outside the list, or that leaves no contracted tensor or more than
one, is rejected. -/
theorem C09_rejects (enum : Finset ι → List ι) (he : EnumOk enum) (path : List (ℕ × ℕ))
    (tsInds : List (List ι)) (hts : ∀ l ∈ tsInds, l.Nodup) (dims : PyDims ι) (output : Option (List ι))
    (check : Bool) (hne : ∀ s ∈ path, s.1 ≠ s.2)
    (h : replay (initTerms tsInds.length) path = none ∨
      ∃ F, replay (initTerms tsInds.length) path = some F ∧ (F.filter Term.isPair).length ≠ 1) :
    ∃ e, PyTree.ofPath enum path tsInds dims output check = .error e := by
  cases hp : PyTree.ofPath enum path tsInds dims output check with
  | error e => exact ⟨e, rfl⟩
  | ok pt =>
    exfalso
    obtain ⟨t, F, u, -, hF, hu, -⟩ := C09_represents enum he path tsInds hts dims output check hne pt hp
    rcases h with h | ⟨F', h, h'⟩
    · rw [h] at hF; simp at hF
    · rw [h, Option.some.injEq] at hF
      subst hF
      rw [hu] at h'
      exact h' rfl

example : replay (initTerms 4) [(0, 1), (0, 1)] = some [.pair (.tensor 0) (.tensor 1), .pair (.tensor 2) (.tensor 3)] ∧
    replay (initTerms 4) [(0, 4)] = none := by decide

/-- C09, steps that name one position twice (the hypothesis `hne` above): the code does not
reject `(x, x)` but contracts positions `x` and `x + 1`. -/
theorem C09_equal_positions {α : Type} (F : List α) (x : ℕ) :
    popPair F x x = (popPair F x (x + 1)).map fun r => (r.2.1, r.1, r.2.2) := by
  have e1 : max x (x + 1) = x + 1 := by omega
  have e2 : min x (x + 1) = x := by omega
  unfold popPair
  rw [e1, e2, max_self, min_self, List.getElem?_eraseIdx_of_ge (le_refl x)]
  have e3 : (F.eraseIdx (x + 1))[x]? = F[x]? := List.getElem?_eraseIdx_of_lt (by omega)
  rw [e3]
  cases h1 : F[x]? with
  | none =>
    have : F[x + 1]? = none := by
      rw [List.getElem?_eq_none_iff] at *; omega
    simp [this]
  | some a =>
    cases h2 : F[x + 1]? with
    | none => simp
    | some b =>
      simp only [Option.map_some, Option.some.injEq, Prod.mk.injEq, true_and]
      refine List.ext_getElem? fun i => ?_
      simp only [List.getElem?_eraseIdx]
      split <;> split <;> (try omega) <;> (try rfl)
      split <;> (try omega) <;> rfl

example : popPair [5, 6, 7] 1 1 = some (7, 6, [5]) := by decide

/-! ## C10 -/

/-- C10: at every tensor of the tree an index is present iff it occurs in a leaf below and is
an output or occurs in a leaf outside; the tree passes its own validity check. -/
theorem C10_indices_exact (enum : Finset ι → List ι) (he : EnumOk enum) (path : List (ℕ × ℕ))
    (tsInds : List (List ι)) (hts : ∀ l ∈ tsInds, l.Nodup) (dims : PyDims ι) (output : Option (List ι))
    (check : Bool) (pt : PyTree ι)
    (h : PyTree.ofPath enum path tsInds dims output check = .ok pt) :
    pt.core.isValid check = true ∧
      ∃ t, WellFormed pt.core.tree t ∧ NamesExact pt.inds pt.outputInds t := by
  obtain ⟨c, t0, t, out, -, -, hb, hv, -⟩ := ofPath_sound he hts h
  exact ⟨hv, t, hb.wf, hb.exact⟩

/-- C10, in the core (C++) representation used by the optimizers: bit sets are exact, the
bits are the indices of the touched tensors, each once, and each has its dimension. -/
theorem C10_core_exact (enum : Finset ι → List ι) (he : EnumOk enum) (path : List (ℕ × ℕ))
    (tsInds : List (List ι)) (hts : ∀ l ∈ tsInds, l.Nodup) (dims : PyDims ι) (output : Option (List ι))
    (check : Bool) (pt : PyTree ι)
    (h : PyTree.ofPath enum path tsInds dims output check = .ok pt) :
    (∃ t, WellFormed pt.core.tree t ∧ IndsExact pt.core.inds (pt.core.inds (pt.core.tree.size - 1)) t) ∧
      pt.core.nInds = pt.indsOrder.length ∧ pt.indsOrder.Nodup ∧
      (∀ x, x ∈ pt.indsOrder ↔ ∃ p ∈ pt.tensorsPos, x ∈ tsInds.getD p []) ∧
      ∀ j x, pt.indsOrder[j]? = some x → dims.get? x = some (pt.core.dims.get j) := by
  obtain ⟨c, t0, t, out, -, -, hb, hv, -⟩ := ofPath_sound he hts h
  exact ⟨⟨t, hb.wf, hb.coreExact⟩, hb.nInds, hb.nodup, hb.mem, hb.dims⟩

example : (∀ l ∈ exInds, l.Nodup) ∧ ∃ pt, PyTree.ofPath exEnum exPath exInds (.int 2) (some [11, 13]) false = .ok pt :=
  ⟨by decide, exPath_ok⟩

/-! ## C11 -/

/-- C11, outputs given: the root carries the requested outputs that occur in contracted
tensors and the indices of a single contracted tensor, nothing else. -/
theorem C11_given (enum : Finset ι → List ι) (he : EnumOk enum) (path : List (ℕ × ℕ))
    (tsInds : List (List ι)) (hts : ∀ l ∈ tsInds, l.Nodup) (dims : PyDims ι) (out : List ι)
    (check : Bool) (pt : PyTree ι)
    (h : PyTree.ofPath enum path tsInds dims (some out) check = .ok pt) (x : ι) :
    x ∈ pt.outputInds ↔ (x ∈ out ∧ ∃ p ∈ pt.tensorsPos, x ∈ tsInds.getD p []) ∨
      ∃ p ∈ pt.tensorsPos, x ∈ tsInds.getD p [] ∧ ∀ q ∈ pt.tensorsPos, x ∈ tsInds.getD q [] → q = p := by
  obtain ⟨c, t0, t, o, -, ho, hb, -⟩ := ofPath_sound he hts h
  rw [hb.output]
  refine or_congr_left ?_
  simp only [outputOf, Except.ok.injEq] at ho
  rw [← ho, Finset.mem_inter, List.mem_toFinset, List.mem_toFinset, mem_uniqueEverseen, mem_used, hb.pos]

/-- C11, outputs omitted: the root carries exactly the indices of a single contracted tensor. -/
theorem C11_omitted (enum : Finset ι → List ι) (he : EnumOk enum) (path : List (ℕ × ℕ))
    (tsInds : List (List ι)) (hts : ∀ l ∈ tsInds, l.Nodup) (dims : PyDims ι)
    (check : Bool) (pt : PyTree ι)
    (h : PyTree.ofPath enum path tsInds dims none check = .ok pt) (x : ι) :
    x ∈ pt.outputInds ↔
      ∃ p ∈ pt.tensorsPos, x ∈ tsInds.getD p [] ∧ ∀ q ∈ pt.tensorsPos, x ∈ tsInds.getD q [] → q = p := by
  obtain ⟨c, t0, t, o, -, ho, hb, -⟩ := ofPath_sound he hts h
  rw [hb.output, or_iff_right_iff_imp]
  intro hx
  simp only [outputOf] at ho
  split at ho
  · simp at ho
  · simp only [Except.ok.injEq] at ho
    rw [← ho, List.mem_toFinset, List.mem_filter, mem_uniqueEverseen, decide_eq_true_eq, hyperCount,
      count_used hts, ← hb.pos, mem_used] at hx
    obtain ⟨⟨p, hp, hxp⟩, hcnt⟩ := hx
    refine ⟨p, hp, hxp, fun q hq hxq => ?_⟩
    by_contra hne
    have h1 : ((pt.tensorsPos.map PTree.leaf).filter
        (hasB (fun p => (tsInds.getD p []).toFinset) x)).length = 1 := by
      rw [← List.countP_eq_length_filter]; omega
    obtain ⟨w, hw⟩ := List.length_eq_one_iff.1 h1
    have m1 : PTree.leaf p ∈ [w] := by
      rw [← hw, List.mem_filter]
      exact ⟨List.mem_map_of_mem hp, by rw [hasB_iff]; simp [leaves]; exact hxp⟩
    have m2 : PTree.leaf q ∈ [w] := by
      rw [← hw, List.mem_filter]
      exact ⟨List.mem_map_of_mem hq, by rw [hasB_iff]; simp [leaves]; exact hxq⟩
    rw [List.mem_singleton] at m1 m2
    rw [← m2, PTree.leaf.injEq] at m1
    exact hne m1.symm

/-- C11, outputs omitted: an index of three contracted tensors is refused. -/
theorem C11_hyper_rejected (enum : Finset ι → List ι) (path : List (ℕ × ℕ)) (hp : path ≠ [])
    (tsInds : List (List ι)) (hts : ∀ l ∈ tsInds, l.Nodup) (dims : PyDims ι) (check : Bool)
    (hne : ∀ s ∈ path, s.1 ≠ s.2) (F : List Term)
    (hF : replay (initTerms tsInds.length) path = some F) (x : ι)
    (hx : 2 < (((F.filter Term.isPair).flatMap Term.tensors).filter fun p =>
      decide (x ∈ tsInds.getD p [])).length) :
    PyTree.ofPath enum path tsInds dims none check = .error .valueError := by
  cases hc : contractionLoop tsInds.length 0 (List.range tsInds.length) path with
  | none =>
    exfalso
    have e : (List.range tsInds.length) = ((List.range tsInds.length).map PTree.leaf).map root := by
      rw [List.map_map]; simp [Function.comp_def, root]
    have := (contractionLoop_spec tsInds.length path 0 ((List.range tsInds.length).map .leaf)).2
      (by rw [← e]; exact hc) hne id
    rw [List.map_map] at this
    have h2 : replay (initTerms tsInds.length) path = none := this
    rw [h2] at hF; simp at hF
  | some c =>
    obtain ⟨F', hr, hlen, hG, hleafs, hrep⟩ := pathForest hc
    have hF' : F = F'.map (toTerm id) := by
      have := hrep hne id
      rw [show (List.range tsInds.length).map (fun p => Term.tensor (id p)) = initTerms tsInds.length from rfl,
        hF, Option.some.injEq] at this
      exact this
    rw [hF', filter_isPair hG hleafs, List.flatMap_map] at hx
    have hSL := hG.run.leaves_perm
    simp only [List.flatMap_map, leaves, List.flatMap_singleton'] at hSL
    have e2 : (fun a : PTree => (toTerm id a).tensors) = leaves := by
      funext a; rw [tensors_toTerm, List.map_id]
    rw [e2, (hSL.filter _).length_eq] at hx
    have hcnt : (usedInds tsInds (tensorsPosOf tsInds.length c)).count x =
        ((tensorsPosOf tsInds.length c).filter fun p => decide (x ∈ tsInds.getD p [])).length := by
      rw [count_used hts, List.countP_map, ← List.countP_eq_length_filter]
      refine List.countP_congr fun p _ => ?_
      show hasB _ x (.leaf p) = true ↔ _
      rw [hasB_iff]; simp [leaves]
    have hmem : x ∈ usedInds tsInds (tensorsPosOf tsInds.length c) :=
      List.count_pos_iff.1 (by omega)
    have ho : outputOf (usedInds tsInds (tensorsPosOf tsInds.length c)) none = .error .valueError := by
      simp only [outputOf]
      rw [if_pos]
      rw [List.any_eq_true]
      refine ⟨x, mem_uniqueEverseen.2 hmem, ?_⟩
      rw [decide_eq_true_eq, hyperCount]
      omega
    cases path with
    | nil => exact absurd rfl hp
    | cons s path =>
      simp only [PyTree.ofPath, PyTree.ofTriples, hc, ho]

example : replay (initTerms 3) [(0, 1), (0, 1)] = some [.pair (.tensor 2) (.pair (.tensor 0) (.tensor 1))] ∧
    2 < (([Term.pair (.tensor 2) (.pair (.tensor 0) (.tensor 1))].flatMap Term.tensors).filter fun p =>
      decide (7 ∈ [[7], [7, 8], [7]].getD p [])).length := by decide

/-! ## C12 -/

/-- C12: for every contraction tree (also one that an optimizer has rewritten) `path()` is a
valid linear path over the original number of tensors, and following it gives the bracketing of
the tree, up to the order of the two operands of a contraction; other tensors are untouched. -/
theorem C12_path (pt : PyTree ι) (t : PTree) (hwf : WellFormed pt.core.tree t)
    (hlen : pt.tensorsPos.length = (pt.core.tree.size + 1) / 2) (hnd : pt.tensorsPos.Nodup)
    (hlt : ∀ p ∈ pt.tensorsPos, p < pt.nTensors) :
    ∃ path F u, pt.path = some path ∧ replay (initTerms pt.nTensors) path = some F ∧
      F.Perm (u :: ((List.range pt.nTensors).filter (· ∉ pt.tensorsPos)).map .tensor) ∧
      u.Same (t.toTerm fun p => pt.tensorsPos.getD p 0) := by
  obtain ⟨path, F, u, h1, -, -, h2, h3, h4⟩ := path_spec pt hwf hlen hnd hlt
  exact ⟨path, F, u, h1, h2, h3, h4⟩

/-- The example tree of C05, over tensors 0, 2, 3 of four. -/
example : ∃ pt : PyTree ℕ, WellFormed pt.core.tree (.node 4 (.node 3 (.leaf 0) (.leaf 1)) (.leaf 2)) ∧
    pt.tensorsPos.length = (pt.core.tree.size + 1) / 2 ∧ pt.tensorsPos.Nodup ∧
    (∀ p ∈ pt.tensorsPos, p < pt.nTensors) ∧ pt.path = some [(0, 2), (2, 1)] := by
  refine ⟨⟨⟨Tree.ofList
    [⟨none, none, some 3⟩, ⟨none, none, some 3⟩, ⟨none, none, some 4⟩,
     ⟨some 0, some 1, some 4⟩, ⟨some 3, some 2, none⟩], 0, fun _ => ∅, .vec []⟩, 4, [0, 2, 3], []⟩,
    ⟨by simp [Encodes, Tree.ofList, root], by decide, ?_, by decide, ?_⟩, by decide, by decide, by decide, by decide⟩
  · intro p; simp [Tree.ofList, postorder]; omega
  · intro p; simp [Tree.ofList, leaves]; omega

/-- A bracketing with a contraction in it. -/
theorem Term.Same.isPair {a b : Term} (h : a.Same b) : a.isPair = b.isPair := by
  cases h <;> rfl

/-- C12, round trip: a tree built from any path gives back a path; building a tree again from
that path is accepted and gives the same bracketing of the same tensors. -/
theorem C12_round_trip (enum : Finset ι → List ι) (he : EnumOk enum) (path : List (ℕ × ℕ))
    (tsInds : List (List ι)) (hts : ∀ l ∈ tsInds, l.Nodup) (dims : PyDims ι) (output : Option (List ι))
    (check : Bool) (pt : PyTree ι) (h : PyTree.ofPath enum path tsInds dims output check = .ok pt)
    (hd : ∀ l ∈ tsInds, ∀ x ∈ l, ∃ d, d ≠ 0 ∧ dims.get? x = some d) :
    ∃ path' pt' t t', pt.path = some path' ∧
      PyTree.ofPath enum path' tsInds dims output false = .ok pt' ∧
      WellFormed pt.core.tree t ∧ WellFormed pt'.core.tree t' ∧ pt'.tensorsPos = pt.tensorsPos ∧
      (t'.toTerm fun p => pt'.tensorsPos.getD p 0).Same (t.toTerm fun p => pt.tensorsPos.getD p 0) := by
  obtain ⟨c, t0, t, out, hG, ho, hb, -, hnt, -⟩ := ofPath_sound he hts h
  have hnd : pt.tensorsPos.Nodup := by rw [hb.pos]; exact tensorsPosOf_nodup _ _
  have hlt : ∀ p ∈ pt.tensorsPos, p < pt.nTensors := by
    intro p hp
    rw [hb.pos, mem_tensorsPosOf] at hp
    rw [hnt]; exact hp.2
  obtain ⟨path', F, u, hpath, hne, hpl, hrep, hperm, hsame⟩ := path_spec pt hb.wf hb.len hnd hlt
  rw [hnt] at hrep hperm
  obtain ⟨-, w0, l0, r0, ht0⟩ := by
    have := hG.node t0 (by simp)
    exact (⟨trivial, this⟩ : True ∧ _)
  have hup : u.isPair = true := by
    rw [hsame.isPair]
    have := hb.map id
    simp only [id] at this
    rw [this, ht0]; rfl
  have hrest : (((List.range tsInds.length).filter (· ∉ pt.tensorsPos)).map Term.tensor).filter
      Term.isPair = [] := by
    rw [List.filter_eq_nil_iff]
    intro w hw
    obtain ⟨p, -, rfl⟩ := List.mem_map.1 hw
    simp [Term.isPair]
  have hfil : F.filter Term.isPair = [u] := by
    have := hperm.filter Term.isPair
    rw [List.filter_cons_of_pos hup, hrest] at this
    exact List.perm_singleton.1 this
  -- tensors of `u`
  have hsameT : ∀ {a b : Term}, a.Same b → a.tensors.Perm b.tensors := by
    intro a b hab
    induction hab with
    | tensor i => exact List.Perm.refl _
    | pair _ _ ih1 ih2 => exact ih1.append ih2
    | swap _ _ ih1 ih2 => exact (ih1.append ih2).trans List.perm_append_comm
  have hut : u.tensors.Perm pt.tensorsPos := by
    refine (hsameT hsame).trans ?_
    have h1 := hG.run.leaves_perm
    simp only [List.flatMap_cons, List.flatMap_nil, List.append_nil, List.flatMap_map, leaves,
      List.flatMap_singleton'] at h1
    have h2 := hb.map id
    simp only [id] at h2
    rw [h2, tensors_toTerm, List.map_id, hb.pos]
    exact h1
  obtain ⟨pt', hpt'⟩ := ofPath_complete (dims := dims) (output := output) he hts hne hrep hfil
    (by
      intro hnone x
      subst hnone
      rw [(hut.filter _).length_eq]
      simp only [outputOf] at ho
      split at ho
      · simp at ho
      next hany =>
        by_contra hgt
        refine hany ?_
        have hcnt : (usedInds tsInds (tensorsPosOf tsInds.length c)).count x =
            (pt.tensorsPos.filter fun p => decide (x ∈ tsInds.getD p [])).length := by
          rw [count_used hts, List.countP_map, ← List.countP_eq_length_filter, hb.pos]
          refine List.countP_congr fun p _ => ?_
          show hasB _ x (.leaf p) = true ↔ _
          rw [hasB_iff]; simp [leaves]
        rw [List.any_eq_true]
        refine ⟨x, mem_uniqueEverseen.2 (List.count_pos_iff.1 (by omega)), ?_⟩
        rw [decide_eq_true_eq, hyperCount]
        omega)
    (by
      intro p hp x hx
      have hp' := hlt p (hut.mem_iff.1 hp)
      rw [hnt] at hp'
      rw [List.getD_eq_getElem _ _ hp'] at hx
      exact hd _ (List.getElem_mem hp') x hx) false (by simp)
  obtain ⟨t', F', u', hwf', hF', hu', ht', -, hsort, hmem, -⟩ :=
    C09_represents enum he path' tsInds hts dims output false hne pt' hpt'
  rw [hrep, Option.some.injEq] at hF'
  subst hF'
  rw [hfil, List.cons.injEq] at hu'
  obtain ⟨rfl, -⟩ := hu'
  refine ⟨path', pt', t, t', hpath, hpt', hb.wf, hwf', ?_, ?_⟩
  · have hs2 : pt.tensorsPos.Pairwise (· ≤ ·) := by rw [hb.pos]; exact tensorsPosOf_sorted _ _
    refine eq_of_sorted (hsort.imp le_of_lt) hs2 (hsort.imp ne_of_lt) hnd fun p => ?_
    rw [hmem, hut.mem_iff]
  · rw [ht']; exact hsame

example : (∃ pt, PyTree.ofPath exEnum exPath exInds (.int 2) (some [11, 13]) false = .ok pt) ∧
    ∀ l ∈ exInds, ∀ x ∈ l, ∃ d, d ≠ 0 ∧ (PyDims.int (ι := ℕ) 2).get? x = some d :=
  ⟨exPath_ok, fun _ _ _ _ => ⟨2, by decide, rfl⟩⟩

/-! ## C51 -/

/-- **C51 is violated.** The signature asks for an `Iterable`; for a one-shot iterator of a
path the first contraction is lost, whatever the rest of the path is, and no error is raised. -/
theorem C51_violated_first_step_lost (enum : Finset ι → List ι) (s s' : ℕ × ℕ) (path : List (ℕ × ℕ))
    (tsInds : List (List ι)) (dims : PyDims ι) (output : Option (List ι)) (check : Bool) :
    PyTree.ofIterator enum (s :: s' :: path) tsInds dims output check =
      PyTree.ofPath enum (s' :: path) tsInds dims output check := rfl

/-- **C51 is violated**, concretely: over three tensors the path `(0,1), (0,1)` contracts all of
them, but its iterator yields a tree in which only tensors 0 and 1 occur. -/
theorem C51_violated : ∃ pt, PyTree.ofIterator exEnum [(0, 1), (0, 1)] [[1], [1, 2], [2]] (.int 2) none false = .ok pt ∧
    pt.tensorsPos = [0, 1] ∧
    ∃ pt', PyTree.ofPath exEnum [(0, 1), (0, 1)] [[1], [1, 2], [2]] (.int 2) none false = .ok pt' ∧
      pt'.tensorsPos = [0, 1, 2] := by
  have hd : ∀ x, ∃ d, d ≠ 0 ∧ (PyDims.int (ι := ℕ) 2).get? x = some d := fun _ => ⟨2, by decide, rfl⟩
  have hn : ∀ l ∈ [[1], [1, 2], [2]], List.Nodup l := by decide
  have hle : ∀ (u : Term), u.tensors.Nodup → (∀ p ∈ u.tensors, p < 3) → ∀ x,
      (u.tensors.filter fun p => decide (x ∈ [[1], [1, 2], [2]].getD p [])).length ≤ 2 := by
    intro u hu hlt x
    have hsub : (u.tensors.filter fun p => decide (x ∈ [[1], [1, 2], [2]].getD p [])).Subperm
        ((List.range 3).filter fun p => decide (x ∈ [[1], [1, 2], [2]].getD p [])) :=
      (hu.filter _).subperm fun p hp => by
        rw [List.mem_filter] at hp ⊢
        exact ⟨List.mem_range.2 (hlt p hp.1), hp.2⟩
    refine hsub.length_le.trans ?_
    by_cases h1 : x = 1
    · subst h1; decide
    · by_cases h2 : x = 2
      · subst h2; decide
      · simp [List.range_succ, h1, h2]
  obtain ⟨pt, hpt⟩ := C09_accepts exEnum exEnum_ok [(0, 1)] [[1], [1, 2], [2]] hn (.int 2) none (by decide)
    [.tensor 2, .pair (.tensor 0) (.tensor 1)] (.pair (.tensor 0) (.tensor 1)) (by decide) (by decide)
    (fun _ => hle _ (by decide) (by decide)) (fun _ _ x _ => hd x) false (by simp)
  obtain ⟨pt', hpt'⟩ := C09_accepts exEnum exEnum_ok [(0, 1), (0, 1)] [[1], [1, 2], [2]] hn (.int 2) none (by decide)
    [.pair (.tensor 2) (.pair (.tensor 0) (.tensor 1))] (.pair (.tensor 2) (.pair (.tensor 0) (.tensor 1)))
    (by decide) (by decide) (fun _ => hle _ (by decide) (by decide)) (fun _ _ x _ => hd x) false (by simp)
  refine ⟨pt, hpt, ?_, pt', hpt', ?_⟩
  · obtain ⟨t, F, u, -, hF, hu, -, -, hs, hm, -⟩ := C09_represents _ exEnum_ok _ _ hn _ _ _ (by decide) _ hpt
    rw [show replay (initTerms [[1], [1, 2], [2]].length) [(0, 1)] = some [.tensor 2, .pair (.tensor 0) (.tensor 1)] by decide,
      Option.some.injEq] at hF
    subst hF
    rw [show [Term.tensor 2, .pair (.tensor 0) (.tensor 1)].filter Term.isPair =
      [.pair (.tensor 0) (.tensor 1)] by decide, List.cons.injEq] at hu
    obtain ⟨rfl, -⟩ := hu
    refine eq_of_sorted (hs.imp le_of_lt) (by decide) (hs.imp ne_of_lt) (by decide) ?_
    exact fun p => by rw [hm]; simp [Term.tensors]
  · obtain ⟨t, F, u, -, hF, hu, -, -, hs, hm, -⟩ := C09_represents _ exEnum_ok _ _ hn _ _ _ (by decide) _ hpt'
    rw [show replay (initTerms [[1], [1, 2], [2]].length) [(0, 1), (0, 1)] = some [.pair (.tensor 2) (.pair (.tensor 0) (.tensor 1))] by decide,
      Option.some.injEq] at hF
    subst hF
    rw [show [Term.pair (.tensor 2) (.pair (.tensor 0) (.tensor 1))].filter Term.isPair =
      [.pair (.tensor 2) (.pair (.tensor 0) (.tensor 1))] by decide, List.cons.injEq] at hu
    obtain ⟨rfl, -⟩ := hu
    refine eq_of_sorted (hs.imp le_of_lt) (by decide) (hs.imp ne_of_lt) (by decide) ?_
    exact fun p => by rw [hm]; simp [Term.tensors]; omega

end TNCO
