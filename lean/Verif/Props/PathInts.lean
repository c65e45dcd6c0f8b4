import Verif.Lemmas.PathInts
import Verif.Lemmas.ContractIn
import Verif.Props.Path

/-!
# C86: paths with negative or equal positions

Python lists count negative positions from the end, and nothing in the library excludes them from a path.
-/

namespace TNCO
open PTree
variable {ι : Type} [DecidableEq ι]

/-! ## One step -/

/-- C86: which two entries a step takes from the list: the larger position names the second one in the list as it
is, the smaller one names the first one in what is left. Everything else is an `IndexError`, and a `ValueError` for
a step that does not have two positions. -/
theorem C86_step {α : Type} (F : List α) (s : List ℤ) :
    (∀ a b r, popStep F s = .ok (a, b, r) ↔ ∃ x y i j, s = [x, y] ∧ Names F.length (max x y) j ∧ F[j]? = some b ∧
      Names (F.length - 1) (min x y) i ∧ (F.eraseIdx j)[i]? = some a ∧ r = (F.eraseIdx j).eraseIdx i) ∧
    (s.length ≠ 2 → popStep F s = .error .valueError) ∧
    (∀ x y, s = [x, y] → (¬ ∃ i j, Names F.length (max x y) j ∧ Names (F.length - 1) (min x y) i) →
      popStep F s = .error .indexError) := by
  refine ⟨fun a b r => popStep_ok, fun h => ?_, ?_⟩
  · cases hp : popStep F s with
    | ok r =>
      obtain ⟨x, y, i, j, rfl, -⟩ := popStep_ok.1 (show popStep F s = .ok (r.1, r.2.1, r.2.2) from hp)
      simp at h
    | error e =>
      rcases popStep_errors hp with ⟨rfl, -⟩ | ⟨-, h'⟩
      · rfl
      · exact absurd h' h
  · rintro x y rfl h
    cases hp : popStep F [x, y] with
    | ok r =>
      obtain ⟨x', y', i, j, e, h1, -, h2, -⟩ := popStep_ok.1 (show popStep F [x, y] = .ok (r.1, r.2.1, r.2.2) from hp)
      simp only [List.cons.injEq, and_true] at e
      obtain ⟨rfl, rfl⟩ := e
      exact absurd ⟨i, j, h1, h2⟩ h
    | error e =>
      rcases popStep_errors hp with ⟨-, h'⟩ | ⟨rfl, -⟩
      · simp at h'
      · rfl

example : popStep [10, 11, 12, 13] [-2, 3] = .ok (11, 13, [10, 12]) ∧ popStep [10, 11, 12, 13] [0, -1] = .ok (13, 10, [11, 12]) ∧
    popStep [10, 11, 12, 13] [-4, -1] = .error .indexError ∧ popStep [10, 11, 12, 13] [1] = .error .valueError := by decide

/-- C86: the step takes the two entries that its positions name, exactly if both positions count from the front,
or only the smaller one is negative and it names the later entry. With two negative positions it never does. -/
theorem C86_right {α : Type} (F : List α) (hF : F.Nodup) (x y : ℤ) (i j : ℕ) (hi : Names F.length (min x y) i)
    (hj : Names F.length (max x y) j) (hij : i ≠ j) :
    (∃ a b r, popStep F [x, y] = .ok (a, b, r) ∧ F[i]? = some a ∧ F[j]? = some b) ↔
      0 ≤ min x y ∨ (0 ≤ max x y ∧ j < i) := by
  have hxy : x ≠ y := by
    rintro rfl
    rw [min_self] at hi; rw [max_self] at hj
    exact hij (names_unique hi hj)
  have hiff : (0 ≤ min x y ∨ (0 ≤ max x y ∧ max x y < F.length + min x y)) ↔ (0 ≤ min x y ∨ (0 ≤ max x y ∧ j < i)) := by
    unfold Names at hi hj
    generalize min x y = u at *
    generalize max x y = v at *
    omega
  rw [← hiff, names_right hxy hi hj hij]
  constructor
  · rintro ⟨a, b, r, h1, h2, h3⟩
    obtain ⟨x', y', i', j', e, g1, g2, g3, g4, -⟩ := popStep_ok.1 h1
    simp only [List.cons.injEq, and_true] at e
    obtain ⟨rfl, rfl⟩ := e
    cases names_unique hj g1
    refine ⟨i', g3, ?_⟩
    rw [(erase_place F i' j).1] at g4
    obtain ⟨l1, e1⟩ := List.getElem?_eq_some_iff.1 h2
    obtain ⟨l2, e2⟩ := List.getElem?_eq_some_iff.1 g4
    exact (List.Nodup.getElem_inj_iff hF).1 (e1.trans e2.symm)
  · rintro ⟨i', g1, rfl⟩
    have l1 : j < F.length := hj.1
    have l2 := hi.1
    have e := (erase_place F i' j).1
    rw [List.getElem?_eq_getElem l2] at e
    exact ⟨_, _, _, popStep_ok.2 ⟨x, y, i', j, rfl, hj, List.getElem?_eq_getElem l1, g1, e, rfl⟩,
      List.getElem?_eq_getElem l2, List.getElem?_eq_getElem l1⟩

example : Names 4 (min (-1) 0) 3 ∧ Names 4 (max (-1) 0) 0 ∧ Names 4 (min (-2) 3) 2 ∧ Names 4 (max (-2) 3) 3 := by
  unfold Names; decide

/-! ## Positions from the front: the models of the other files -/

/-- C86: for natural numbers the constructor, `contract`, `merge_contraction_paths` and `split_contraction_path`
do what the models say about which the other theorems speak. -/
theorem C86_natural (enum : Finset ι → List ι) (path : List (ℕ × ℕ)) (tsInds : List (List ι)) (dims : PyDims ι)
    (output : Option (List ι)) (check : Bool) {R : Type} [CommSemiring R] (arrays : List (NDArray R))
    (dims' : Option (PyDims ι)) (n : ℕ) (paths : List (List (ℕ × ℕ))) (auto normalize : Bool) :
    PyTree.ofPathZ enum (intPath path) tsInds dims output check = PyTree.ofPath enum path tsInds dims output check ∧
    contractZ enum (intPath path) tsInds output arrays dims' = contract enum path tsInds output arrays dims' ∧
    mergePathsZ n (paths.map intPath) auto = mergePaths n paths auto ∧
    splitPathZ n (intPath path) normalize = splitPath n path normalize := by
  refine ⟨?_, ?_, ?_, ?_⟩
  · cases path with
    | nil => rfl
    | cons s path =>
      have h := contractionLoopZ_nat tsInds.length (s :: path) 0 (List.range tsInds.length)
      simp only [intPath, List.map_cons] at h
      simp only [PyTree.ofPathZ, PyTree.ofPath, intPath, List.map_cons, h]
      cases contractionLoop tsInds.length 0 (List.range tsInds.length) (s :: path) <;> rfl
  · simp only [contractZ, contract, contractLoopZ_nat]
    rfl
  · simp only [mergePathsZ, mergePaths, mergeAllZ_nat]
    rfl
  · unfold splitPathZ splitPath
    rw [colorLoopZ_nat]
    cases colorLoop n (initColors n) path with
    | error e => rfl
    | ok s =>
      dsimp only
      rw [splitLoopZ_nat]
      rfl

example : intPath exPath = [[1, 0], [1, 2]] := by decide

/-! ## The tree -/

/-- C86: whatever the integers, an accepted path gives a well-formed tree with exactly the contractions that the two
`pop`s of every step make. -/
theorem C86_tree (enum : Finset ι → List ι) (he : EnumOk enum) (path : List (List ℤ))
    (tsInds : List (List ι)) (hts : ∀ l ∈ tsInds, l.Nodup) (dims : PyDims ι) (output : Option (List ι))
    (check : Bool) (pt : PyTree ι) (h : PyTree.ofPathZ enum path tsInds dims output check = .ok pt) :
    ∃ t F u, WellFormed pt.core.tree t ∧ Popped (initTerms tsInds.length) path F ∧
      F.filter Term.isPair = [u] ∧ (t.toTerm fun p => pt.tensorsPos.getD p 0) = u ∧ u.tensors.Nodup ∧
      pt.nTensors = tsInds.length ∧ pt.tensorsPos.Pairwise (· < ·) ∧
      (∀ p, p ∈ pt.tensorsPos ↔ p ∈ u.tensors) ∧
      pt.tensorsPos.length = (pt.core.tree.size + 1) / 2 ∧
      ∀ p < (pt.core.tree.size + 1) / 2, pt.inds p = (tsInds.getD (pt.tensorsPos.getD p 0) []).toFinset := by
  unfold PyTree.ofPathZ at h
  split at h
  · split at h <;> cases h
  next s0 path0 =>
    split at h
    · cases h
    next c hc =>
      obtain ⟨F', hlen, hG, hleafs, hrep⟩ := pathForestZ hc
      have hcne : c ≠ [] := by
        intro e; rw [e] at hlen; simp at hlen
      obtain ⟨t0, t, out, ht0, hG', -, hb, -, hnt⟩ := ofTriples_sound he hcne hts hG h
      have h1 := hG'.run.leaves_perm
      simp only [List.flatMap_cons, List.flatMap_nil, List.append_nil, List.flatMap_map, leaves,
        List.flatMap_singleton'] at h1
      refine ⟨t, _, t0.toTerm id, hb.wf, hrep, ?_, hb.map id, ?_, hnt, ?_, fun p => ?_, hb.len, hb.leaf⟩
      · rw [filter_isPair hG hleafs, ht0]; rfl
      · rw [tensors_toTerm, List.map_id, h1.nodup_iff]
        exact tensorsPosOf_nodup _ _
      · rw [hb.pos]
        have h1 := tensorsPosOf_sorted tsInds.length c
        have h2 := tensorsPosOf_nodup tsInds.length c
        exact (h1.and h2).imp fun h => lt_of_le_of_ne h.1 h.2
      · rw [hb.pos, tensors_toTerm, List.map_id, h1.mem_iff]

/-- C86: which paths are accepted. -/
theorem C86_accepts (enum : Finset ι → List ι) (he : EnumOk enum) (path : List (List ℤ))
    (tsInds : List (List ι)) (hts : ∀ l ∈ tsInds, l.Nodup) (dims : PyDims ι) (output : Option (List ι))
    (F : List Term) (u : Term) (hF : Popped (initTerms tsInds.length) path F) (hu : F.filter Term.isPair = [u])
    (hout : output = none → ∀ x, (u.tensors.filter fun p => decide (x ∈ tsInds.getD p [])).length ≤ 2)
    (hd : ∀ p ∈ u.tensors, ∀ x ∈ tsInds.getD p [], ∃ d, d ≠ 0 ∧ dims.get? x = some d) (check : Bool)
    (hsh : check = true → ∀ a b, Term.Sub (.pair a b) u → ∃ x, (∃ i ∈ a.tensors, x ∈ tsInds.getD i []) ∧
      ∃ j ∈ b.tensors, x ∈ tsInds.getD j []) :
    ∃ pt, PyTree.ofPathZ enum path tsInds dims output check = .ok pt := by
  have hpne : path ≠ [] := by
    rintro rfl
    cases hF
    have : (initTerms tsInds.length).filter Term.isPair = [] := by
      rw [List.filter_eq_nil_iff]
      intro t ht
      obtain ⟨i, -, rfl⟩ := List.mem_map.1 ht
      simp [Term.isPair]
    rw [this] at hu; simp at hu
  cases hc : contractionLoopZ tsInds.length 0 (List.range tsInds.length) path with
  | error e => exact absurd hF ((contractionLoopZ_error hc).2 F)
  | ok c =>
    obtain ⟨F', hlen, hG, hleafs, hrep⟩ := pathForestZ hc
    have hcne : c ≠ [] := by
      intro e; rw [e] at hlen
      exact hpne (List.length_eq_zero_iff.1 (by simpa using hlen.symm))
    rw [popped_unique hF hrep, filter_isPair hG hleafs] at hu
    obtain ⟨t0, ht0, hut⟩ := List.map_eq_singleton_iff.1 hu
    rw [ht0] at hG
    obtain ⟨pt, hpt⟩ := ofTriples_complete (enum := enum) (dims := dims) (output := output) he hcne hts hG hut.symm hout hd check hsh
    refine ⟨pt, ?_⟩
    unfold PyTree.ofPathZ
    cases path with
    | nil => exact absurd rfl hpne
    | cons s0 path0 => simp only [hc, hpt]

/-- C86: a path with a position out of range, or with a step that does not have two positions, is rejected with
`IndexError` or `ValueError`. -/
theorem C86_rejects (enum : Finset ι → List ι) (path : List (List ℤ)) (hp : path ≠ [])
    (tsInds : List (List ι)) (dims : PyDims ι) (output : Option (List ι)) (check : Bool)
    (h : ∀ F, ¬ Popped (initTerms tsInds.length) path F) :
    PyTree.ofPathZ enum path tsInds dims output check = .error .indexError ∨
      (PyTree.ofPathZ enum path tsInds dims output check = .error .valueError ∧ ∃ s ∈ path, s.length ≠ 2) := by
  cases hc : contractionLoopZ tsInds.length 0 (List.range tsInds.length) path with
  | ok c =>
    obtain ⟨F', -, -, -, hrep⟩ := pathForestZ hc
    exact absurd hrep (h _)
  | error e =>
    obtain ⟨s, path, rfl⟩ := List.exists_cons_of_ne_nil hp
    have e1 : PyTree.ofPathZ enum (s :: path) tsInds dims output check = .error e := by
      simp only [PyTree.ofPathZ, hc]
    rw [e1]
    rcases (contractionLoopZ_error hc).1 with rfl | ⟨rfl, h'⟩
    · exact Or.inl rfl
    · exact Or.inr ⟨rfl, h'⟩

/-- C86: if in every step both positions count from the front and differ, or only the smaller one is negative and
names the later tensor, then the tree has the contractions that the path names. What is missing: this for every
path, see `C86_negative`. -/
theorem C86_named_partial (enum : Finset ι → List ι) (he : EnumOk enum) (path : List (List ℤ))
    (tsInds : List (List ι)) (hts : ∀ l ∈ tsInds, l.Nodup) (dims : PyDims ι) (output : Option (List ι))
    (check : Bool) (hr : RightPath tsInds.length path) (pt : PyTree ι)
    (h : PyTree.ofPathZ enum path tsInds dims output check = .ok pt) :
    ∃ t F u, WellFormed pt.core.tree t ∧ Named (initTerms tsInds.length) path F ∧
      F.filter Term.isPair = [u] ∧ (t.toTerm fun p => pt.tensorsPos.getD p 0) = u := by
  obtain ⟨t, F, u, h1, h2, h3, h4, -⟩ := C86_tree enum he path tsInds hts dims output check pt h
  exact ⟨t, F, u, h1, (popped_iff_named (by simpa [initTerms] using hr)).1 h2, h3, h4⟩

/-! ### Examples: a triangle -/

def triInds : List (List ℕ) := [[10, 11], [11, 12], [12, 10]]

/-- `[(-1, 0), (0, 1)]` -/
theorem tri_right : Popped (initTerms 3) [[-1, 0], [0, 1]] [.pair (.tensor 1) (.pair (.tensor 2) (.tensor 0))] := by
  refine .cons (i := 1) (j := 0) (a := .tensor 2) (b := .tensor 0) ?_ rfl ?_ rfl ?_
  · unfold Names; decide
  · unfold Names; decide
  · refine .cons (i := 0) (j := 1) (a := .tensor 1) (b := .pair (.tensor 2) (.tensor 0)) ?_ rfl ?_ rfl .nil
    · unfold Names; decide
    · unfold Names; decide

/-- `[(-2, -1), (0, 1)]`: the tensors 0 and 2 are contracted first. -/
theorem tri_popped : Popped (initTerms 3) [[-2, -1], [0, 1]] [.pair (.tensor 1) (.pair (.tensor 0) (.tensor 2))] := by
  refine .cons (i := 0) (j := 2) (a := .tensor 0) (b := .tensor 2) ?_ rfl ?_ rfl ?_
  · unfold Names; decide
  · unfold Names; decide
  · refine .cons (i := 0) (j := 1) (a := .tensor 1) (b := .pair (.tensor 0) (.tensor 2)) ?_ rfl ?_ rfl .nil
    · unfold Names; decide
    · unfold Names; decide

/-- `[(-2, -1), (0, 1)]`: the last two tensors of the list are 1 and 2. -/
theorem tri_named : Named (initTerms 3) [[-2, -1], [0, 1]] [.pair (.tensor 0) (.pair (.tensor 1) (.tensor 2))] := by
  refine .cons (i := 1) (j := 2) (a := .tensor 1) (b := .tensor 2) ?_ ?_ (by decide) rfl rfl ?_
  · unfold Names; decide
  · unfold Names; decide
  · refine .cons (i := 0) (j := 1) (a := .tensor 0) (b := .pair (.tensor 1) (.tensor 2)) ?_ ?_ (by decide) rfl rfl .nil
    · unfold Names; decide
    · unfold Names; decide

theorem tri_ok (path : List (List ℤ)) (u : Term) (h : Popped (initTerms 3) path [u]) (hp : u.isPair = true) (hu : u.tensors.Perm [0, 1, 2]) :
    ∃ pt, PyTree.ofPathZ exEnum path triInds (.int 2) none false = .ok pt := by
  refine C86_accepts exEnum exEnum_ok path triInds (by decide) _ _ [u] u h (by simp [hp]) (fun _ x => ?_)
    (fun _ _ _ _ => ⟨2, by decide, rfl⟩) false (by simp)
  rw [(hu.filter _).length_eq]
  by_cases h1 : x = 10
  · subst h1; decide
  · by_cases h2 : x = 11
    · subst h2; decide
    · by_cases h3 : x = 12
      · subst h3; decide
      · simp [List.filter, triInds, h1, h2, h3]

example : ∃ pt, PyTree.ofPathZ exEnum [[-1, 0], [0, 1]] triInds (.int 2) none false = .ok pt :=
  tri_ok _ _ tri_right rfl (by decide)

example : RightPath triInds.length [[-1, 0], [0, 1]] := by
  refine ⟨?_, ?_, trivial⟩ <;>
  · intro x y h
    simp only [List.cons.injEq, and_true] at h
    obtain ⟨rfl, rfl⟩ := h
    decide

example : ∀ F, ¬ Popped (initTerms 3) [[-3, -1]] F := by
  intro F h
  cases h with
  | cons h1 h2 h3 h4 h5 =>
    have h6 : Names 2 (-3) _ := h3
    unfold Names at h6
    omega

/-- C86: the code violates the property. For three tensors the path `[(-2, -1), (0, 1)]` names the last two tensors
first, and is accepted, but the tree contracts the first and the last one first. -/
theorem C86_negative : (∃ pt, PyTree.ofPathZ exEnum [[-2, -1], [0, 1]] triInds (.int 2) none false = .ok pt ∧
      ∃ t, WellFormed pt.core.tree t ∧
        (t.toTerm fun p => pt.tensorsPos.getD p 0) = .pair (.tensor 1) (.pair (.tensor 0) (.tensor 2))) ∧
    Named (initTerms 3) [[-2, -1], [0, 1]] [.pair (.tensor 0) (.pair (.tensor 1) (.tensor 2))] := by
  refine ⟨?_, tri_named⟩
  obtain ⟨pt, hpt⟩ := tri_ok _ _ tri_popped rfl (by decide)
  refine ⟨pt, hpt, ?_⟩
  obtain ⟨t, F, u, h1, h2, h3, h4, -⟩ := C86_tree exEnum exEnum_ok _ triInds (by decide) _ _ _ pt hpt
  refine ⟨t, h1, ?_⟩
  cases popped_unique h2 tri_popped
  rw [h4]
  have h5 : [Term.pair (.tensor 1) (.pair (.tensor 0) (.tensor 2))] = [u] := h3
  simpa using h5.symm

/-- C86: the code violates the property. The constructor accepts `[(0, 0), (0, 1)]`, a path whose first step names one
tensor twice; `contract` raises `ValueError` for it, and `merge_contraction_paths` returns a path. -/
theorem C86_equal : (∃ pt, PyTree.ofPathZ exEnum [[0, 0], [0, 1]] triInds (.int 2) none false = .ok pt) ∧
    (∀ F, ¬ Named (initTerms 3) [[0, 0], [0, 1]] F) ∧
    contractLoopZ (R := ℕ) exEnum ∅ (fun _ => 1) (triInds.map fun xs => (⟨[2, 2], fun _ => 1⟩, xs)) [[0, 0], [0, 1]] = .error .valueError ∧
    mergePathsZ 3 [[[0, 0], [0, 1]]] true = .ok [(0, 1), (0, 1)] := by
  refine ⟨tri_ok _ (.pair (.tensor 2) (.pair (.tensor 1) (.tensor 0))) ?_ rfl (by decide), ?_, rfl, by decide⟩
  · refine .cons (i := 0) (j := 0) (a := .tensor 1) (b := .tensor 0) ?_ rfl ?_ rfl ?_
    · unfold Names; decide
    · unfold Names; decide
    · refine .cons (i := 0) (j := 1) (a := .tensor 2) (b := .pair (.tensor 1) (.tensor 0)) ?_ rfl ?_ rfl .nil
      · unfold Names; decide
      · unfold Names; decide
  · intro F h
    cases h with
    | cons h1 h2 hne _ _ _ => exact hne (names_unique h1 h2)

/-- C86: the code violates the property. `split_contraction_path` fails an assertion for `[(-2, -1)]`, for which the
constructor and `merge_contraction_paths` take the first and the last of three tensors. -/
theorem C86_split : splitPathZ 3 [[-2, -1]] true = .error .assertionError ∧
    splitPathZ 3 [[-2, -1], [0, 1]] true = .error .valueError ∧
    mergePathsZ 3 [[[-2, -1], [0, 1]]] true = .ok [(0, 2), (0, 1)] := by
  refine ⟨?_, ?_, ?_⟩ <;> decide +kernel

/-! ## `merge_contraction_paths` and `contract` -/

/-- C86: every path that the `pop`s can follow contracts the same tensors as a path of natural numbers, and
`merge_contraction_paths` does with it what it does with that path. -/
theorem C86_places (n : ℕ) (path : List (List ℤ)) (F : List Term) (h : Popped (initTerms n) path F) :
    ∃ q, Places n path q ∧ (∀ s ∈ q, s.1 ≠ s.2) ∧ ∃ G, replay (initTerms n) q = some G ∧ List.Forall₂ Term.Same F G := by
  obtain ⟨q, hq⟩ := places_of_popped h
  have hl : (initTerms n).length = n := by simp [initTerms]
  rw [hl] at hq
  have hne : ∀ {k p q}, Places k p q → ∀ s ∈ q, s.1 ≠ s.2 := by
    intro k p q hp
    induction hp with
    | nil => simp
    | cons _ _ _ ih =>
      intro s hs
      rcases List.mem_cons.1 hs with rfl | hs
      · show (if _ < _ then _ else _) ≠ _
        split_ifs <;> omega
      · exact ih s hs
  refine ⟨q, hq, hne hq, ?_⟩
  have e1 : ((initTerms n).map fun t => (t, t)).map Prod.fst = initTerms n := by simp [Function.comp_def]
  have e2 : ((initTerms n).map fun t => (t, t)).map Prod.snd = initTerms n := by simp [Function.comp_def]
  obtain ⟨Z', rfl, h2, h3⟩ := replay_places hq ((initTerms n).map fun t => (t, t)) (by simp [hl])
    (by
      intro p hp
      obtain ⟨t, ht, rfl⟩ := List.mem_map.1 hp
      obtain ⟨i, -, rfl⟩ := List.mem_map.1 ht
      exact .tensor i) (by rw [e1]; exact h)
  rw [e2] at h2
  refine ⟨_, h2, ?_⟩
  rw [List.forall₂_map_left_iff, List.forall₂_map_right_iff, List.forall₂_same]
  exact h3

theorem C86_merge (n : ℕ) (paths : List (List (List ℤ))) (qs : List (List (ℕ × ℕ)))
    (h : List.Forall₂ (Places n) paths qs) (auto : Bool) : mergePathsZ n paths auto = mergePaths n qs auto := by
  unfold mergePathsZ mergePaths
  rw [mergeAllZ_places n h]
  rfl

example : Places 3 [[-2, -1], [0, 1]] [(0, 2), (0, 1)] := by
  refine .cons (i := 0) (j := 2) ?_ ?_ (.cons (i := 0) (j := 1) ?_ ?_ .nil) <;> (unfold Names; decide)

/-- C86: whatever the integers, `contract` keeps the value of the network; if it returns, no step has equal positions
and the `pop`s of the path can be followed. -/
theorem C86_value {R : Type} [CommSemiring R] (enum : Finset ι → List ι) (he : EnumOk enum) (path : List (List ℤ))
    (tsInds : List (List ι)) (output : Option (List ι)) (arrays : List (NDArray R)) (dims : Option (PyDims ι))
    (hn : ∀ xs ∈ tsInds, xs.Nodup) (inds : List (List ι)) (outR : Finset ι) (arrs : List (NDArray R))
    (h : contractZ enum path tsInds output arrays dims = .ok (inds, outR, arrs)) :
    (∀ x y, [x, y] ∈ path → x ≠ y) ∧ (∃ F, Popped (initTerms tsInds.length) path F ∧ F.length = inds.length) ∧
    ∃ d, Consistent d arrays tsInds ∧ Consistent d arrs inds ∧ (∀ xs ∈ inds, xs.Nodup) ∧ IsOutput tsInds output outR ∧
      (∀ x ∈ outR, x ∈ inds.flatten) ∧ (∀ x ∈ inds.flatten, x ∈ tsInds.flatten) ∧
      ∀ l l' : List ι, l.Nodup → l'.Nodup → (∀ x, x ∈ l ↔ x ∈ tsInds.flatten ∧ x ∉ outR) →
        (∀ x, x ∈ l' ↔ x ∈ inds.flatten ∧ x ∉ outR) → ∀ f : ι → ℕ, (∀ x ∈ outR, f x < d x) →
        einsum d l' ((arrs.zip inds).map fun t g => t.1.get (t.2.map g)) f =
        einsum d l ((arrays.zip tsInds).map fun t g => t.1.get (t.2.map g)) f := by
  unfold contractZ at h
  cases hcd : checkDims tsInds (some arrays) dims with
  | error e => rw [hcd] at h; simp at h
  | ok u =>
    rw [hcd] at h
    simp only at h
    obtain ⟨d, hd⟩ := checkDims_consistent hcd
    cases hco : contractOutput tsInds.flatten output with
    | error e => rw [hco] at h; simp at h
    | ok out =>
      rw [hco] at h
      simp only at h
      obtain ⟨o1, o2, -⟩ := contractOutput_isOutput hco
      have hzl : (arrays.zip tsInds).length = tsInds.length := by
        rw [List.length_zip, hd.1, min_self]
      rcases contractLoopZ_spec (out := out) he path (cinv_init hd hn) (F := initTerms tsInds.length)
        (by rw [hzl]; simp [initTerms]) with ⟨ts', i1, i2, ⟨F', i3, i3'⟩, ⟨hc', i4⟩, i5⟩ | ⟨e, -, i2, -⟩
      · rw [i1] at h
        simp only [Except.ok.injEq, Prod.mk.injEq] at h
        obtain ⟨rfl, rfl, rfl⟩ := h
        have hheld : heldL ts' = (ts'.map Prod.snd).flatten := rfl
        have hout : out ∩ (ts'.map Prod.snd).flatten.toFinset = out := by
          refine Finset.inter_eq_left.2 fun x hx => ?_
          rw [List.mem_toFinset]
          exact i5.keep x hx (by rw [heldL_zip hd.1]; exact o2 x hx)
        rw [hout]
        refine ⟨?_, ⟨F', i3, by rw [i3', List.length_map]⟩, d, hd, ⟨by simp, ?_⟩, ?_, o1, ?_, ?_, ?_⟩
        · intro x y hxy he
          have := i2 _ hxy
          simp [sameEntries, he] at this
        · rw [zip_unzip']; exact i4.shape
        · intro xs hxs
          obtain ⟨t, ht, rfl⟩ := List.mem_map.1 hxs
          exact i4.nodup t ht
        · intro x hx
          exact i5.keep x hx (by rw [heldL_zip hd.1]; exact o2 x hx)
        · intro x hx
          rw [← heldL_zip hd.1]
          exact i5.sub x hx
        · intro l l' nl nl' hl hl' f hf
          rw [zip_unzip']
          have := i5.value (l := l) (l' := l') ⟨nl, fun x => by rw [heldL_zip hd.1]; exact hl x⟩ ⟨nl', hl'⟩ f hf
          unfold einsum
          simp only [List.map_map, Function.comp_def]
          exact this.symm
      · rw [i2] at h; simp at h

example : (contractZ (R := ℕ) sortSet [[-1, 0], [-1, 0]] triInds none (triInds.map fun _ => ⟨[2, 2], fun k => k⟩) none).map
    (fun r => (r.1, r.2.1, r.2.2.map fun a : NDArray ℕ => a.get [])) = .ok ([[]], ∅, [45]) := by
  decide +kernel

end TNCO
