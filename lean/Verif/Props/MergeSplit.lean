import Verif.Lemmas.SplitMain

/-!
# C28, C29: merged and split paths perform the same contractions
-/

namespace TNCO
open Linear

/-- No two of the paths contract the same tensor. -/
def Disconnected (n : ℕ) (paths : List (List (ℕ × ℕ))) : Prop :=
  paths.Pairwise fun p q => ∀ k, ¬ (Touches n p k ∧ Touches n q k)

/-- C28: disconnected valid paths are merged into a valid path which performs all their contractions,
one path after the other, and nothing else. -/
theorem C28_merge (n : ℕ) (paths : List (List (ℕ × ℕ))) (hv : ∀ p ∈ paths, ValidPath n p)
    (hd : Disconnected n paths) :
    ∃ path F, mergePaths n paths false = .ok path ∧ replay (initTerms n) path = some F ∧
      path.length = (paths.map List.length).sum ∧ F.length + path.length = n ∧
      List.Forall₂ Term.Same (trace (initTerms n) path) ((paths.map (trace (initTerms n))).flatten) := by
  have hnd : ((List.range n).map Lbl.tensor).Nodup := List.nodup_range.map (fun a b h => by injection h)
  obtain ⟨c, h1, h2, -, h4, h5, -⟩ := mergeAll_spec n paths 0 _ hnd (by simp) hv
  have hk := h1.2 ⟨hd, fun p hp k ⟨t, ht, hkt⟩ => by
    obtain ⟨F, hF⟩ := hv p hp
    obtain ⟨c, -, g2, -, -, -, g6, -⟩ := valid_triples 0 hF
    exact g2.input hnd ((g6 k).1 ⟨t, ht, hkt⟩)⟩
  obtain ⟨σ, e1, -, e3⟩ := lin_spec hnd hk τ0 τ0 (fun a _ => by
    cases a <;> exact .tensor _)
  have e : ((List.range n).map Lbl.tensor).map τ0 = initTerms n := by rw [List.map_map]; rfl
  rw [e] at e1 e3
  refine ⟨_, _, ?_, e1, ?_, ?_, ?_⟩
  · simp [mergePaths, h2 hk]
  · rw [lin_length, h5]
  · have := hk.length_final
    simpa [lin_length] using this
  · rw [h4] at e3; exact e3

/-- C28: with `autocomplete` the merged path goes on to contract what is left, in `n - 1` steps,
to a single tensor. -/
theorem C28_autocomplete (n : ℕ) (paths : List (List (ℕ × ℕ))) (hv : ∀ p ∈ paths, ValidPath n p)
    (hd : Disconnected n paths) :
    ∃ path rest, mergePaths n paths false = .ok path ∧ mergePaths n paths true = .ok (path ++ rest) ∧
      (path ++ rest).length = n - 1 ∧ (0 < n → ∃ u, replay (initTerms n) (path ++ rest) = some [u]) := by
  have hnd : ((List.range n).map Lbl.tensor).Nodup := List.nodup_range.map (fun a b h => by injection h)
  obtain ⟨path, F, h1, h2, h3, h4, -⟩ := C28_merge n paths hv hd
  have h5 : ∃ m, mergeAll n 0 ((List.range n).map .tensor) paths = .ok (m, path) := by
    cases hm : mergeAll n 0 ((List.range n).map .tensor) paths with
    | error e => simp [mergePaths, hm] at h1
    | ok r => obtain ⟨m, p⟩ := r; simp [mergePaths, hm] at h1; exact ⟨m, by rw [h1]⟩
  obtain ⟨m, hm⟩ := h5
  have hml : m.length = F.length := by
    obtain ⟨c, g1, g2, g3, -, g5, -⟩ := mergeAll_spec n paths 0 _ hnd (by simp) hv
    by_cases hk : Ok ((List.range n).map Lbl.tensor) c
    · rw [g2 hk] at hm
      simp only [Except.ok.injEq, Prod.mk.injEq] at hm
      have := hk.length_final
      rw [hm.1] at this
      simp only [List.length_map, List.length_range] at this
      rw [h3, ← g5] at h4
      omega
    · rw [g3 hk] at hm; cases hm
  have hFp : path ≠ [] → F ≠ [] := (replay_length h2).2
  refine ⟨path, List.replicate (m.length - 1) (0, 1), h1, by simp [mergePaths, hm], ?_, ?_⟩
  · rw [List.length_append, List.length_replicate, hml]
    by_cases hp : path = []
    · subst hp; simp at h4 ⊢; omega
    · have := List.length_pos_iff.2 (hFp hp); omega
  · intro hn
    have hF0 : 0 < F.length := by
      by_cases hp : path = []
      · subst hp; simp at h4; omega
      · exact List.length_pos_iff.2 (hFp hp)
    obtain ⟨u, hu⟩ := replay_replicate (F.length - 1) F (by omega)
    exact ⟨u, by rw [replay_append h2, hml]; exact hu⟩

/-- C28: paths which are valid but not disconnected are rejected with `ValueError`. -/
theorem C28_rejects (n : ℕ) (paths : List (List (ℕ × ℕ))) (auto : Bool) (hv : ∀ p ∈ paths, ValidPath n p)
    (hd : ¬ Disconnected n paths) : mergePaths n paths auto = .error .valueError := by
  have hnd : ((List.range n).map Lbl.tensor).Nodup := List.nodup_range.map (fun a b h => by injection h)
  obtain ⟨c, h1, -, h3, -⟩ := mergeAll_spec n paths 0 _ hnd (by simp) hv
  have : ¬ Ok ((List.range n).map Lbl.tensor) c := fun h => hd (h1.1 h).1
  simp [mergePaths, h3 this]

/-- Two disconnected paths for five tensors; the second one repeats positions of the first. -/
example : (∀ p ∈ [[(0, 2)], [(1, 3), (2, 3)]], ValidPath 5 p) ∧ Disconnected 5 [[(0, 2)], [(1, 3), (2, 3)]] ∧
    mergePaths 5 [[(0, 2)], [(1, 3), (2, 3)]] true = .ok [(0, 2), (0, 1), (0, 2), (0, 1)] := by
  refine ⟨?_, ?_, by decide +kernel⟩
  · intro p hp
    simp only [List.mem_cons, List.not_mem_nil, or_false] at hp
    rcases hp with rfl | rfl
    · exact ⟨_, rfl⟩
    · exact ⟨_, rfl⟩
  · unfold Disconnected
    simp only [List.pairwise_cons, List.mem_singleton, forall_eq, List.not_mem_nil, false_implies, implies_true,
      List.Pairwise.nil, and_true]
    rintro k ⟨⟨t, ht, hk⟩, ⟨s, hs, hk'⟩⟩
    have e1 : trace ((List.range 5).map Term.tensor) [(0, 2)] = [.pair (.tensor 0) (.tensor 2)] := by decide
    have e2 : trace ((List.range 5).map Term.tensor) [(1, 3), (2, 3)] =
      [.pair (.tensor 1) (.tensor 3), .pair (.tensor 4) (.pair (.tensor 1) (.tensor 3))] := by decide
    rw [e1] at ht; rw [e2] at hs
    simp only [List.mem_cons, List.not_mem_nil, or_false] at ht hs
    subst ht
    rcases hs with rfl | rfl <;> simp [Term.tensors] at hk hk' <;> omega

/-- Two valid paths sharing tensor 2. -/
example : (∀ p ∈ [[(0, 2)], [(1, 2)]], ValidPath 4 p) ∧ ¬ Disconnected 4 [[(0, 2)], [(1, 2)]] := by
  constructor
  · intro p hp
    simp only [List.mem_cons, List.not_mem_nil, or_false] at hp
    rcases hp with rfl | rfl
    · exact ⟨_, rfl⟩
    · exact ⟨_, rfl⟩
  · intro h
    have e1 : trace ((List.range 4).map Term.tensor) [(0, 2)] = [.pair (.tensor 0) (.tensor 2)] := by decide
    have e2 : trace ((List.range 4).map Term.tensor) [(1, 2)] = [.pair (.tensor 1) (.tensor 2)] := by decide
    refine (List.pairwise_cons.1 h).1 [(1, 2)] (by simp) 2 ⟨⟨_, by rw [e1]; exact List.mem_singleton_self _, ?_⟩,
      ⟨_, by rw [e2]; exact List.mem_singleton_self _, ?_⟩⟩ <;> simp [Term.tensors]

/-- C29: a valid path is split without error, into one path for each tensor which it leaves; the
components are the sets of tensors contracted into each of these, and partition the tensors. -/
theorem C29_components (n : ℕ) (path : List (ℕ × ℕ)) (F : List Term) (h : replay (initTerms n) path = some F)
    (norm : Bool) :
    ∃ paths comps, splitPath n path norm = .ok (paths, comps) ∧ paths.length = comps.length ∧
      comps.Perm (F.map fun u => u.tensors.toFinset) ∧ comps.Pairwise Disjoint ∧
      (∀ k, (∃ s ∈ comps, k ∈ s) ↔ k < n) ∧
      (∀ t ∈ trace (initTerms n) path, ∃ s ∈ comps, ∀ i ∈ t.tensors, i ∈ s) := by
  obtain ⟨paths, comps, h1, h2, h3, h4, h5, h6, -⟩ := split_main h norm
  exact ⟨paths, comps, h1, h2, h3, h4, h5, h6⟩

/-- C29: without `normalize_paths` the `k`-th path is valid for all `n` tensors and performs exactly the
contractions of the `k`-th component, in the order of the given path. -/
theorem C29_split (n : ℕ) (path : List (ℕ × ℕ)) (F : List Term) (h : replay (initTerms n) path = some F)
    (paths comps) (hs : splitPath n path false = .ok (paths, comps))
    (k : ℕ) (hk : k < paths.length) (hk' : k < comps.length) :
    ValidPath n paths[k] ∧ List.Forall₂ Term.Same (trace (initTerms n) paths[k])
      ((trace (initTerms n) path).filter fun t => ∀ i ∈ t.tensors, i ∈ comps[k]) := by
  obtain ⟨paths', comps', h1, -, -, -, -, -, h7⟩ := split_main h false
  rw [hs] at h1
  simp only [Except.ok.injEq, Prod.mk.injEq] at h1
  obtain ⟨rfl, rfl⟩ := h1
  obtain ⟨G, g1, -, g3⟩ := h7 k hk hk'
  exact ⟨⟨G, g1⟩, g3⟩

/-- C29: with `normalize_paths` the `k`-th path counts positions among the tensors of the component, in
increasing order; it performs exactly the contractions of the component and ends with the tensor
which the given path makes of it. -/
theorem C29_normalized (n : ℕ) (path : List (ℕ × ℕ)) (F : List Term) (h : replay (initTerms n) path = some F)
    (paths comps) (hs : splitPath n path true = .ok (paths, comps))
    (k : ℕ) (hk : k < paths.length) (hk' : k < comps.length) :
    ∃ u ∈ F, u.tensors.toFinset = comps[k] ∧
      (∃ v, replay (((List.range n).filter (· ∈ comps[k])).map .tensor) paths[k] = some [v] ∧ v.Same u) ∧
      List.Forall₂ Term.Same (trace (((List.range n).filter (· ∈ comps[k])).map .tensor) paths[k])
        ((trace (initTerms n) path).filter fun t => ∀ i ∈ t.tensors, i ∈ comps[k]) := by
  obtain ⟨paths', comps', h1, -, -, -, -, -, h7⟩ := split_main h true
  rw [hs] at h1
  simp only [Except.ok.injEq, Prod.mk.injEq] at h1
  obtain ⟨rfl, rfl⟩ := h1
  obtain ⟨G, g1, g2, g3⟩ := h7 k hk hk'
  obtain ⟨u, hu, e, v, rfl, hv⟩ := g2 rfl
  exact ⟨u, hu, e, ⟨v, g1, hv⟩, g3⟩

/-- C29: without `return_connected_components` the empty paths are left out, the others stay. -/
theorem C29_nonempty (n : ℕ) (path : List (ℕ × ℕ)) (norm : Bool) :
    splitPathOnly n path norm = (splitPath n path norm).map fun r => r.1.filter (· ≠ []) := by
  unfold splitPathOnly
  cases splitPath n path norm with
  | error e => rfl
  | ok r =>
    simp only [Except.map]
    congr 1
    refine List.filter_congr fun p _ => ?_
    simp [List.length_eq_zero_iff]

theorem same_tensors {t u : Term} (h : t.Same u) (k : ℕ) : k ∈ t.tensors ↔ k ∈ u.tensors := by
  induction h with
  | tensor => rfl
  | pair _ _ ih1 ih2 => simp [Term.tensors, ih1, ih2]
  | swap _ _ ih1 ih2 => simp [Term.tensors, ih1, ih2, or_comm]

theorem tensors_ne_nil (t : Term) : ∃ k, k ∈ t.tensors := by
  induction t with
  | tensor i => exact ⟨i, by simp [Term.tensors]⟩
  | pair a b ih _ => obtain ⟨k, hk⟩ := ih; exact ⟨k, by simp [Term.tensors, hk]⟩

theorem forall2_mem {l m : List Term} (h : List.Forall₂ Term.Same l m) {t} (ht : t ∈ l) : ∃ u ∈ m, t.Same u := by
  induction h with
  | nil => cases ht
  | cons h _ ih =>
    rcases List.mem_cons.1 ht with rfl | ht
    · exact ⟨_, by simp, h⟩
    · obtain ⟨u, hu, hs⟩ := ih ht
      exact ⟨u, by simp [hu], hs⟩

theorem Term.Same.trans {a b c : Term} (h : a.Same b) (h' : b.Same c) : a.Same c := by
  induction h generalizing c with
  | tensor => exact h'
  | pair _ _ ih1 ih2 =>
    cases h' with
    | pair h1 h2 => exact .pair (ih1 h1) (ih2 h2)
    | swap h1 h2 => exact .swap (ih1 h1) (ih2 h2)
  | swap _ _ ih1 ih2 =>
    cases h' with
    | pair h1 h2 => exact .swap (ih1 h2) (ih2 h1)
    | swap h1 h2 => exact .pair (ih1 h2) (ih2 h1)

theorem forall2_trans {l m k : List Term} (h : List.Forall₂ Term.Same l m) (h' : List.Forall₂ Term.Same m k) :
    List.Forall₂ Term.Same l k := by
  induction h generalizing k with
  | nil => exact h'
  | cons h _ ih =>
    cases h' with
    | cons g1 g2 => exact .cons (h.trans g1) (ih g2)

/-- C29: splitting a path and merging the parts again performs the same contractions, component by
component. -/
theorem C29_merge_back (n : ℕ) (path : List (ℕ × ℕ)) (F : List Term) (h : replay (initTerms n) path = some F) :
    ∃ paths path' F' l, splitPathOnly n path false = .ok paths ∧ mergePaths n paths false = .ok path' ∧
      replay (initTerms n) path' = some F' ∧ l.Perm (trace (initTerms n) path) ∧
      List.Forall₂ Term.Same (trace (initTerms n) path') l := by
  obtain ⟨paths, comps, h1, h2, h3, h4, h5, h6, h7⟩ := split_main h false
  have hs : ∀ k (hk : k < paths.length) (hk' : k < comps.length), ValidPath n paths[k] ∧
      List.Forall₂ Term.Same (trace (initTerms n) paths[k])
      ((trace (initTerms n) path).filter fun t => ∀ i ∈ t.tensors, i ∈ comps[k]) :=
    fun k hk hk' => C29_split n path F h paths comps h1 k hk hk'
  have htouch : ∀ k (hk : k < paths.length) (hk' : k < comps.length) i, Touches n paths[k] i → i ∈ comps[k] := by
    rintro k hk hk' i ⟨t, ht, hi⟩
    obtain ⟨u, hu, hsu⟩ := forall2_mem (hs k hk hk').2 ht
    have := (List.mem_filter.1 hu).2
    rw [decide_eq_true_eq] at this
    exact this i ((same_tensors hsu i).1 hi)
  have hdis : Disconnected n paths := by
    unfold Disconnected
    rw [List.pairwise_iff_getElem]
    intro i j hi hj hij k hk
    rw [List.pairwise_iff_getElem] at h4
    exact Finset.disjoint_left.1 (h4 i j (by omega) (by omega) hij) (htouch i hi (by omega) k hk.1)
      (htouch j hj (by omega) k hk.2)
  have hval : ∀ p ∈ paths, ValidPath n p := by
    intro p hp
    obtain ⟨k, hk, rfl⟩ := List.mem_iff_getElem.1 hp
    exact (hs k hk (by omega)).1
  obtain ⟨path', F', m1, m2, -, -, m5⟩ := C28_merge n (paths.filter (· ≠ []))
    (fun p hp => hval p (List.mem_filter.1 hp).1) (hdis.filter _)
  have hflat : ((paths.filter (· ≠ [])).map (trace (initTerms n))).flatten = (paths.map (trace (initTerms n))).flatten := by
    clear m1 m2 m5 h1 h2 h7 hs htouch hdis hval
    induction paths with
    | nil => rfl
    | cons p ps ih =>
      by_cases hp : p = []
      · subst hp
        rw [List.filter_cons_of_neg (by simp), ih]; rfl
      · rw [List.filter_cons_of_pos (by simpa using hp), List.map_cons, List.flatten_cons, ih]; rfl
  have hfor : List.Forall₂ Term.Same (paths.map (trace (initTerms n))).flatten
      (comps.flatMap fun s => (trace (initTerms n) path).filter fun t => ∀ i ∈ t.tensors, i ∈ s) := by
    have : ∀ (ps : List (List (ℕ × ℕ))) (cs : List (Finset ℕ)), ps.length = cs.length →
        (∀ k (hk : k < ps.length) (hk' : k < cs.length), List.Forall₂ Term.Same (trace (initTerms n) ps[k])
          ((trace (initTerms n) path).filter fun t => ∀ i ∈ t.tensors, i ∈ cs[k])) →
        List.Forall₂ Term.Same (ps.map (trace (initTerms n))).flatten
          (cs.flatMap fun s => (trace (initTerms n) path).filter fun t => ∀ i ∈ t.tensors, i ∈ s) := by
      intro ps
      induction ps with
      | nil =>
        intro cs hl _
        have : cs = [] := List.length_eq_zero_iff.1 hl.symm
        subst this; exact .nil
      | cons p ps ih =>
        intro cs hl hk
        match cs, hl with
        | c :: cs, hl =>
          simp only [List.map_cons, List.flatten_cons, List.flatMap_cons]
          refine List.rel_append (hk 0 (by simp) (by simp)) (ih cs (by simpa using hl) fun k h1 h2 => ?_)
          exact hk (k + 1) (by simpa using h1) (by simpa using h2)
    exact this paths comps h2 fun k hk hk' => (hs k hk hk').2
  refine ⟨_, path', F', comps.flatMap fun s => (trace (initTerms n) path).filter fun t => ∀ i ∈ t.tensors, i ∈ s,
    by rw [C29_nonempty, h1]; rfl, m1, m2, ?_, ?_⟩
  · refine flatMap_filter_perm (fun (s : Finset ℕ) (t : Term) => decide (∀ i ∈ t.tensors, i ∈ s)) comps _ ?_ ?_
    · refine h4.imp fun hd t _ hc => ?_
      rw [decide_eq_true_eq, decide_eq_true_eq] at hc
      obtain ⟨k, hk⟩ := tensors_ne_nil t
      exact Finset.disjoint_left.1 hd (hc.1 k hk) (hc.2 k hk)
    · intro t ht
      obtain ⟨s, hs, hi⟩ := h6 t ht
      exact ⟨s, hs, decide_eq_true hi⟩
  · rw [hflat] at m5
    exact forall2_trans m5 hfor

/-- A valid path with two components of which one is not contiguous, and an untouched tensor. -/
example : replay (initTerms 6) [(0, 2), (0, 1), (0, 2)] = some [.tensor 5, .pair (.tensor 1) (.tensor 3),
    .pair (.tensor 4) (.pair (.tensor 0) (.tensor 2))] := rfl

example : (splitPath 6 [(0, 2), (0, 1), (0, 2)] true).map (·.1) =
    .ok [[], [(0, 1)], [(0, 1), (0, 1)]] := by decide +kernel

end TNCO
