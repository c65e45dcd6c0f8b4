import Verif.Lemmas.Contract

/-! The argument checks of `contract`. -/

namespace TNCO
variable {ι R : Type} [DecidableEq ι] [CommSemiring R]

/-- Arrays and indices agree on the dimension of every index. -/
def Consistent (d : ι → ℕ) (arrays : List (NDArray R)) (tsInds : List (List ι)) : Prop :=
  arrays.length = tsInds.length ∧ ∀ t ∈ arrays.zip tsInds, t.1.shape = t.2.map d

/-- What the argument `output_inds` means. -/
def IsOutput (tsInds : List (List ι)) (output : Option (List ι)) (out : Finset ι) : Prop :=
  match output with
  | some l => ∀ x, x ∈ out ↔ x ∈ l
  | none => ∀ x, x ∈ out ↔ tsInds.flatten.count x = 1

theorem checkDims_consistent {tsInds : List (List ι)} {arrays : List (NDArray R)} {dims : Option (PyDims ι)} {u : Unit}
    (h : checkDims tsInds (some arrays) dims = .ok u) : ∃ d, Consistent d arrays tsInds := by
  unfold checkDims at h
  simp only at h
  split at h
  · simp at h
  · rename_i hc
    rw [not_or, not_not] at hc
    refine ⟨fun x => (dictLast ((arrays.zip tsInds).flatMap fun p => p.2.zip p.1.shape) x).getD 0, hc.1, ?_⟩
    intro t ht
    have h2 := hc.2
    simp only [List.any_eq_true, not_exists, not_and, decide_eq_true_eq, not_not] at h2
    have h3 := h2 t ht
    have h4 := congrArg (List.map fun o : Option ℕ => o.getD 0) h3
    simpa [List.map_map, Function.comp_def] using h4

theorem checkDims_go {d : ι → ℕ} {D : PyDims ι} {tsInds : List (List ι)} {dims_ : ι → Option ℕ} {l : List ι}
    (h1 : ∀ x ∈ l, x ∈ tsInds.flatten ∧ dims_ x = some (d x)) (h2 : ∀ x ∈ tsInds.flatten, D.get? x = some (d x)) :
    checkDims.go tsInds dims_ D l = .ok () := by
  induction l with
  | nil => rfl
  | cons x l ih =>
    unfold checkDims.go
    obtain ⟨h3, h4⟩ := h1 x (by simp)
    rw [if_pos h3, h2 x h3]
    simp only [h4, if_true]
    exact ih fun y hy => h1 y (by simp [hy])

theorem checkDims_ok {d : ι → ℕ} {tsInds : List (List ι)} {arrays : List (NDArray R)} {dims : Option (PyDims ι)}
    (h : Consistent d arrays tsInds) (hd : ∀ D, dims = some D → ∀ x ∈ tsInds.flatten, D.get? x = some (d x)) :
    checkDims tsInds (some arrays) dims = .ok () := by
  have hp : ∀ p ∈ (arrays.zip tsInds).flatMap fun p => p.2.zip p.1.shape, p.2 = d p.1 := by
    intro p hp
    obtain ⟨t, ht, hq⟩ := List.mem_flatMap.1 hp
    rw [h.2 t ht, List.zip_map_right, List.zip_eq_zipWith, List.zipWith_self] at hq
    simp only [List.map_map, List.mem_map] at hq
    obtain ⟨a, -, rfl⟩ := hq; rfl
  have hm : ∀ t ∈ arrays.zip tsInds, ∀ x ∈ t.2,
      x ∈ ((arrays.zip tsInds).flatMap fun p => p.2.zip p.1.shape).map Prod.fst := by
    intro t ht x hx
    refine List.mem_map.2 ⟨(x, d x), List.mem_flatMap.2 ⟨t, ht, ?_⟩, rfl⟩
    rw [h.2 t ht, List.zip_map_right, List.zip_eq_zipWith, List.zipWith_self]
    simp only [List.map_map, List.mem_map]
    exact ⟨x, hx, rfl⟩
  unfold checkDims
  simp only
  rw [if_neg]
  · cases dims with
    | none => rfl
    | some D =>
      simp only
      refine checkDims_go (d := d) (fun x hx => ?_) (hd D rfl)
      rw [mem_uniqueEverseen] at hx
      refine ⟨?_, dictLast_eq hp hx⟩
      obtain ⟨p, hpp, rfl⟩ := List.mem_map.1 hx
      obtain ⟨t, ht, hq⟩ := List.mem_flatMap.1 hpp
      exact List.mem_flatten.2 ⟨t.2, (List.of_mem_zip ht).2, (List.of_mem_zip hq).1⟩
  · rw [not_or, not_not]
    refine ⟨h.1, ?_⟩
    simp only [List.any_eq_true, not_exists, not_and, decide_eq_true_eq, not_not]
    intro t ht
    rw [h.2 t ht, List.map_map]
    refine List.map_congr_left fun x hx => ?_
    rw [dictLast_eq hp (hm t ht x hx)]; rfl

theorem contractOutput_isOutput {tsInds : List (List ι)} {output : Option (List ι)} {out : Finset ι}
    (h : contractOutput tsInds.flatten output = .ok out) :
    IsOutput tsInds output out ∧ (∀ x ∈ out, x ∈ tsInds.flatten) ∧
      (output = none → ∀ x, tsInds.flatten.count x ≤ 2) := by
  unfold contractOutput at h
  cases output with
  | some l =>
    simp only at h
    split at h
    · rename_i hs
      simp only [Except.ok.injEq] at h
      subst h
      refine ⟨fun x => by rw [List.mem_toFinset], fun x hx => ?_, by simp⟩
      exact List.mem_toFinset.1 (hs hx)
    · simp at h
  | none =>
    simp only at h
    split at h
    · simp at h
    · rename_i hs
      simp only [Except.ok.injEq] at h
      subst h
      refine ⟨fun x => ?_, fun x hx => ?_, fun _ x => ?_⟩
      · rw [List.mem_toFinset, List.mem_filter, mem_uniqueEverseen, decide_eq_true_eq]
        unfold hyperCount
        constructor
        · intro h; omega
        · intro h; exact ⟨List.count_pos_iff.1 (by omega), by omega⟩
      · rw [List.mem_toFinset, List.mem_filter, mem_uniqueEverseen] at hx
        exact hx.1
      · by_contra h2
        apply hs
        rw [List.any_eq_true]
        refine ⟨x, mem_uniqueEverseen.2 (List.count_pos_iff.1 (by omega)), decide_eq_true ?_⟩
        unfold hyperCount
        omega

theorem contractOutput_ok {tsInds : List (List ι)} {output : Option (List ι)}
    (h : match output with
      | some l => ∀ x ∈ l, x ∈ tsInds.flatten
      | none => ∀ x, tsInds.flatten.count x ≤ 2) : ∃ out, contractOutput tsInds.flatten output = .ok out := by
  unfold contractOutput
  cases output with
  | some l =>
    simp only
    rw [if_pos]
    · exact ⟨_, rfl⟩
    · intro x hx
      exact List.mem_toFinset.2 (h x (List.mem_toFinset.1 hx))
  | none =>
    simp only
    rw [if_neg]
    · exact ⟨_, rfl⟩
    · rw [List.any_eq_true]
      rintro ⟨x, -, hx⟩
      rw [decide_eq_true_eq] at hx
      have := h x
      unfold hyperCount at hx
      omega

theorem heldL_zip {arrays : List (NDArray R)} {tsInds : List (List ι)} (h : arrays.length = tsInds.length) :
    heldL (arrays.zip tsInds) = tsInds.flatten := by
  unfold heldL
  rw [List.map_snd_zip (by omega)]

theorem cinv_init {d : ι → ℕ} {arrays : List (NDArray R)} {tsInds : List (List ι)} (h : Consistent d arrays tsInds)
    (hn : ∀ xs ∈ tsInds, xs.Nodup) : CInv d (hyperCount tsInds.flatten) (arrays.zip tsInds) where
  nodup t ht := hn _ (List.of_mem_zip ht).2
  shape := h.2
  count x hx := by rw [heldL_zip h.1]; rfl

theorem zip_unzip' (ts : List (NDArray R × List ι)) : (ts.map Prod.fst).zip (ts.map Prod.snd) = ts := by
  induction ts with
  | nil => rfl
  | cons t ts ih => simp [ih]

end TNCO
