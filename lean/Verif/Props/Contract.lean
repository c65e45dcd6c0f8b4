import Verif.Lemmas.ContractIn
import Verif.Lemmas.Merge

/-!
# C31, C32: contracting arrays
-/

namespace TNCO
variable {ι R : Type} [DecidableEq ι] [CommSemiring R]

/-- C32: for two tensors that agree on the dimensions, `tensordot` sums exactly the shared indices which
are not hyper-indices, and the result has the hyper-indices, then the other indices of the
first tensor, then those of the second. -/
theorem C32_tensordot (ax ay : NDArray R) (xs ys hyper : List ι) (d : ι → ℕ)
    (hx : xs.Nodup) (hy : ys.Nodup) (sx : ax.shape = xs.map d) (sy : ay.shape = ys.map d)
    (hh : ∀ x ∈ hyper, x ∈ xs ∧ x ∈ ys) :
    ∃ az zs, tensordot ax xs ay ys hyper = .ok (az, zs) ∧ zs.Nodup ∧ az.shape = zs.map d ∧
      (∀ x, x ∈ zs ↔ x ∈ hyper ∨ (x ∈ xs ∧ x ∉ ys) ∨ (x ∈ ys ∧ x ∉ xs)) ∧
      ∀ f : ι → ℕ, (∀ x ∈ zs, f x < d x) → az.get (zs.map f) =
        einsum d (xs.filter fun x => x ∈ ys ∧ x ∉ hyper) [fun g => ax.get (xs.map g), fun g => ay.get (ys.map g)] f := by
  obtain ⟨az, h1, h2, h3⟩ := tensordot_spec sx sy hx hy hh
  refine ⟨az, _, h1, ?_, h2, ?_, ?_⟩
  · refine List.Nodup.append (List.Nodup.append (uniqueEverseen_nodup _) (hx.filter _) ?_) (hy.filter _) ?_
    · intro x h4 h5
      simp only [List.mem_filter, decide_eq_true_eq] at h5
      exact h5.2 (hh x (mem_uniqueEverseen.1 h4)).2
    · intro x h4 h5
      simp only [List.mem_filter, decide_eq_true_eq] at h5
      rcases List.mem_append.1 h4 with h6 | h6
      · exact h5.2 (hh x (mem_uniqueEverseen.1 h6)).1
      · exact h5.2 (List.mem_filter.1 h6).1
  · intro x
    simp only [List.mem_append, mem_uniqueEverseen, List.mem_filter, decide_eq_true_eq]
    tauto
  · intro f hf
    rw [h3 f hf]
    unfold einsum
    refine sumOver_congr fun g _ _ => ?_
    simp

/-- C32: the order of the result's indices, and the mode which only returns the indices. -/
theorem C32_order (xs ys hyper : List ι) (hx : xs.Nodup) (hy : ys.Nodup) (hh : ∀ x ∈ hyper, x ∈ xs ∧ x ∈ ys)
    (hn : hyper.Nodup) : tensordotInds xs ys hyper = .ok (hyper ++ xs.filter (· ∉ ys) ++ ys.filter (· ∉ xs)) := by
  unfold tensordotInds
  rw [dotPlan_ok hx hy hh, uniqueEverseen_of_nodup hn]

/-- C32: both modes return the same indices. -/
theorem C32_inds_only (ax ay az : NDArray R) (xs ys hyper zs : List ι)
    (h : tensordot ax xs ay ys hyper = .ok (az, zs)) : tensordotInds xs ys hyper = .ok zs := by
  unfold tensordot at h
  unfold tensordotInds
  simp only at h
  cases hp : dotPlan xs ys hyper with
  | error e => rw [hp] at h; simp at h
  | ok p =>
    rw [hp] at h
    simp only at h ⊢
    repeat' split at h
    all_goals first | simp at h | skip
    rw [h.2]

/-- C32: a hyper-index which the tensors do not share is an error. -/
theorem C32_not_shared (ax ay : NDArray R) (xs ys hyper : List ι) (hh : ∃ x ∈ hyper, ¬ (x ∈ xs ∧ x ∈ ys)) :
    tensordot ax xs ay ys hyper = .error .valueError ∧ tensordotInds xs ys hyper = .error .valueError := by
  unfold tensordot tensordotInds
  rw [dotPlan_error hh]
  exact ⟨rfl, rfl⟩

/-- A matrix and a vector sharing `1`. -/
example : ∃ az : NDArray ℤ, tensordot ⟨[2, 3], fun k => (k : ℤ)⟩ [0, 1] ⟨[3], fun _ => 1⟩ [1] [] = .ok (az, [0]) ∧
    az.shape = [2] ∧ az.get [0] = 3 ∧ az.get [1] = 12 := ⟨_, rfl, rfl, by decide +kernel, by decide +kernel⟩

/-- A hyper-index is kept, an index of one tensor is kept, a shared one is summed. -/
example : ∃ az : NDArray ℤ, tensordot ⟨[2, 2, 3], fun k => (k : ℤ)⟩ [5, 0, 1] ⟨[3, 2], fun k => (k : ℤ) + 1⟩ [1, 0] [0] =
    .ok (az, [0, 5]) ∧ az.shape = [2, 2] ∧ az.get [1, 1] = 9 * 2 + 10 * 4 + 11 * 6 :=
  ⟨_, rfl, rfl, by decide +kernel⟩

/-- C32: shapes which do not agree index by index go unnoticed if the sizes match. -/
theorem C32_mismatch_unnoticed : ∃ az : NDArray ℤ,
    tensordot ⟨[2, 3], fun k => (k : ℤ)⟩ [0, 1] ⟨[3, 2], fun _ => 1⟩ [0, 1] [] = .ok (az, []) :=
  ⟨_, rfl⟩

/-- C31: `contract` sums every non-output index exactly once: whatever the path, the network it returns has
the same value as the given one. -/
theorem C31_value (enum : Finset ι → List ι) (he : EnumOk enum) (path : List (ℕ × ℕ)) (tsInds : List (List ι))
    (output : Option (List ι)) (arrays : List (NDArray R)) (dims : Option (PyDims ι)) (hn : ∀ xs ∈ tsInds, xs.Nodup)
    (inds : List (List ι)) (outR : Finset ι) (arrs : List (NDArray R))
    (h : contract enum path tsInds output arrays dims = .ok (inds, outR, arrs)) :
    ∃ d, Consistent d arrays tsInds ∧ Consistent d arrs inds ∧ (∀ xs ∈ inds, xs.Nodup) ∧ IsOutput tsInds output outR ∧
      (∀ x ∈ outR, x ∈ inds.flatten) ∧ (∀ x ∈ inds.flatten, x ∈ tsInds.flatten) ∧
      ∀ l l' : List ι, l.Nodup → l'.Nodup → (∀ x, x ∈ l ↔ x ∈ tsInds.flatten ∧ x ∉ outR) →
        (∀ x, x ∈ l' ↔ x ∈ inds.flatten ∧ x ∉ outR) → ∀ f : ι → ℕ, (∀ x ∈ outR, f x < d x) →
        einsum d l' ((arrs.zip inds).map fun t g => t.1.get (t.2.map g)) f =
        einsum d l ((arrays.zip tsInds).map fun t g => t.1.get (t.2.map g)) f := by
  unfold contract at h
  cases hcd : checkDims tsInds (some arrays) dims with
  | error e => rw [hcd] at h; simp at h
  | ok u =>
    rw [hcd] at h
    simp only at h
    obtain ⟨d, hd⟩ := checkDims_consistent hcd
    cases hco : contractOutput tsInds.flatten output with
    | error e => rw [hco] at h; simp at h
    | ok out =>
      rw [hco] at h
      simp only at h
      obtain ⟨o1, o2, -⟩ := contractOutput_isOutput hco
      rcases contractLoop_spec (out := out) he path (cinv_init hd hn) (F := initTerms (arrays.zip tsInds).length)
        (by simp [initTerms]) with ⟨ts', i1, -, -, ⟨hc', i4⟩, i5⟩ | ⟨e, -, i2, -, -⟩
      · rw [i1] at h
        simp only [Except.ok.injEq, Prod.mk.injEq] at h
        obtain ⟨rfl, rfl, rfl⟩ := h
        have hheld : heldL ts' = (ts'.map Prod.snd).flatten := rfl
        have hout : out ∩ (ts'.map Prod.snd).flatten.toFinset = out := by
          refine Finset.inter_eq_left.2 fun x hx => ?_
          rw [List.mem_toFinset]
          exact i5.keep x hx (by rw [heldL_zip hd.1]; exact o2 x hx)
        rw [hout]
        refine ⟨d, hd, ⟨by simp, ?_⟩, ?_, o1, ?_, ?_, ?_⟩
        · rw [zip_unzip']; exact i4.shape
        · intro xs hxs
          obtain ⟨t, ht, rfl⟩ := List.mem_map.1 hxs
          exact i4.nodup t ht
        · intro x hx
          exact i5.keep x hx (by rw [heldL_zip hd.1]; exact o2 x hx)
        · intro x hx
          rw [← heldL_zip hd.1]
          exact i5.sub x hx
        · intro l l' nl nl' hl hl' f hf
          rw [zip_unzip']
          have := i5.value (l := l) (l' := l') ⟨nl, fun x => by rw [heldL_zip hd.1]; exact hl x⟩ ⟨nl', hl'⟩ f hf
          unfold einsum
          simp only [List.map_map, Function.comp_def]
          exact this.symm
      · rw [i2] at h; simp at h

/-- C31: with a path that contracts everything, if every non-output index is in at least two tensors, `contract` returns a single
array over the output indices, and it is the value of the network. -/
theorem C31_complete (enum : Finset ι → List ι) (he : EnumOk enum) (path : List (ℕ × ℕ)) (tsInds : List (List ι))
    (output : Option (List ι)) (arrays : List (NDArray R)) (dims : Option (PyDims ι)) (hn : ∀ xs ∈ tsInds, xs.Nodup)
    (inds : List (List ι)) (outR : Finset ι) (arrs : List (NDArray R))
    (h : contract enum path tsInds output arrays dims = .ok (inds, outR, arrs)) (h1 : path.length + 1 = tsInds.length)
    (h2 : ∀ x ∈ tsInds.flatten, x ∉ outR → 2 ≤ tsInds.flatten.count x) :
    ∃ d zs az, Consistent d arrays tsInds ∧ inds = [zs] ∧ arrs = [az] ∧ zs.Nodup ∧ (∀ x, x ∈ zs ↔ x ∈ outR) ∧
      IsOutput tsInds output outR ∧ az.shape = zs.map d ∧
      ∀ l : List ι, l.Nodup → (∀ x, x ∈ l ↔ x ∈ tsInds.flatten ∧ x ∉ outR) → ∀ f : ι → ℕ, (∀ x ∈ outR, f x < d x) →
        az.get (zs.map f) = einsum d l ((arrays.zip tsInds).map fun t g => t.1.get (t.2.map g)) f := by
  have h0 := h
  obtain ⟨d, v1, v2, v3, v4, v5, v6, v7⟩ := C31_value enum he path tsInds output arrays dims hn inds outR arrs h
  unfold contract at h
  cases hcd : checkDims tsInds (some arrays) dims with
  | error e => rw [hcd] at h; simp at h
  | ok u =>
    rw [hcd] at h
    simp only at h
    cases hco : contractOutput tsInds.flatten output with
    | error e => rw [hco] at h; simp at h
    | ok out =>
      rw [hco] at h
      simp only at h
      obtain ⟨o1, o2, -⟩ := contractOutput_isOutput hco
      rcases contractLoop_spec (out := out) he path (cinv_init v1 hn) (F := initTerms (arrays.zip tsInds).length)
        (by simp [initTerms]) with ⟨ts', i1, -, ⟨F', i3, i3'⟩, ⟨hc', i4⟩, i5⟩ | ⟨e, -, i2, -, -⟩
      · rw [i1] at h
        simp only [Except.ok.injEq, Prod.mk.injEq] at h
        obtain ⟨rfl, hout, rfl⟩ := h
        have hout' : outR = out := by
          rw [← hout]
          refine Finset.inter_eq_left.2 fun x hx => ?_
          rw [List.mem_toFinset]
          exact i5.keep x hx (by rw [heldL_zip v1.1]; exact o2 x hx)
        have hlen := Linear.replay_length i3
        have hz : (arrays.zip tsInds).length = tsInds.length := by rw [List.length_zip, v1.1, Nat.min_self]
        rw [initTerms, List.length_map, List.length_range, hz] at hlen
        have h1' : ts'.length = 1 := by omega
        obtain ⟨⟨az, zs⟩, rfl⟩ := List.length_eq_one_iff.1 h1'
        have hheld : heldL [(az, zs)] = zs := by simp [heldL]
        have hzn : zs.Nodup := i4.nodup (az, zs) (by simp)
        have hmem : ∀ x, x ∈ zs ↔ x ∈ outR := by
          intro x
          constructor
          · intro hx
            by_contra ho
            have := i5.two (fun y hy hyo => by
              rw [heldL_zip v1.1] at hy ⊢
              exact h2 y hy (by rw [hout']; exact hyo)) x (by rw [hheld]; exact hx) (by rw [← hout']; exact ho)
            rw [hheld, count_of_nodup hzn] at this
            split at this <;> omega
          · intro hx
            have := v5 x hx
            simpa using this
        refine ⟨d, zs, az, v1, rfl, rfl, hzn, hmem, v4, i4.shape (az, zs) (by simp), ?_⟩
        intro l nl hl f hf
        rw [← v7 l [] nl List.nodup_nil hl (by intro x; simp [hmem]) f hf]
        simp [einsum, sumOver]
      · rw [i2] at h; simp at h

/-- C31: no index is left dangling: if every non-output index is in at least two tensors, then so it is in the network returned. -/
theorem C31_no_dangling (enum : Finset ι → List ι) (he : EnumOk enum) (path : List (ℕ × ℕ)) (tsInds : List (List ι))
    (output : Option (List ι)) (arrays : List (NDArray R)) (dims : Option (PyDims ι)) (hn : ∀ xs ∈ tsInds, xs.Nodup)
    (inds : List (List ι)) (outR : Finset ι) (arrs : List (NDArray R))
    (h : contract enum path tsInds output arrays dims = .ok (inds, outR, arrs))
    (h2 : ∀ x ∈ tsInds.flatten, x ∉ outR → 2 ≤ tsInds.flatten.count x) : ∀ x ∈ inds.flatten, x ∉ outR → 2 ≤ inds.flatten.count x := by
  obtain ⟨d, v1, v2, v3, v4, v5, v6, v7⟩ := C31_value enum he path tsInds output arrays dims hn inds outR arrs h
  unfold contract at h
  cases hcd : checkDims tsInds (some arrays) dims with
  | error e => rw [hcd] at h; simp at h
  | ok u =>
    rw [hcd] at h
    simp only at h
    cases hco : contractOutput tsInds.flatten output with
    | error e => rw [hco] at h; simp at h
    | ok out =>
      rw [hco] at h
      simp only at h
      obtain ⟨o1, o2, -⟩ := contractOutput_isOutput hco
      rcases contractLoop_spec (out := out) he path (cinv_init v1 hn) (F := initTerms (arrays.zip tsInds).length)
        (by simp [initTerms]) with ⟨ts', i1, -, ⟨F', i3, i3'⟩, ⟨hc', i4⟩, i5⟩ | ⟨e, -, i2, -, -⟩
      · rw [i1] at h
        simp only [Except.ok.injEq, Prod.mk.injEq] at h
        obtain ⟨rfl, hout, rfl⟩ := h
        have hout' : outR = out := by
          rw [← hout]
          refine Finset.inter_eq_left.2 fun x hx => ?_
          rw [List.mem_toFinset]
          exact i5.keep x hx (by rw [heldL_zip v1.1]; exact o2 x hx)
        intro x hx ho
        exact i5.two (fun y hy hyo => by
          rw [heldL_zip v1.1] at hy ⊢
          exact h2 y hy (by rw [hout']; exact hyo)) x hx (by rw [← hout']; exact ho)
      · rw [i2] at h; simp at h

/-- C31: two complete paths give the same array, up to the order of the axes. -/
theorem C31_path_independent (enum enum' : Finset ι → List ι) (he : EnumOk enum) (he' : EnumOk enum')
    (path path' : List (ℕ × ℕ)) (tsInds : List (List ι)) (output : Option (List ι)) (arrays : List (NDArray R))
    (dims dims' : Option (PyDims ι)) (hn : ∀ xs ∈ tsInds, xs.Nodup) (r r' : List (List ι) × Finset ι × List (NDArray R))
    (h : contract enum path tsInds output arrays dims = .ok r)
    (h' : contract enum' path' tsInds output arrays dims' = .ok r')
    (h1 : path.length + 1 = tsInds.length) (h1' : path'.length + 1 = tsInds.length)
    (h2 : ∀ x ∈ tsInds.flatten, x ∉ r.2.1 → 2 ≤ tsInds.flatten.count x) :
    ∃ zs zs' az az', r.1 = [zs] ∧ r'.1 = [zs'] ∧ r.2.2 = [az] ∧ r'.2.2 = [az'] ∧ r.2.1 = r'.2.1 ∧ zs.Perm zs' ∧
      ∃ d : ι → ℕ, az.shape = zs.map d ∧ az'.shape = zs'.map d ∧
        ∀ f : ι → ℕ, (∀ x ∈ zs, f x < d x) → az.get (zs.map f) = az'.get (zs'.map f) := by
  obtain ⟨inds, outR, arrs⟩ := r
  obtain ⟨inds', outR', arrs'⟩ := r'
  obtain ⟨d, zs, az, a1, rfl, rfl, a2, a3, a4, a5, a6⟩ :=
    C31_complete enum he path tsInds output arrays dims hn inds outR arrs h h1 h2
  obtain ⟨d₀, -, -, -, o', -⟩ := C31_value enum' he' path' tsInds output arrays dims' hn inds' outR' arrs' h'
  have ho : outR = outR' := by
    ext x
    cases output with
    | none => rw [a4 x, o' x]
    | some l => rw [a4 x, o' x]
  subst ho
  obtain ⟨d', zs', az', b1, rfl, rfl, b2, b3, b4, b5, b6⟩ :=
    C31_complete enum' he' path' tsInds output arrays dims' hn inds' outR arrs' h' h1' h2
  have hd : ∀ x ∈ tsInds.flatten, d x = d' x := by
    intro x hx
    obtain ⟨xs, hxs, hx⟩ := List.mem_flatten.1 hx
    have hsnd : (arrays.zip tsInds).map Prod.snd = tsInds := List.map_snd_zip (by rw [a1.1])
    rw [← hsnd] at hxs
    obtain ⟨t, ht, rfl⟩ := List.mem_map.1 hxs
    have e := (a1.2 t ht).symm.trans (b1.2 t ht)
    exact List.map_inj_left.1 e x hx
  obtain ⟨l, hl, hlm⟩ : ∃ l : List ι, l.Nodup ∧ ∀ x, x ∈ l ↔ x ∈ tsInds.flatten ∧ x ∉ outR :=
    ⟨(uniqueEverseen tsInds.flatten).filter (· ∉ outR), (uniqueEverseen_nodup _).filter _, fun x => by
      rw [List.mem_filter, mem_uniqueEverseen, decide_eq_true_eq]⟩
  obtain ⟨-, w1, -, -, -, w5, w6, -⟩ := C31_value enum he path tsInds output arrays dims hn _ outR _ h
  have hzf : ∀ x ∈ zs, x ∈ tsInds.flatten := fun x hx => w6 x (by simpa using hx)
  refine ⟨zs, zs', az, az', rfl, rfl, rfl, rfl, rfl, perm_of_mem a2 b2 fun x => by rw [a3, b3], d, a5, ?_, ?_⟩
  · rw [b5]
    refine List.map_congr_left fun x hx => (hd x (hzf x ?_)).symm
    rw [a3, ← b3]; exact hx
  · intro f hf
    have hf1 : ∀ x ∈ outR, f x < d x := fun x hx => hf x ((a3 x).2 hx)
    rw [a6 l hl hlm f hf1, b6 l hl hlm f fun x hx => by rw [← hd x (hzf x ((a3 x).2 hx))]; exact hf1 x hx]
    have hs : ∀ (m : List ι), (∀ x ∈ m, x ∈ tsInds.flatten) → ∀ (F : (ι → ℕ) → R) f, sumOver d m F f = sumOver d' m F f := by
      intro m hm F
      induction m with
      | nil => intro f; rfl
      | cons x m ih =>
        intro f
        simp only [sumOver]
        rw [hd x (hm x (by simp))]
        exact Finset.sum_congr rfl fun i _ => ih (fun y hy => hm y (by simp [hy])) _
    exact hs l (fun x hx => ((hlm x).1 hx).1) _ f

/-- C31: consistent arguments and a valid path never fail, and a path which is not valid is an error. -/
theorem C31_succeeds (enum : Finset ι → List ι) (he : EnumOk enum) (path : List (ℕ × ℕ)) (tsInds : List (List ι))
    (output : Option (List ι)) (arrays : List (NDArray R)) (dims : Option (PyDims ι)) (hn : ∀ xs ∈ tsInds, xs.Nodup)
    (d : ι → ℕ) (hc : Consistent d arrays tsInds) (hd : ∀ D, dims = some D → ∀ x ∈ tsInds.flatten, D.get? x = some (d x))
    (ho : match output with
      | some l => ∀ x ∈ l, x ∈ tsInds.flatten
      | none => ∀ x, tsInds.flatten.count x ≤ 2) :
    (ValidPath tsInds.length path → ∃ r, contract enum path tsInds output arrays dims = .ok r) ∧
    (¬ ValidPath tsInds.length path → contract enum path tsInds output arrays dims = .error .valueError ∨
      contract enum path tsInds output arrays dims = .error .indexError) := by
  have hz : (arrays.zip tsInds).length = tsInds.length := by rw [List.length_zip, hc.1, Nat.min_self]
  obtain ⟨out, hout⟩ := contractOutput_ok ho
  have hv : ValidPath tsInds.length path ↔ ∃ F, replay (initTerms (arrays.zip tsInds).length) path = some F := by
    rw [hz]; rfl
  rw [hv]
  unfold contract
  rw [checkDims_ok hc hd]
  simp only [hout]
  rcases contractLoop_spec (out := out) he path (cinv_init hc hn) (F := initTerms (arrays.zip tsInds).length)
    (by simp [initTerms]) with ⟨ts', i1, -, ⟨F', i3, -⟩, -, -⟩ | ⟨e, i1, i2, -, i4⟩
  · refine ⟨fun _ => ?_, fun h => absurd ⟨F', i3⟩ h⟩
    rw [i1]; exact ⟨_, rfl⟩
  · refine ⟨fun ⟨F, h⟩ => by rw [i4] at h; simp at h, fun _ => ?_⟩
    rw [i2]
    rcases i1 with rfl | rfl
    · exact Or.inl rfl
    · exact Or.inr rfl

/-- C31: without arrays, `contract` returns the same indices. -/
theorem C31_inds_only (enum : Finset ι → List ι) (he : EnumOk enum) (path : List (ℕ × ℕ)) (tsInds : List (List ι))
    (output : Option (List ι)) (arrays : List (NDArray R)) (dims : Option (PyDims ι)) (hn : ∀ xs ∈ tsInds, xs.Nodup)
    (inds : List (List ι)) (outR : Finset ι) (arrs : List (NDArray R))
    (h : contract enum path tsInds output arrays dims = .ok (inds, outR, arrs)) (D : PyDims ι)
    (hD : ∀ x ∈ tsInds.flatten, (D.get? x).isSome) : contractInds enum path tsInds output (some D) = .ok (inds, outR) := by
  unfold contract at h
  cases hcd : checkDims tsInds (some arrays) dims with
  | error e => rw [hcd] at h; simp at h
  | ok u =>
    rw [hcd] at h
    simp only at h
    obtain ⟨d, hd⟩ := checkDims_consistent hcd
    cases hco : contractOutput tsInds.flatten output with
    | error e => rw [hco] at h; simp at h
    | ok out =>
      rw [hco] at h
      simp only at h
      have hsnd : (arrays.zip tsInds).map Prod.snd = tsInds := List.map_snd_zip (by rw [hd.1])
      rcases contractLoop_spec (out := out) he path (cinv_init hd hn) (F := initTerms (arrays.zip tsInds).length)
        (by simp [initTerms]) with ⟨ts', i1, i2, -⟩ | ⟨e, -, i2, -, -⟩
      · rw [i1] at h
        simp only [Except.ok.injEq, Prod.mk.injEq] at h
        obtain ⟨rfl, rfl, rfl⟩ := h
        rw [hsnd] at i2
        have hck : checkDims (R := ℕ) tsInds none (some D) = .ok () := by
          unfold checkDims
          cases D with
          | int n => rfl
          | dict f =>
            simp only
            rw [if_pos]
            rw [List.all_eq_true]
            exact hD
        unfold contractInds
        rw [hck]
        simp only [hco, i2]
      · rw [i2] at h; simp at h

/-- C31: an index of a single tensor which is not an output index is never summed: the network
`T[i,j] V[j]` with no output indices should give a number, `contract` returns a vector. -/
theorem C31_dangling (enum : Finset ℕ → List ℕ) (he : EnumOk enum) :
    ∃ az : NDArray ℤ, contract enum [(0, 1)] [[0, 1], [1]] (some []) [⟨[2, 2], fun _ => 1⟩, ⟨[2], fun _ => 1⟩] none =
      .ok ([[0]], ∅, [az]) := by
  have h1 := (C31_succeeds enum he [(0, 1)] [[0, 1], [1]] (some []) [(⟨[2, 2], fun _ => 1⟩ : NDArray ℤ), ⟨[2], fun _ => 1⟩]
    none (by decide) (fun _ => 2) ⟨rfl, by decide⟩ (by simp) (by simp)).1 ⟨_, rfl⟩
  have hk : keptInds (hyperCount [0, 1, 1]) (∅ : Finset ℕ) [0, 1] [1] = ∅ := by decide
  have hnil : enum ∅ = [] := List.eq_nil_iff_forall_not_mem.2 fun x hx => by simpa using ((he ∅).2 x).1 hx
  have c : countsOk (hyperCount [0, 1, 1]) [0, 1] [1] = true := by decide
  have hp : popPair [[0, 1], [1]] 0 1 = some ([0, 1], [1], []) := rfl
  have hl : contractIndsLoop enum ∅ (hyperCount [0, 1, 1]) [[0, 1], [1]] [(0, 1)] = .ok [[0]] := by
    unfold contractIndsLoop
    rw [if_neg (by decide), hp]
    simp only [c, hk, hnil]
    rfl
  have hi : contractInds enum [(0, 1)] [[0, 1], [1]] (some []) (some (.int 2)) = .ok ([[0]], ∅) := by
    unfold contractInds
    have e1 : checkDims (R := ℕ) [[0, 1], [1]] none (some (.int 2)) = .ok () := rfl
    have e2 : contractOutput [[0, 1], [1]].flatten (some []) = .ok ∅ := by decide
    rw [e1, e2]
    simp only
    rw [show [[0, 1], [1]].flatten = [0, 1, 1] from rfl, hl]
    rfl
  obtain ⟨⟨inds, outR, arrs⟩, h1⟩ := h1
  have hn : ∀ xs ∈ [[0, 1], [1]], xs.Nodup := by decide
  have h2 := C31_inds_only enum he _ _ _ _ _ hn inds outR arrs h1 (.int 2) (by simp [PyDims.get?])
  rw [hi] at h2
  simp only [Except.ok.injEq, Prod.mk.injEq] at h2
  obtain ⟨rfl, rfl⟩ := h2
  obtain ⟨d, -, h3, -⟩ := C31_value enum he _ _ _ _ _ hn _ _ arrs h1
  obtain ⟨az, rfl⟩ := List.length_eq_one_iff.1 h3.1
  exact ⟨az, h1⟩

/-- A network with a hyper-index (`1`, in three tensors) and two output indices; the path is complete. -/
example (enum : Finset ℕ → List ℕ) (he : EnumOk enum) :
    (∃ r, contract enum [(0, 1), (0, 1)] [[0, 1], [1, 2], [1, 2, 3]] (some [0, 3])
      [(⟨[2, 3], fun k => (k : ℤ)⟩ : NDArray ℤ), ⟨[3, 4], fun k => (k : ℤ)⟩, ⟨[3, 4, 2], fun k => (k : ℤ)⟩] none = .ok r) ∧
    ∀ x ∈ [[0, 1], [1, 2], [1, 2, 3]].flatten, x ∉ ({0, 3} : Finset ℕ) →
      2 ≤ [[0, 1], [1, 2], [1, 2, 3]].flatten.count x :=
  ⟨(C31_succeeds enum he _ _ (some [0, 3]) _ none (by decide) (fun x => [2, 3, 4, 2].getD x 0) ⟨rfl, by decide⟩ (by simp)
    (by decide)).1 ⟨_, rfl⟩, by decide⟩

end TNCO
