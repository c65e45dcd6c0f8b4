import Verif.Lemmas.LoadNet
import Verif.Props.RandomPath
import Verif.Model.FiniteWidth

/-!
# C57: loading a tensor network
-/

namespace TNCO
variable {ι K T σ W : Type} [DecidableEq ι] [Zero W] [Add W] [LT W] [DecidableLT W] [CommRing K] [DecidableEq K]

/-- The network returned is `N`, with the dimensions of its indices. -/
def ArrNet.SameAs (d : ι → ℕ) (N N' : ArrNet ι K T) : Prop :=
  N'.tsInds = N.tsInds ∧ N'.arrays = N.arrays ∧ N'.tsTags = N.tsTags ∧ N'.output = N.output ∧ N'.sparse = N.sparse ∧ N'.hyperMap = N.hyperMap ∧
    N'.fusePath = N.fusePath ∧ ∀ x n, N'.dims x = some n ↔ x ∈ N.tsInds.flatten ∧ n = d x

omit [Zero W] [Add W] [LT W] [DecidableLT W] [CommRing K] [DecidableEq K] in
theorem return_same {A : LoadNetArgs ι σ W} (he : EnumOk A.enum) {d : ι → ℕ} {N : ArrNet ι K T} (h : N.Fits d)
    (h1 : N.arrays.length = N.tsInds.length) (h2 : N.tsTags.length = N.tsInds.length)
    (ho : ∀ x ∈ N.output, x ∈ N.tsInds.flatten) (hs : ∀ x ∈ N.sparse, x ∈ N.tsInds.flatten) :
    ∃ N', returnStep A N = .ok N' ∧ N.SameAs d N' := by
  obtain ⟨D, hD, h3⟩ := returnStep_ok he h ho hs
  exact ⟨_, h3, rfl, by rw [← h1]; exact List.take_length, by rw [← h2]; exact List.take_length, rfl, rfl, rfl, rfl, hD⟩

/-- The width for which tensors are fused, if they are. -/
def LoadNetArgs.Fuses (A : LoadNetArgs ι σ W) (w : W) : Prop := A.fuse = some w ∧ 0 < w

/-- C57: a network with sparse indices, or with some but not all of the arrays, is returned as it is; and so is any network if there is nothing to do. -/
theorem C57_unchanged (A : LoadNetArgs ι σ W) (hA : A.Ok) (d : ι → ℕ) (N : ArrNet ι K T) (hN : N.Ok d)
    (h : N.sparse ≠ ∅ ∨ (∃ a ∈ N.arrays, a.isSome) ∧ (∃ a ∈ N.arrays, a = none) ∨
      (A.decompose = false ∨ ∃ a ∈ N.arrays, a = none) ∧ ¬ ∃ w, A.Fuses w) :
    ∃ N', loadNet A N = some (.ok N') ∧ N.SameAs d N' := by
  obtain ⟨N', h1, h2⟩ := return_same hA.enum hN.fits hN.arrays hN.tags hN.output hN.sparse
  have hlt : (∃ a ∈ N.arrays, a = none) → N.provided < N.arrays.length := by
    rintro ⟨a, ha, rfl⟩
    unfold ArrNet.provided
    refine lt_of_le_of_ne List.countP_le_length fun he => ?_
    have := List.countP_eq_length.1 he none ha
    simp at this
  have hpos : (∃ a ∈ N.arrays, a.isSome) → N.provided ≠ 0 := by
    rintro ⟨a, ha, hs⟩ he
    exact absurd hs (List.countP_eq_zero.1 he a ha)
  refine ⟨N', ?_, h2⟩
  have hp : prepareNet A N = some (.ok N) := by
    unfold prepareNet
    have hd : wantDecompose A.decompose N = false := by
      unfold wantDecompose
      rcases h with h | ⟨-, h⟩ | ⟨h | h, -⟩
      · rw [if_pos h]
      · split
        · rfl
        · rw [if_pos (hlt h)]
      · rw [h]; simp
      · split
        · rfl
        · rw [if_pos (hlt h)]
    rw [hd]
    simp only [Bool.false_eq_true, if_false]
    cases hw : wantFuse A.fuse N with
    | none => rfl
    | some w =>
      simp only
      rw [if_neg]
      intro hw0
      unfold wantFuse at hw
      split at hw
      · cases hw
      · rename_i hsp
        split at hw
        · cases hw
        · rename_i hpr
          rcases h with h | ⟨h, h'⟩ | ⟨-, h⟩
          · exact hsp h
          · have e1 := hpos h
            have e2 := hlt h'
            apply hpr
            simp only [List.mem_cons, List.not_mem_nil, or_false, not_or]
            exact ⟨e1, by omega⟩
          · exact h ⟨w, hw, hw0⟩
  unfold loadNet
  rw [hp]
  simp only [h1]

/-- C57: without arrays only the indices are fused. -/
theorem C57_inds (A : LoadNetArgs ι σ W) (hA : A.Ok) (d : ι → ℕ) (N : ArrNet ι K T) (hN : N.Ok d) (hs : N.sparse = ∅)
    (ha : ∀ a ∈ N.arrays, a = none) (h0 : N.arrays ≠ []) (w : W) (hw : A.Fuses w) (hp : N.fusePath = none)
    (hfuel : N.tsInds.length + (uniqueEverseen N.tsInds.flatten).length < A.fuel) :
    ∃ N' path, loadNet A N = some (.ok N') ∧ N.Fused A.enum A.log2 d w N' path ∧ N'.hyperMap = N.hyperMap ∧
      N'.arrays.length = N'.tsInds.length ∧ (∀ a ∈ N'.arrays, a = none) ∧ ∀ x n, N'.dims x = some n ↔ x ∈ N'.tsInds.flatten ∧ n = d x := by
  have hp0 : N.provided = 0 := List.countP_eq_zero.2 fun a h => by rw [ha a h]; simp
  obtain ⟨N2, path, h1, h2, h3, h4, h5, h6, h7, h8, h9⟩ := fuseStep_inds hA hN (w := w) hfuel hp ha
  obtain ⟨D, hD, h10⟩ := returnStep_ok hA.enum h3 (by rw [h2.output]; exact h7) (by rw [h2.sparse, hs]; simp)
  refine ⟨{ N2 with arrays := N2.arrays.take N2.tsInds.length, tsTags := N2.tsTags.take N2.tsInds.length, dims := D }, path, ?_,
    ⟨h2.recorded, h2.valid, h2.width, h2.inds, h2.output, h2.sparse, ?_⟩, h5, ?_, ?_, hD⟩
  · unfold loadNet prepareNet
    have hd : wantDecompose A.decompose N = false := by
      unfold wantDecompose
      rw [if_neg (by rw [hs]; simp), if_pos]
      rw [hp0]
      exact List.length_pos_of_ne_nil h0
    have hf : wantFuse A.fuse N = some w := by
      unfold wantFuse
      rw [if_neg (by rw [hs]; simp), hp0, if_neg (by simp), hw.1]
    rw [hd]
    simp only [Bool.false_eq_true, if_false, hf, if_pos hw.2, hp0, h1, h10]
  · simp only [← h8, List.take_length]
    exact h2.tags
  · simp only [List.length_take, h4, hN.arrays]
    have := contractInds_length h2.inds
    omega
  · intro a h
    simp only [h4] at h
    exact ha a (List.mem_of_mem_take h)

omit [Zero W] [Add W] [LT W] [DecidableLT W] [CommRing K] [DecidableEq K] in
theorem provided_all {N : ArrNet ι K T} (ha : ∀ a ∈ N.arrays, a.isSome) : N.provided = N.arrays.length :=
  List.countP_eq_length.2 fun a h => ha a h

omit [DecidableEq K] in
theorem SameAs_value {d : ι → ℕ} {N N' : ArrNet ι K T} (h : N.SameAs d N') (f : ι → ℕ) : N'.value d f = N.value d f := by
  obtain ⟨h1, h2, -, h3, -⟩ := h
  unfold ArrNet.value ArrNet.summed
  rw [h1, h2, h3]

/-- C57: with all arrays and without decomposition, the tensors are fused and the value of the network is the same. -/
theorem C57_fuse (A : LoadNetArgs ι σ W) (hA : A.Ok) (d : ι → ℕ) (N : ArrNet ι K T) (hN : N.Ok d) (hs : N.sparse = ∅)
    (ha : ∀ a ∈ N.arrays, a.isSome) (h0 : N.arrays ≠ []) (hdec : A.decompose = false) (w : W) (hw : A.Fuses w) (hp : N.fusePath = none)
    (hfuel : N.tsInds.length + (uniqueEverseen N.tsInds.flatten).length < A.fuel) :
    ∃ N' path, loadNet A N = some (.ok N') ∧ N.Fused A.enum A.log2 d w N' path ∧ N'.hyperMap = N.hyperMap ∧ N'.Ok d ∧
      (∀ a ∈ N'.arrays, a.isSome) ∧ ∀ f : ι → ℕ, (∀ x ∈ N.output, f x < d x) → N'.value d f = N.value d f := by
  have hp0 : N.provided ≠ 0 := by rw [provided_all ha]; exact (List.length_pos_of_ne_nil h0).ne'
  obtain ⟨N2, path, h1, h2, h3, h4, h5, h6, h7⟩ := fuseStep_arrays hA hN (w := w) hfuel hp ha hs hp0
  obtain ⟨N', h8, h9⟩ := return_same hA.enum h3.fits h3.arrays h3.tags h3.output h3.sparse
  have hv := SameAs_value h9
  obtain ⟨e1, e2, e3, e4, e5, e6, e7, e8⟩ := h9
  refine ⟨N', path, ?_, ⟨by rw [e7]; exact h2.recorded, h2.valid, h2.width, by rw [e1]; exact h2.inds, by rw [e4]; exact h2.output,
    by rw [e5]; exact h2.sparse, by rw [e3]; exact h2.tags⟩, by rw [e6, h5], ?_, by rw [e2]; exact h4, fun f hf => by rw [hv, h7 f hf]⟩
  · unfold loadNet prepareNet
    have hd : wantDecompose A.decompose N = false := by
      unfold wantDecompose
      rw [hdec]; simp
    have hf : wantFuse A.fuse N = some w := by
      unfold wantFuse
      rw [if_neg (by rw [hs]; simp), provided_all ha, if_neg (by simp), hw.1]
    rw [hd]
    simp only [Bool.false_eq_true, if_false, hf, if_pos hw.2, h1, h8]
  · exact ⟨by rw [e1, e2]; exact h3.arrays, by rw [e1, e3]; exact h3.tags, fun x hx => by
      rw [e1] at hx; exact ⟨(e8 x _).2 ⟨hx, rfl⟩, (h3.dims x hx).2⟩, by rw [e1, e2]; exact h3.shape, by rw [e1]; exact h3.nodup,
      by rw [e1, e4]; exact h3.output, by rw [e1, e5]; exact h3.sparse⟩

omit [CommRing K] [DecidableEq K] in
theorem return_rejects {A : LoadNetArgs ι σ W} (he : EnumOk A.enum) {d : ι → ℕ} {N : ArrNet ι K T} (h : N.Fits d)
    (ho : ∃ x ∈ N.output, x ∉ N.tsInds.flatten) : returnStep A N = .error .valueError := by
  obtain ⟨ts, h1, h2, h3⟩ := tensorRecs_ok N.tsInds N.arrays N.tsTags h.arrays h.tags h.dims h.shape
  have := (C45_network ts (fun t ht => by rw [h3 t ht]; simp) (some (A.enum N.output)) (some (A.enum N.sparse))).2 fun hn => by
    obtain ⟨x, hx, hxn⟩ := ho
    obtain ⟨t, ht, hxt⟩ := hn.output _ rfl x (((he _).2 x).2 hx)
    refine hxn ?_
    rw [← h2]
    exact List.mem_flatten.2 ⟨t.inds, List.mem_map.2 ⟨t, ht, rfl⟩, hxt⟩
  unfold returnStep
  rw [h1]
  simp only [this]

/-- The network after the decomposition of hyper-indices, where `ρ x` replaces `x`. -/
def ArrNet.decomposedTo (N : ArrNet ι K T) (arrs : List (NDArray K)) (new : List (List ι)) (hmap : List (ι × ι)) (ρ : ι → ι) : ArrNet ι K T where
  tsInds := new
  arrays := arrs.map some
  tsTags := arrs.map fun _ => none
  dims := N.dims
  output := N.output.image ρ
  sparse := N.sparse
  hyperMap := some hmap
  fusePath := N.fusePath

omit [Zero W] [Add W] [LT W] [DecidableLT W] in
theorem decomposeStep_eq {d : ι → ℕ} {N : ArrNet ι K T} (hN : N.Ok d) (hs : N.sparse = ∅) (ha : ∀ a ∈ N.arrays, a.isSome) {fuel : ℕ}
    {arrs : List (NDArray K)} {new : List (List ι)} {hmap : List (ι × ι)} {ρ : ι → ι}
    (h : decomposeNetwork fuel (N.arrays.filterMap id) N.tsInds = some (.ok (arrs, new, hmap)))
    (D : NetDecomposed d (N.arrays.filterMap id) N.tsInds arrs new hmap ρ) :
    decomposeStep fuel N = if N.hyperMap.isSome then some (.error .valueError) else some (.ok (N.decomposedTo arrs new hmap ρ)) := by
  unfold decomposeStep
  rw [if_neg (by rw [hs]; simp), h]
  simp only
  rw [if_neg]
  · have him : (N.output.image fun x => (dget hmap x).getD x) = N.output.image ρ :=
      Finset.image_congr fun x hx => by simp only [D.map x (hN.output x hx), Option.getD_some]
    rw [him]
    rfl
  · rintro ⟨x, hx, hn⟩
    rw [D.map x (hN.output x hx)] at hn
    cases hn

omit [Zero W] [Add W] [LT W] [DecidableLT W] in
theorem decomposed_fits {d : ι → ℕ} {N : ArrNet ι K T} (hN : N.Ok d)
    {arrs : List (NDArray K)} {new : List (List ι)} {hmap : List (ι × ι)} {ρ : ι → ι}
    (D : NetDecomposed d (N.arrays.filterMap id) N.tsInds arrs new hmap ρ) : (N.decomposedTo arrs new hmap ρ).Fits d := by
  refine ⟨?_, ?_, fun x hx => ?_, fun t ht a hta => ?_⟩
  · simp only [ArrNet.decomposedTo, List.length_map]; exact D.consistent.1.ge
  · simp only [ArrNet.decomposedTo, List.length_map]; exact D.consistent.1.ge
  · obtain ⟨y, hy, rfl⟩ := D.sub x hx
    exact hN.dims _ (D.mem y hy)
  · simp only [ArrNet.decomposedTo, List.zip_map_left] at ht
    obtain ⟨u, hu, rfl⟩ := List.mem_map.1 ht
    simp only [Prod.map, Option.some.injEq, id] at hta ⊢
    rw [← hta]; exact D.consistent.2 u hu

/-- The dimensions of the indices of a network that are in no tensor any more. -/
def vanishedDims (d : ι → ℕ) (tsInds new : List (List ι)) (ρ : ι → ι) : ℕ :=
  (((tsInds.flatten.map ρ).dedup.filter fun y => y ∉ new.flatten).map d).prod

/-- C57: with all arrays and with decomposition. `ρ x` is the index that replaces `x`, as recorded in the tag `hyper_inds_map`. If the index that replaces an
output index is in no tensor any more, this is a `ValueError`. Otherwise a network is returned, unless tensors are to be fused and the decomposition
has left a tensor with a repeated index. The value of the given network is that of the one returned, times the dimensions of the indices that have vanished; it is zero
where output indices that were merged differ. -/
theorem C57_decompose (A : LoadNetArgs ι σ W) (hA : A.Ok) (d : ι → ℕ) (N : ArrNet ι K T) (hN : N.Ok d) (hs : N.sparse = ∅)
    (ha : ∀ a ∈ N.arrays, a.isSome) (h0 : N.arrays ≠ []) (hdec : A.decompose = true) (hh : N.hyperMap = none) (hp : N.fusePath = none)
    (hfuel : N.tsInds.length + (uniqueEverseen N.tsInds.flatten).length < A.fuel) :
    ∃ arrs new hmap ρ, decomposeNetwork A.fuel (N.arrays.filterMap id) N.tsInds = some (.ok (arrs, new, hmap)) ∧
      (∀ x ∈ N.tsInds.flatten, dget hmap x = some (ρ x) ∧ ρ x ∈ N.tsInds.flatten ∧ ρ (ρ x) = ρ x ∧ d (ρ x) = d x) ∧
      ((∃ x ∈ N.output, ρ x ∉ new.flatten) → loadNet A N = some (.error .valueError)) ∧
      ((∀ x ∈ N.output, ρ x ∈ new.flatten) → ((∃ w, A.Fuses w) → ∀ xs ∈ new, xs.Nodup) →
        ∃ N', loadNet A N = some (.ok N') ∧ N'.hyperMap = some hmap ∧ N'.output = N.output.image ρ ∧ N'.sparse = ∅ ∧
          (∀ a ∈ N'.arrays, a.isSome) ∧ ((∀ xs ∈ new, xs.Nodup) → N'.Ok d) ∧
          ((¬ ∃ w, A.Fuses w) → (N.decomposedTo arrs new hmap ρ).SameAs d N') ∧
          (∀ w, A.Fuses w → ∃ path, (N.decomposedTo arrs new hmap ρ).Fused A.enum A.log2 d w N' path) ∧
          ∀ f : ι → ℕ, (∀ x ∈ N.output, f x < d x) →
            (∀ f' : ι → ℕ, (∀ x ∈ N.output, f' (ρ x) = f x) → N.value d f = (vanishedDims d N.tsInds new ρ : ℕ) * N'.value d f') ∧
            ((∃ x ∈ N.output, ∃ y ∈ N.output, ρ x = ρ y ∧ f x ≠ f y) → N.value d f = 0)) := by
  have hc := hN.consistent ha
  have hlen : ∀ xs ∈ N.tsInds, xs.length ≤ (uniqueEverseen N.tsInds.flatten).length := fun xs hxs =>
    ((hN.nodup xs hxs).subperm fun x hx => mem_uniqueEverseen.2 (List.mem_flatten.2 ⟨xs, hxs, hx⟩)).length_le
  obtain ⟨⟨arrs, new, hmap⟩, h1⟩ := C33_network_ok d A.fuel (N.arrays.filterMap id) N.tsInds hc hN.nodup (fun x hx => (hN.dims x hx).2.ne')
    fun xs hxs => by have := hlen xs hxs; omega
  obtain ⟨ρ, D⟩ := decomposeNetwork_spec hc hN.nodup h1
  have hval := fun (l' van : List ι) (f : ι → ℕ) nl' nv hl' hv => D.classMap.value (l' := l') (van := van) (f := f) hN.output (nodup_summed N) nl' nv (fun x => mem_summed) hl' hv
  have hpr : N.provided = N.arrays.length := provided_all ha
  have hp0 : N.provided ≠ 0 := by rw [hpr]; exact (List.length_pos_of_ne_nil h0).ne'
  have hwd : wantDecompose A.decompose N = true := by
    unfold wantDecompose
    rw [if_neg (by rw [hs]; simp), if_neg (by omega), hdec]
  have hwf : wantFuse A.fuse N = A.fuse := by
    unfold wantFuse
    rw [if_neg (by rw [hs]; simp), hpr, if_neg (by simp)]
  have hst : decomposeStep A.fuel N = some (.ok (N.decomposedTo arrs new hmap ρ)) := by
    rw [decomposeStep_eq hN hs ha h1 D, hh]; rfl
  have hfit := decomposed_fits hN D
  have hM : ∀ x, x ∈ (N.decomposedTo arrs new hmap ρ).tsInds.flatten ↔ x ∈ new.flatten := fun x => Iff.rfl
  have hload : loadNet A N = match A.fuse with
      | none => some (returnStep A (N.decomposedTo arrs new hmap ρ))
      | some w => if 0 < w then (match fuseStep A N.provided w (N.decomposedTo arrs new hmap ρ) with
          | none => none
          | some (.error e) => some (.error e)
          | some (.ok N2) => some (returnStep A N2)) else some (returnStep A (N.decomposedTo arrs new hmap ρ)) := by
    unfold loadNet prepareNet
    simp only [hwd, if_true, hst, hwf]
    cases A.fuse with
    | none => rfl
    | some w =>
      by_cases hw : 0 < w
      · simp only [hw, if_true]
        cases fuseStep A N.provided w (N.decomposedTo arrs new hmap ρ) with
        | none => rfl
        | some r => cases r <;> rfl
      · simp only [hw, if_false]
  have hload' : (¬ ∃ w, A.Fuses w) → loadNet A N = some (returnStep A (N.decomposedTo arrs new hmap ρ)) := by
    intro hno
    rw [hload]
    cases hw : A.fuse with
    | none => rfl
    | some w => simp only; rw [if_neg fun h => hno ⟨w, hw, h⟩]
  have hload2 : ∀ w, A.Fuses w → loadNet A N = (match fuseStep A N.provided w (N.decomposedTo arrs new hmap ρ) with
          | none => none
          | some (.error e) => some (.error e)
          | some (.ok N2) => some (returnStep A N2)) := by
    intro w hw
    rw [hload, hw.1]
    simp only
    rw [if_pos hw.2]
  refine ⟨arrs, new, hmap, ρ, h1, fun x hx => ⟨D.map x hx, D.mem x hx, D.idem x hx, D.dims x hx⟩, ?_, ?_⟩
  · rintro ⟨x, hx, hxn⟩
    by_cases hno : ∃ w, A.Fuses w
    · obtain ⟨w, hw⟩ := hno
      rw [hload2 w hw]
      have : fuseStep A N.provided w (N.decomposedTo arrs new hmap ρ) = some (.error .valueError) := by
        unfold fuseStep
        rw [C30_rejects A.g A.enumN A.fuel A.start A.log2 (N.decomposedTo arrs new hmap ρ).tsInds _ w (some (A.enum (N.decomposedTo arrs new hmap ρ).output)) []
          (Or.inr (Or.inr (show ∃ y ∈ A.enum (N.decomposedTo arrs new hmap ρ).output, y ∉ new.flatten from
            ⟨ρ x, ((hA.enum _).2 _).2 (Finset.mem_image_of_mem ρ hx), hxn⟩)))]
      rw [this]
    · rw [hload' hno, return_rejects hA.enum hfit ⟨ρ x, Finset.mem_image_of_mem ρ hx, hxn⟩]
  · intro ho hnd
    have ho' : ∀ x ∈ (N.decomposedTo arrs new hmap ρ).output, x ∈ (N.decomposedTo arrs new hmap ρ).tsInds.flatten := by
      intro x hx
      obtain ⟨y, hy, rfl⟩ := Finset.mem_image.1 hx
      exact ho y hy
    have hs' : ∀ x ∈ (N.decomposedTo arrs new hmap ρ).sparse, x ∈ (N.decomposedTo arrs new hmap ρ).tsInds.flatten := by
      intro x hx
      simp only [ArrNet.decomposedTo, hs] at hx
      exact absurd hx (Finset.notMem_empty x)
    have hok : (∀ xs ∈ new, xs.Nodup) → (N.decomposedTo arrs new hmap ρ).Ok d := fun hn =>
      ⟨by simp only [ArrNet.decomposedTo, List.length_map]; exact D.consistent.1,
        by simp only [ArrNet.decomposedTo, List.length_map]; exact D.consistent.1, hfit.dims, hfit.shape, hn, ho', hs'⟩
    have hsome : ∀ a ∈ (N.decomposedTo arrs new hmap ρ).arrays, a.isSome := by
      intro a h
      obtain ⟨b, -, rfl⟩ := List.mem_map.1 h
      rfl
    have hvalue : ∀ f : ι → ℕ, (∀ x ∈ N.output, f x < d x) →
            (∀ f' : ι → ℕ, (∀ x ∈ N.output, f' (ρ x) = f x) →
              N.value d f = (vanishedDims d N.tsInds new ρ : ℕ) * (N.decomposedTo arrs new hmap ρ).value d f') ∧
            ((∃ x ∈ N.output, ∃ y ∈ N.output, ρ x = ρ y ∧ f x ≠ f y) → N.value d f = 0) := by
      intro f hf
      have := hval (N.decomposedTo arrs new hmap ρ).summed ((N.tsInds.flatten.map ρ).dedup.filter fun y => y ∉ new.flatten) f
        (nodup_summed _) ((List.nodup_dedup _).filter _) (fun x => mem_summed) (fun y => by
          simp only [List.mem_filter, List.mem_dedup, List.mem_map, decide_eq_true_eq]
          constructor
          · rintro ⟨h2, h3⟩
            exact ⟨h2, h3, fun h4 => h3 (ho' y h4)⟩
          · rintro ⟨h2, h3, -⟩; exact ⟨h2, h3⟩) hf
      refine ⟨fun f' hf' => ?_, this.2⟩
      have h5 := this.1 f' hf'
      unfold ArrNet.value
      have h6 : (N.decomposedTo arrs new hmap ρ).arrays.filterMap id = arrs := filterMap_map_some arrs
      rw [h6]
      exact h5
    by_cases hno : ∃ w, A.Fuses w
    · obtain ⟨w, hw⟩ := hno
      have hn := hnd ⟨w, hw⟩
      have hOk := hok hn
      have hfuel' : (N.decomposedTo arrs new hmap ρ).tsInds.length + (uniqueEverseen (N.decomposedTo arrs new hmap ρ).tsInds.flatten).length < A.fuel := by
        have e1 : new.length = N.tsInds.length := by rw [← D.consistent.1, D.length, hc.1]
        have e2 : (uniqueEverseen new.flatten).length ≤ (uniqueEverseen N.tsInds.flatten).length :=
          ((uniqueEverseen_nodup _).subperm fun x hx => by
            obtain ⟨y, hy, rfl⟩ := D.sub x (mem_uniqueEverseen.1 hx)
            exact mem_uniqueEverseen.2 (D.mem y hy)).length_le
        show new.length + (uniqueEverseen new.flatten).length < A.fuel
        omega
      obtain ⟨N2, path, g1, g2, g3, g4, g5, g6, g7⟩ := fuseStep_arrays hA hOk (w := w) hfuel' hp hsome hs hp0
      obtain ⟨N', g8, g9⟩ := return_same hA.enum g3.fits g3.arrays g3.tags g3.output g3.sparse
      have hv := SameAs_value g9
      obtain ⟨e1, e2, e3, e4, e5, e6, e7, e8⟩ := g9
      refine ⟨N', by rw [hload2 w hw, g1]; simp only [g8], by rw [e6, g5]; rfl, by rw [e4, g2.output]; rfl, by rw [e5, g2.sparse]; exact hs, by rw [e2]; exact g4,
        fun _ => ?_, fun h => absurd ⟨w, hw⟩ h, fun w' hw' => ?_, fun f hf => ⟨fun f' hf' => ?_, (hvalue f hf).2⟩⟩
      · exact ⟨by rw [e1, e2]; exact g3.arrays, by rw [e1, e3]; exact g3.tags, fun x hx => by
          rw [e1] at hx; exact ⟨(e8 x _).2 ⟨hx, rfl⟩, (g3.dims x hx).2⟩, by rw [e1, e2]; exact g3.shape, by rw [e1]; exact g3.nodup,
          by rw [e1, e4]; exact g3.output, by rw [e1, e5]; exact g3.sparse⟩
      · have : w' = w := Option.some.inj (hw'.1.symm.trans hw.1)
        subst this
        exact ⟨path, by rw [e7]; exact g2.recorded, g2.valid, g2.width, by rw [e1]; exact g2.inds, by rw [e4]; exact g2.output,
          by rw [e5]; exact g2.sparse, by rw [e3]; exact g2.tags⟩
      · rw [(hvalue f hf).1 f' hf', hv, g7 f' fun x hx => ?_]
        obtain ⟨y, hy, rfl⟩ := Finset.mem_image.1 hx
        rw [hf' y hy, D.dims y (hN.output y hy)]
        exact hf y hy
    · obtain ⟨N', g1, g2⟩ := return_same hA.enum hfit (by simp only [ArrNet.decomposedTo, List.length_map]; exact D.consistent.1)
        (by simp only [ArrNet.decomposedTo, List.length_map]; exact D.consistent.1) ho' hs'
      have hv := SameAs_value g2
      have g2' := g2
      obtain ⟨e1, e2, e3, e4, e5, e6, e7, e8⟩ := g2
      refine ⟨N', by rw [hload' hno, g1], e6, e4, by rw [e5]; exact hs, by rw [e2]; exact hsome, fun hn => ?_, fun _ => g2',
        fun w hw => absurd ⟨w, hw⟩ hno, fun f hf => ⟨fun f' hf' => by rw [hv]; exact (hvalue f hf).1 f' hf', (hvalue f hf).2⟩⟩
      have g3 := hok hn
      exact ⟨by rw [e1, e2]; exact g3.arrays, by rw [e1, e3]; exact g3.tags, fun x hx => by
          rw [e1] at hx; exact ⟨(e8 x _).2 ⟨hx, rfl⟩, (g3.dims x hx).2⟩, by rw [e1, e2]; exact g3.shape, by rw [e1]; exact g3.nodup,
          by rw [e1, e4]; exact g3.output, by rw [e1, e5]; exact g3.sparse⟩

/-- C57 as stated, where it holds: if no index vanishes, and no tensor is left with a repeated index, then a network with the same value is returned. -/
theorem C57_value_partial (A : LoadNetArgs ι σ W) (hA : A.Ok) (d : ι → ℕ) (N : ArrNet ι K T) (hN : N.Ok d) (hs : N.sparse = ∅)
    (ha : ∀ a ∈ N.arrays, a.isSome) (h0 : N.arrays ≠ []) (hdec : A.decompose = true) (hh : N.hyperMap = none) (hp : N.fusePath = none)
    (hfuel : N.tsInds.length + (uniqueEverseen N.tsInds.flatten).length < A.fuel)
    (hv : ∀ arrs new hmap, decomposeNetwork A.fuel (N.arrays.filterMap id) N.tsInds = some (.ok (arrs, new, hmap)) →
      (∀ x r, dget hmap x = some r → r ∈ new.flatten) ∧ ∀ xs ∈ new, xs.Nodup) :
    ∃ N' hmap, loadNet A N = some (.ok N') ∧ N'.Ok d ∧ N'.hyperMap = some hmap ∧ (∀ y, y ∈ N'.output ↔ ∃ x ∈ N.output, dget hmap x = some y) ∧
      (∀ x ∈ N.tsInds.flatten, ∃ y, dget hmap x = some y ∧ d y = d x) ∧
      ∀ f f' : ι → ℕ, (∀ x ∈ N.output, f x < d x) → (∀ x ∈ N.output, ∀ y, dget hmap x = some y → f' y = f x) → N'.value d f' = N.value d f := by
  obtain ⟨arrs, new, hmap, ρ, h1, h2, -, h3⟩ := C57_decompose A hA d N hN hs ha h0 hdec hh hp hfuel
  obtain ⟨hv1, hv2⟩ := hv arrs new hmap h1
  obtain ⟨N', g1, g2, g3, -, -, g4, -, -, g5⟩ := h3 (fun x hx => hv1 x _ (h2 x (hN.output x hx)).1) fun _ => hv2
  refine ⟨N', hmap, g1, g4 hv2, g2, fun y => ?_, fun x hx => ⟨ρ x, (h2 x hx).1, (h2 x hx).2.2.2⟩, fun f f' hf hf' => ?_⟩
  · rw [g3, Finset.mem_image]
    constructor
    · rintro ⟨x, hx, rfl⟩; exact ⟨x, hx, (h2 x (hN.output x hx)).1⟩
    · rintro ⟨x, hx, he⟩
      rw [(h2 x (hN.output x hx)).1] at he
      exact ⟨x, hx, Option.some.inj he⟩
  · have := (g5 f hf).1 f' fun x hx => hf' x hx _ (h2 x (hN.output x hx)).1
    have hvan : vanishedDims d N.tsInds new ρ = 1 := by
      unfold vanishedDims
      rw [List.filter_eq_nil_iff.2]
      · rfl
      · intro y hy
        obtain ⟨x, hx, rfl⟩ := List.mem_map.1 (List.mem_dedup.1 hy)
        simpa using hv1 x _ (h2 x hx).1
    rw [this, hvan]
    simp

/-- C57: a network which has already the tag `hyper_inds_map` is not decomposed again. -/
theorem C57_decomposed_twice (A : LoadNetArgs ι σ W) (d : ι → ℕ) (N : ArrNet ι K T) (hN : N.Ok d) (hs : N.sparse = ∅)
    (ha : ∀ a ∈ N.arrays, a.isSome) (hdec : A.decompose = true) (hh : N.hyperMap.isSome) (hfuel : ∀ xs ∈ N.tsInds, xs.length < A.fuel) :
    loadNet A N = some (.error .valueError) := by
  have hc := hN.consistent ha
  obtain ⟨⟨arrs, new, hmap⟩, h1⟩ := C33_network_ok d A.fuel (N.arrays.filterMap id) N.tsInds hc hN.nodup (fun x hx => (hN.dims x hx).2.ne') hfuel
  obtain ⟨ρ, D⟩ := decomposeNetwork_spec hc hN.nodup h1
  unfold loadNet prepareNet
  have hwd : wantDecompose A.decompose N = true := by
    unfold wantDecompose
    rw [if_neg (by rw [hs]; simp), if_neg (by rw [provided_all ha]; omega), hdec]
  simp only [hwd, if_true, decomposeStep_eq hN hs ha h1 D, hh]

/-- C57: a network which has already the tag `fuse_path` is not fused again. -/
theorem C57_fused_twice (A : LoadNetArgs ι σ W) (hA : A.Ok) (d : ι → ℕ) (N : ArrNet ι K T) (hN : N.Ok d) (hs : N.sparse = ∅)
    (ha : ∀ a ∈ N.arrays, a.isSome) (h0 : N.arrays ≠ []) (hdec : A.decompose = false) (w : W) (hw : A.Fuses w) (hp : N.fusePath.isSome)
    (hfuel : N.tsInds.length + (uniqueEverseen N.tsInds.flatten).length < A.fuel) :
    loadNet A N = some (.error .valueError) := by
  have hp0 : N.provided ≠ 0 := by rw [provided_all ha]; exact (List.length_pos_of_ne_nil h0).ne'
  have hc := hN.consistent ha
  obtain ⟨path, fused, h1, h2, -⟩ := fuse_path_ok hA hN (w := w) hfuel
  obtain ⟨⟨inds, out, arrs⟩, h4⟩ := (C31_succeeds A.enum hA.enum path N.tsInds (some (A.enum N.output)) _ (some (.dict N.dims)) hN.nodup d hc
    (fun D hD x hx => by cases hD; exact (hN.dims x hx).1) (fun x hx => hN.output x (((hA.enum _).2 x).1 hx))).1 h2
  obtain ⟨F, hF⟩ := h2
  have ht : tagLoop path N.tsTags = .ok (F.map fun t => t.tagsOf fun i => (N.tsTags[i]?).getD none) := by
    have := tagLoop_replay (tags := fun i => (N.tsTags[i]?).getD none) path _ F hF
    rw [← hN.tags] at this
    rw [← this]
    exact congrArg _ (tags_init N.tsTags).symm
  have hst : fuseStep A N.provided w N = some (.error .valueError) := by
    unfold fuseStep
    rw [h1]
    simp only [contractStep, if_pos hp0, h4, ht, hp, if_true]
  unfold loadNet prepareNet
  have hd : wantDecompose A.decompose N = false := by
    unfold wantDecompose
    rw [hdec]; simp
  have hf : wantFuse A.fuse N = some w := by
    unfold wantFuse
    rw [if_neg (by rw [hs]; simp), provided_all ha, if_neg (by simp), hw.1]
  rw [hd]
  simp only [Bool.false_eq_true, if_false, hf, if_pos hw.2, hst]

/-! ## Concrete networks -/

theorem loaded_of {α : Type} {r : Option (Except PyErr α)} {p : α → Bool} (h : (match r with | some (.ok a) => p a | _ => false) = true) :
    ∃ a, r = some (.ok a) ∧ p a = true := by
  match r, h with
  | some (.ok a), h => exact ⟨a, rfl, h⟩

theorem error_of {α : Type} {r : Option (Except PyErr α)} {e : PyErr} (h : (match r with | some (.error e') => decide (e' = e) | _ => false) = true) :
    r = some (.error e) := by
  match r, h with
  | some (.error e'), h => rw [of_decide_eq_true h]

theorem natOrder_ok : EnumOk ISet.positions := by
  intro s
  refine ⟨List.nodup_range.filter _, fun x => ?_⟩
  simp only [ISet.positions, List.mem_filter, List.mem_range, decide_eq_true_eq, and_iff_right_iff_imp]
  intro hx
  exact Nat.lt_succ_of_le (Finset.le_sup (f := id) hx)

/-- The default options of `load_tn`: hyper-indices are decomposed, tensors are fused up to width 4. -/
def loadArgs : LoadNetArgs ℕ Unit ℤ where
  decompose := true
  fuse := some 4
  start := ()
  g := zeroRng
  enumN := ISet.positions
  enum := ISet.positions
  log2 := fun n => (Nat.log2 n : ℤ)
  fuel := 30

theorem loadArgs_ok : loadArgs.Ok := ⟨zeroRng_ok, natOrder_ok, natOrder_ok⟩

/-- A network of tensors with dimensions 2. -/
def bitNet (tsInds : List (List ℕ)) (arrays : List (NDArray ℤ)) (output : Finset ℕ) : ArrNet ℕ ℤ ℕ where
  tsInds := tsInds
  arrays := arrays.map some
  tsTags := (List.range tsInds.length).map fun i => some (.leaf i)
  dims := fun x => if x ∈ tsInds.flatten then some 2 else none
  output := output
  sparse := ∅
  hyperMap := none
  fusePath := none

/-- The matrix with rows `1 2` and `3 4`. -/
def mat2 : NDArray ℤ := ⟨[2, 2], fun k => (k : ℤ) + 1⟩

theorem bitNet_ok {tsInds : List (List ℕ)} {arrays : List (NDArray ℤ)} {output : Finset ℕ} (h1 : arrays.map NDArray.shape = tsInds.map fun xs => xs.map fun _ => 2)
    (h2 : ∀ xs ∈ tsInds, xs.Nodup) (h3 : ∀ x ∈ output, x ∈ tsInds.flatten) : (bitNet tsInds arrays output).Ok fun _ => 2 where
  arrays := by simpa [bitNet] using congrArg List.length h1
  tags := by simp [bitNet]
  dims := fun x hx => by
    have : x ∈ tsInds.flatten := hx
    exact ⟨if_pos this, by decide⟩
  shape := by
    intro t ht a hta
    obtain ⟨i, hi, rfl⟩ := List.mem_iff_getElem.1 ht
    simp only [bitNet, List.getElem_zip, List.getElem_map, Option.some.injEq] at hta ⊢
    have hi' : i < arrays.length ∧ i < tsInds.length := by simpa [bitNet] using hi
    have := congrArg (fun l => l[i]?) h1
    simp only [List.getElem?_map, List.getElem?_eq_getElem hi'.1, List.getElem?_eq_getElem hi'.2, Option.map_some, Option.some.injEq] at this
    rw [← hta, this]
  nodup := h2
  output := h3
  sparse := by simp [bitNet]

/-- C57 does not hold: the product of two identities has the value 2; the network returned by `load_tn` has the value 1. -/
theorem C57_violated : ∃ N', loadNet loadArgs (bitNet [[0, 1], [0, 1]] [eye2, eye2] ∅) = some (.ok N') ∧
    N'.value (fun _ => 2) (fun _ => 0) = 1 ∧ (bitNet [[0, 1], [0, 1]] [eye2, eye2] ∅).value (fun _ => 2) (fun _ => 0) = 2 := by
  obtain ⟨N', h1, h2⟩ := loaded_of (r := loadNet loadArgs (bitNet [[0, 1], [0, 1]] [eye2, eye2] ∅))
    (p := fun N' => decide (N'.value (fun _ => 2) (fun _ => 0) = 1)) (by decide +kernel)
  exact ⟨N', h1, of_decide_eq_true h2, by decide +kernel⟩

/-- C57 does not hold: the identity with two output indices is rejected, with and without fusing. -/
theorem C57_violated_identity : (bitNet [[0, 1]] [eye2] {0, 1}).Ok (fun _ => 2) ∧
    loadNet loadArgs (bitNet [[0, 1]] [eye2] {0, 1}) = some (.error .valueError) ∧
    loadNet { loadArgs with fuse := none } (bitNet [[0, 1]] [eye2] {0, 1}) = some (.error .valueError) :=
  ⟨bitNet_ok (by decide +kernel) (by decide) (by decide), error_of (by decide +kernel), error_of (by decide +kernel)⟩

/-- C57 does not hold: the trace of a matrix, written as a product with the identity, is rejected; without fusing, the network returned has
a tensor with a repeated index. -/
theorem C57_violated_repeated : (bitNet [[0, 1], [0, 1]] [mat2, eye2] ∅).Ok (fun _ => 2) ∧
    loadNet loadArgs (bitNet [[0, 1], [0, 1]] [mat2, eye2] ∅) = some (.error .valueError) ∧
    ∃ N', loadNet { loadArgs with fuse := none } (bitNet [[0, 1], [0, 1]] [mat2, eye2] ∅) = some (.ok N') ∧ N'.tsInds = [[0, 0], []] := by
  refine ⟨bitNet_ok (by decide +kernel) (by decide) (by decide), error_of (by decide +kernel), ?_⟩
  obtain ⟨N', h1, h2⟩ := loaded_of (r := loadNet { loadArgs with fuse := none } (bitNet [[0, 1], [0, 1]] [mat2, eye2] ∅))
    (p := fun N' => decide (N'.tsInds = [[0, 0], []])) (by decide +kernel)
  exact ⟨N', h1, of_decide_eq_true h2⟩

/-- A matrix, an identity and a matrix: the indices of the identity are merged, and the conditions of the theorems are met. -/
example : loadArgs.Ok ∧ (bitNet [[0, 1], [1, 2], [2, 3]] [mat2, eye2, mat2] {0, 3}).Ok (fun _ => 2) ∧ loadArgs.Fuses 4 ∧
    ∃ N', loadNet loadArgs (bitNet [[0, 1], [1, 2], [2, 3]] [mat2, eye2, mat2] {0, 3}) = some (.ok N') ∧
      (dget (N'.hyperMap.getD []) 2 = some 1 ∧ N'.output = {0, 3} ∧ N'.tsInds = [[], [0, 3]] ∧ N'.fusePath = some [(0, 2)]) ∧
      N'.value (fun _ => 2) (fun _ => 1) = 22 :=
  ⟨loadArgs_ok, bitNet_ok (by decide +kernel) (by decide) (by decide), ⟨rfl, by decide⟩, by
    obtain ⟨N', h1, h2⟩ := loaded_of (r := loadNet loadArgs (bitNet [[0, 1], [1, 2], [2, 3]] [mat2, eye2, mat2] {0, 3}))
      (p := fun N' => decide ((dget (N'.hyperMap.getD []) 2 = some 1 ∧ N'.output = {0, 3} ∧ N'.tsInds = [[], [0, 3]] ∧ N'.fusePath = some [(0, 2)]) ∧
        N'.value (fun _ => 2) (fun _ => 1) = 22)) (by decide +kernel)
    exact ⟨N', h1, of_decide_eq_true h2⟩⟩

/-- Without decomposition the tags of fused tensors are put side by side. -/
example : ∃ N', loadNet { loadArgs with decompose := false } (bitNet [[0, 1], [1, 2], [2, 3]] [mat2, eye2, mat2] {0, 3}) = some (.ok N') ∧
    N'.tsTags = [some (.pair (.leaf 2) (.pair (.leaf 0) (.leaf 1)))] := by
  obtain ⟨N', h1, h2⟩ := loaded_of (r := loadNet { loadArgs with decompose := false } (bitNet [[0, 1], [1, 2], [2, 3]] [mat2, eye2, mat2] {0, 3}))
    (p := fun N' => decide (N'.tsTags = [some (.pair (.leaf 2) (.pair (.leaf 0) (.leaf 1)))])) (by decide +kernel)
  exact ⟨N', h1, of_decide_eq_true h2⟩

/-- A diagonal matrix whose entries differ meets the conditions of `C57_value_partial`: its indices are merged, and none vanishes. -/
example : ∀ arrs new hmap, decomposeNetwork 30 ((bitNet [[0, 1], [1, 2]] [⟨[2, 2], fun k => if k = 0 ∨ k = 3 then (k : ℤ) + 1 else 0⟩, mat2] {0, 2}).arrays.filterMap id)
      [[0, 1], [1, 2]] = some (.ok (arrs, new, hmap)) → (∀ x r, dget hmap x = some r → r ∈ new.flatten) ∧ ∀ xs ∈ new, xs.Nodup := by
  obtain ⟨⟨arrs, new, hmap⟩, h1, h2⟩ := loaded_of (r := decomposeNetwork 30 ((bitNet [[0, 1], [1, 2]]
      [⟨[2, 2], fun k => if k = 0 ∨ k = 3 then (k : ℤ) + 1 else 0⟩, mat2] {0, 2}).arrays.filterMap id) [[0, 1], [1, 2]])
    (p := fun r => decide (r.2.1 = [[0], [0, 2]] ∧ r.2.2 = [(2, 2), (0, 0), (1, 0)])) (by decide +kernel)
  obtain ⟨h3, h4⟩ := of_decide_eq_true h2
  intro arrs' new' hmap' h
  rw [h1] at h
  obtain ⟨rfl, rfl, rfl⟩ : arrs = arrs' ∧ new = new' ∧ hmap = hmap' := by simpa using h
  simp only at h3 h4
  subst h3 h4
  refine ⟨fun x r hx => ?_, by decide⟩
  have := dget_mem hx
  simp only [List.mem_cons, Prod.mk.injEq, List.not_mem_nil, or_false] at this
  rcases this with ⟨-, rfl⟩ | ⟨-, rfl⟩ | ⟨-, rfl⟩ <;> decide

/-- A network without arrays meets the conditions of `C57_inds`. -/
example : ∃ N', loadNet loadArgs { bitNet [[0, 1], [1, 2], [2, 3]] [] {0, 3} with arrays := [none, none, (none : Option (NDArray ℤ))] } = some (.ok N') ∧
    N'.tsInds = [[3, 0]] ∧ N'.tsTags = [some (.pair (.leaf 2) (.pair (.leaf 0) (.leaf 1)))] ∧ N'.hyperMap = none := by
  obtain ⟨N', h1, h2⟩ := loaded_of (r := loadNet loadArgs { bitNet [[0, 1], [1, 2], [2, 3]] [] {0, 3} with arrays := [none, none, (none : Option (NDArray ℤ))] })
    (p := fun N' => decide (N'.tsInds = [[3, 0]] ∧ N'.tsTags = [some (.pair (.leaf 2) (.pair (.leaf 0) (.leaf 1)))] ∧ N'.hyperMap = none)) (by decide +kernel)
  exact ⟨N', h1, of_decide_eq_true h2⟩

end TNCO
