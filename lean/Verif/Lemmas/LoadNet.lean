import Verif.Spec.LoadNet
import Verif.Props.Decompose
import Verif.Props.Fuse
import Verif.Props.TensorNetwork
import Verif.Lemmas.CircuitLoad
import Verif.Lemmas.Merge

/-! Loading a tensor network. -/

namespace TNCO
variable {ι K T σ W : Type} [DecidableEq ι]

theorem mem_summed {N : ArrNet ι K T} {x : ι} : x ∈ N.summed ↔ x ∈ N.tsInds.flatten ∧ x ∉ N.output := by
  simp [ArrNet.summed]

theorem nodup_summed (N : ArrNet ι K T) : N.summed.Nodup := (List.nodup_dedup _).filter _

theorem tagLoop_replay {tags : ℕ → Option (TagTree T)} : ∀ (path : List (ℕ × ℕ)) (F F' : List Term), replay F path = some F' →
    tagLoop path (F.map fun t => t.tagsOf tags) = .ok (F'.map fun t => t.tagsOf tags) := by
  intro path
  induction path with
  | nil => intro F F' h; simp only [replay, Option.some.injEq] at h; subst h; rfl
  | cons s path ih =>
    intro F F' h
    obtain ⟨x, y⟩ := s
    have hxy : x ≠ y := by intro e; simp [replay, e] at h
    rw [replay_cons hxy] at h
    cases hp : popPair F x y with
    | none => rw [hp] at h; cases h
    | some r =>
      obtain ⟨a, b, rest⟩ := r
      rw [hp] at h
      simp only [Option.bind_some] at h
      have h1 := ih _ _ h
      simp only [tagLoop, popPair_map, hp, Option.map_some]
      rw [← h1]
      congr 1
      simp only [List.map_append, List.map_cons, List.map_nil, Term.tagsOf]
      congr 2
      cases a.tagsOf tags <;> cases b.tagsOf tags <;> rfl

theorem tags_init (l : List (Option (TagTree T))) : (initTerms l.length).map (fun t => t.tagsOf fun i => (l[i]?).getD none) = l := by
  refine List.ext_getElem? fun i => ?_
  simp only [initTerms, List.map_map, List.getElem?_map]
  by_cases hi : i < l.length
  · simp [List.getElem?_range hi, Term.tagsOf, List.getElem?_eq_getElem hi]
  · rw [List.getElem?_eq_none (by simpa using hi), List.getElem?_eq_none (by simpa using hi)]; rfl

/-- The value that `contract` keeps, for given dimensions. -/
theorem contract_einsum {R : Type} [CommRing R] {enum : Finset ι → List ι} (he : EnumOk enum) {path : List (ℕ × ℕ)} {tsInds : List (List ι)}
    {out : Finset ι} {arrays : List (NDArray R)} {dims : Option (PyDims ι)} (hn : ∀ xs ∈ tsInds, xs.Nodup) {d : ι → ℕ}
    (hc : Consistent d arrays tsInds) {inds : List (List ι)} {outR : Finset ι} {arrs : List (NDArray R)}
    (h : contract enum path tsInds (some (enum out)) arrays dims = .ok (inds, outR, arrs)) :
    Consistent d arrs inds ∧ (∀ xs ∈ inds, xs.Nodup) ∧ outR = out ∧ (∀ x ∈ out, x ∈ inds.flatten) ∧ (∀ x ∈ inds.flatten, x ∈ tsInds.flatten) ∧
      ∀ l l' : List ι, l.Nodup → l'.Nodup → (∀ x, x ∈ l ↔ x ∈ tsInds.flatten ∧ x ∉ out) →
        (∀ x, x ∈ l' ↔ x ∈ inds.flatten ∧ x ∉ out) → ∀ f : ι → ℕ, (∀ x ∈ out, f x < d x) →
        einsum d l' ((arrs.zip inds).map fun t g => t.1.get (t.2.map g)) f =
        einsum d l ((arrays.zip tsInds).map fun t g => t.1.get (t.2.map g)) f := by
  obtain ⟨d', v1, v2, v3, v4, v5, v6, v7⟩ := C31_value enum he path tsInds (some (enum out)) arrays dims hn inds outR arrs h
  have hout : outR = out := by
    ext x
    exact (v4 x).trans ((he out).2 x)
  subst hout
  have hd : ∀ x ∈ tsInds.flatten, d' x = d x := by
    intro x hx
    obtain ⟨xs, hxs, hx⟩ := List.mem_flatten.1 hx
    obtain ⟨i, hi, rfl⟩ := List.mem_iff_getElem.1 hxs
    have hi' : i < arrays.length := by rw [hc.1]; exact hi
    have hm : (arrays[i], tsInds[i]) ∈ arrays.zip tsInds := by
      rw [List.mem_iff_getElem]
      exact ⟨i, by simp [hi, hi'], by simp⟩
    have e1 := hc.2 _ hm
    have e2 := v1.2 _ hm
    rw [e1] at e2
    exact ((List.map_inj_left.1 e2) x hx).symm
  have hdi : ∀ x ∈ inds.flatten, d' x = d x := fun x hx => hd x (v6 x hx)
  refine ⟨⟨v2.1, fun t ht => ?_⟩, v3, rfl, v5, v6, fun l l' nl nl' hl hl' f hf => ?_⟩
  · rw [v2.2 t ht]
    exact List.map_congr_left fun x hx => hdi x (List.mem_flatten.2 ⟨_, (List.of_mem_zip (show (t.1, t.2) ∈ _ from ht)).2, hx⟩)
  · have e := v7 l l' nl nl' hl hl' f fun x hx => by rw [hdi x (v5 x hx)]; exact hf x hx
    unfold einsum at e ⊢
    rw [sumOver_dims fun x hx => hdi x ((hl' x).1 hx).1, sumOver_dims fun x hx => hd x ((hl x).1 hx).1] at e
    exact e

/-- What `load_tn` needs of the network to return it. -/
structure ArrNet.Fits (d : ι → ℕ) (N : ArrNet ι K T) : Prop where
  arrays : N.tsInds.length ≤ N.arrays.length
  tags : N.tsInds.length ≤ N.tsTags.length
  dims : ∀ x ∈ N.tsInds.flatten, N.dims x = some (d x) ∧ 0 < d x
  shape : ∀ t ∈ N.arrays.zip N.tsInds, ∀ a, t.1 = some a → a.shape = t.2.map d

theorem tensorRecs_ok {d : ι → ℕ} {dims : ι → Option ℕ} : ∀ (tsInds : List (List ι)) (arrays : List (Option (NDArray K)))
    (tags : List (Option (TagTree T))), tsInds.length ≤ arrays.length → tsInds.length ≤ tags.length →
    (∀ x ∈ tsInds.flatten, dims x = some (d x) ∧ 0 < d x) → (∀ t ∈ arrays.zip tsInds, ∀ a, t.1 = some a → a.shape = t.2.map d) →
    ∃ ts, tensorRecs dims tsInds arrays tags = .ok ts ∧ ts.map TensorRec.inds = tsInds ∧ ∀ t ∈ ts, t.dims = t.inds.map d := by
  intro tsInds
  induction tsInds with
  | nil => intro arrays tags _ _ _ _; exact ⟨[], by simp [tensorRecs], rfl, by simp⟩
  | cons xs tsInds ih =>
    intro arrays tags h1 h2 h3 h4
    cases arrays with
    | nil => simp at h1
    | cons a arrays =>
      cases tags with
      | nil => simp at h2
      | cons tg tags =>
        simp only [List.length_cons, Nat.add_le_add_iff_right] at h1 h2
        obtain ⟨ts, e1, e2, e3⟩ := ih arrays tags h1 h2 (fun x hx => h3 x (by simp only [List.flatten_cons, List.mem_append]; exact Or.inr hx))
          fun t ht => h4 t (by rw [List.zip_cons_cons]; exact List.mem_cons_of_mem _ ht)
        have ht : mkTensor xs (.list (xs.map (netDimVal dims))) (a.map NDArray.shape) = .ok ⟨xs, xs.map d, a.map NDArray.shape⟩ := by
          rw [C45_tensor]
          have h3' : ∀ x ∈ xs, dims x = some (d x) ∧ 0 < d x := fun x hx => h3 x (by simp [hx])
          refine ⟨rfl, rfl, by simp, fun n hn => ?_, fun s hs => ?_, ?_⟩
          · obtain ⟨x, hx, rfl⟩ := List.mem_map.1 hn
            exact (h3' x hx).2
          · obtain ⟨b, hb, rfl⟩ := Option.map_eq_some_iff.1 hs
            exact h4 (a, xs) (by rw [List.zip_cons_cons]; exact List.mem_cons_self) b hb
          · simp only [DimsArg.Describes, List.map_map]
            refine List.map_congr_left fun x hx => ?_
            simp only [netDimVal, (h3' x hx).1, Function.comp]
        refine ⟨⟨xs, xs.map d, a.map NDArray.shape⟩ :: ts, ?_, by simp [e2], ?_⟩
        · simp only [tensorRecs, ht, e1]
        · intro t ht'
          rcases List.mem_cons.1 ht' with rfl | h
          · rfl
          · exact e3 t h

theorem returnStep_ok {A : LoadNetArgs ι σ W} (he : EnumOk A.enum) {d : ι → ℕ} {N : ArrNet ι K T} (h : N.Fits d)
    (ho : ∀ x ∈ N.output, x ∈ N.tsInds.flatten) (hs : ∀ x ∈ N.sparse, x ∈ N.tsInds.flatten) :
    ∃ D : ι → Option ℕ, (∀ x n, D x = some n ↔ x ∈ N.tsInds.flatten ∧ n = d x) ∧
      returnStep A N = .ok { N with arrays := N.arrays.take N.tsInds.length, tsTags := N.tsTags.take N.tsInds.length, dims := D } := by
  obtain ⟨ts, h1, h2, h3⟩ := tensorRecs_ok N.tsInds N.arrays N.tsTags h.arrays h.tags h.dims h.shape
  have hmem : ∀ x, x ∈ N.tsInds.flatten ↔ ∃ t ∈ ts, x ∈ t.inds := by
    intro x
    rw [← h2]
    simp [List.mem_flatten]
  have hlen : ts.length = N.tsInds.length := by rw [← h2, List.length_map]
  have hhas : ∀ t ∈ ts, ∀ x n, t.Has x n ↔ x ∈ t.inds ∧ n = d x := by
    intro t ht x n
    rw [← mem_zip_has, h3 t ht, List.zip_map_right, List.zip_eq_zipWith, List.zipWith_self]
    simp only [List.map_map, List.mem_map, Function.comp, Prod.map, id, Prod.mk.injEq]
    constructor
    · rintro ⟨y, hy, rfl, rfl⟩; exact ⟨hy, rfl⟩
    · rintro ⟨hx, rfl⟩; exact ⟨x, hx, rfl, rfl⟩
  obtain ⟨R, r1, r2, r3, -, r4, r5⟩ := (C45_network ts (fun t ht => by rw [h3 t ht]; simp) (some (A.enum N.output)) (some (A.enum N.sparse))).1
    ⟨fun t ht t' ht' x n n' hx hx' => by rw [((hhas t ht x n).1 hx).2, ((hhas t' ht' x n').1 hx').2], by simp,
      fun o hoe x hx => by cases hoe; exact (hmem x).1 (ho x (((he _).2 x).1 hx)),
      fun o hoe x hx => by cases hoe; exact (hmem x).1 (hs x (((he _).2 x).1 hx))⟩
  have hfs : ∀ s : Finset ι, (A.enum s).toFinset = s := fun s => by ext x; rw [List.mem_toFinset, (he s).2]
  refine ⟨dget R.dims, fun x n => ?_, ?_⟩
  · constructor
    · intro hx
      have hR : R.dims = dupdate [] (ts.flatMap fun t => t.inds.zip t.dims) := by
        unfold mkNetwork at r1
        rw [mapM_id_some] at r1
        simp only at r1
        split at r1
        · cases r1
        · split at r1
          · cases r1
          · split at r1
            · cases r1
            · cases r1; rfl
      rw [hR] at hx
      have hm := dget_dupdate_nil_mem hx
      obtain ⟨t, ht, hxt⟩ := List.mem_flatMap.1 hm
      have := (hhas t ht x n).1 (mem_zip_has.1 hxt)
      exact ⟨(hmem x).2 ⟨t, ht, this.1⟩, this.2⟩
    · rintro ⟨hx, rfl⟩
      obtain ⟨t, ht, hxt⟩ := (hmem x).1 hx
      exact r5 t ht x _ ((hhas t ht x _).2 ⟨hxt, rfl⟩)
  · unfold returnStep
    rw [h1]
    simp only [r1]
    rw [r3 _ rfl, r4, hlen, h2]
    simp only [Option.getD_some, hfs]


theorem filterMap_id_all {α : Type} {l : List (Option α)} (h : ∀ a ∈ l, a.isSome) : (l.filterMap id).map some = l := by
  induction l with
  | nil => rfl
  | cons a l ih =>
    cases a with
    | none => exact absurd (h none (by simp)) (by simp)
    | some a =>
      rw [List.filterMap_cons_some (by rfl), List.map_cons, ih fun b hb => h b (by simp [hb])]

theorem filterMap_map_some {α : Type} (l : List α) : (l.map some).filterMap id = l := by
  induction l with
  | nil => rfl
  | cons a l ih => rw [List.map_cons, List.filterMap_cons_some (by rfl), ih]

theorem ArrNet.Ok.fits {d : ι → ℕ} {N : ArrNet ι K T} (h : N.Ok d) : N.Fits d :=
  ⟨h.arrays.ge, h.tags.ge, h.dims, h.shape⟩

theorem ArrNet.Ok.consistent [CommRing K] {d : ι → ℕ} {N : ArrNet ι K T} (h : N.Ok d) (ha : ∀ a ∈ N.arrays, a.isSome) :
    Consistent d (N.arrays.filterMap id) N.tsInds := by
  have e := filterMap_id_all ha
  have h1 := h.arrays
  have h2 := h.shape
  rw [← e] at h1 h2
  rw [List.length_map] at h1
  refine ⟨h1, fun t ht => h2 (some t.1, t.2) ?_ t.1 rfl⟩
  rw [List.zip_map_left]
  exact List.mem_map.2 ⟨t, ht, rfl⟩

theorem contractIndsLoop_length {enum : Finset ι → List ι} {out : Finset ι} : ∀ (path : List (ℕ × ℕ)) (hc : ι → ℤ) (ts ts' : List (List ι)),
    contractIndsLoop enum out hc ts path = .ok ts' → ts'.length + path.length = ts.length := by
  intro path
  induction path with
  | nil => intro hc ts ts' h; simp only [contractIndsLoop, Except.ok.injEq] at h; subst h; simp
  | cons s path ih =>
    intro hc ts ts' h
    obtain ⟨x, y⟩ := s
    simp only [contractIndsLoop] at h
    split at h
    · cases h
    · split at h
      · cases h
      · next r hp =>
        split at h
        · cases h
        · split at h
          · cases h
          · have h1 := ih _ _ _ h
            have h2 := (popPair_perm hp).length_eq
            simp only [List.length_cons, List.length_append, List.length_nil] at h1 h2 ⊢
            omega

theorem contractInds_length {enum : Finset ι → List ι} {path : List (ℕ × ℕ)} {tsInds : List (List ι)} {output : Option (List ι)}
    {dims : Option (PyDims ι)} {inds : List (List ι)} {out : Finset ι} (h : contractInds enum path tsInds output dims = .ok (inds, out)) :
    inds.length + path.length = tsInds.length := by
  unfold contractInds at h
  split at h
  · cases h
  · split at h
    · cases h
    · split at h
      · cases h
      · next hl =>
        simp only [Except.ok.injEq, Prod.mk.injEq] at h
        obtain ⟨rfl, -⟩ := h
        exact contractIndsLoop_length _ _ _ _ hl

/-- The zero array of a shape. -/
def zeroArray (s : List ℕ) : NDArray ℤ := ⟨s, fun _ => 0⟩

theorem contractInds_ok {enum : Finset ι → List ι} (he : EnumOk enum) {path : List (ℕ × ℕ)} {tsInds : List (List ι)} {out : Finset ι}
    {dims : ι → Option ℕ} {d : ι → ℕ} (hn : ∀ xs ∈ tsInds, xs.Nodup) (hd : ∀ x ∈ tsInds.flatten, dims x = some (d x))
    (ho : ∀ x ∈ out, x ∈ tsInds.flatten) (hv : ValidPath tsInds.length path) :
    ∃ inds, contractInds enum path tsInds (some (enum out)) (some (.dict dims)) = .ok (inds, out) ∧ (∀ xs ∈ inds, xs.Nodup) ∧
      (∀ x ∈ out, x ∈ inds.flatten) ∧ (∀ x ∈ inds.flatten, x ∈ tsInds.flatten) := by
  have hc : Consistent d (tsInds.map fun xs => zeroArray (xs.map d)) tsInds := by
    refine ⟨by simp, fun t ht => ?_⟩
    rw [List.zip_map_left, List.zip_eq_zipWith, List.zipWith_self, List.map_map] at ht
    obtain ⟨xs, -, rfl⟩ := List.mem_map.1 ht
    rfl
  obtain ⟨⟨inds, out', arrs⟩, h1⟩ := (C31_succeeds enum he path tsInds (some (enum out)) _ (some (.dict dims)) hn d hc
    (fun D hD x hx => by cases hD; exact hd x hx) (fun x hx => ho x (((he out).2 x).1 hx))).1 hv
  obtain ⟨-, v2, rfl, v4, v5, -⟩ := contract_einsum he hn hc h1
  exact ⟨inds, C31_inds_only enum he path tsInds _ _ _ hn inds out' arrs h1 (.dict dims) (fun x hx => by
    show (dims x).isSome; rw [hd x hx]; rfl), v2, v4, v5⟩

section
variable [Zero W] [Add W] [LT W] [DecidableLT W] [CommRing K]

/-- What `load_tn` uses of its environment is as it should be. -/
structure LoadNetArgs.Ok (A : LoadNetArgs ι σ W) : Prop where
  rng : A.g.Ok
  enumN : EnumOk A.enumN
  enum : EnumOk A.enum

theorem fuse_path_ok {A : LoadNetArgs ι σ W} (hA : A.Ok) {d : ι → ℕ} {N : ArrNet ι K T} (h : N.Ok d) {w : W}
    (hfuel : N.tsInds.length + (uniqueEverseen N.tsInds.flatten).length < A.fuel) :
    ∃ path fused, fuse A.g A.enumN A.fuel A.start A.log2 N.tsInds (.dict N.dims) w (some (A.enum N.output)) [] = some (.ok (path, fused)) ∧
      ValidPath N.tsInds.length path ∧
      ∀ i, i < path.length → ∃ inds outR zs xs, contractInds A.enum (path.take (i + 1)) N.tsInds (some (A.enum N.output)) (some (.dict N.dims)) =
        .ok (inds, outR) ∧ inds.getLast? = some zs ∧ zs.Perm xs ∧ ¬ w < (xs.map fun x => A.log2 (d x)).foldl (· + ·) 0 := by
  obtain ⟨path, fused, h1, h2, h3, -, h5, -⟩ := C30_fuse A.g hA.rng A.enumN hA.enumN A.enum hA.enum A.start A.log2 N.tsInds (.dict N.dims) w
    (some (A.enum N.output)) [] h.nodup (by simp) d h.dims fun x hx => h.output x (((hA.enum _).2 x).1 hx)
  refine ⟨path, fused, h1 _ hfuel, h2, fun i hi => ?_⟩
  obtain ⟨⟨inds, outR, zs, e1, e2, e3⟩, e4, -⟩ := h5 i (by rw [h3]; exact hi)
  exact ⟨inds, outR, zs, _, e1, e2, e3, e4⟩

/-- Fusing tensors with arrays. -/
theorem fuseStep_arrays {A : LoadNetArgs ι σ W} (hA : A.Ok) {d : ι → ℕ} {N : ArrNet ι K T} (h : N.Ok d) {w : W}
    (hfuel : N.tsInds.length + (uniqueEverseen N.tsInds.flatten).length < A.fuel) (hp : N.fusePath = none) (ha : ∀ a ∈ N.arrays, a.isSome)
    (hs : N.sparse = ∅) {p : ℕ} (hp0 : p ≠ 0) :
    ∃ N' path, fuseStep A p w N = some (.ok N') ∧ N.Fused A.enum A.log2 d w N' path ∧ N'.Ok d ∧ (∀ a ∈ N'.arrays, a.isSome) ∧
      N'.hyperMap = N.hyperMap ∧ N'.dims = N.dims ∧ ∀ f : ι → ℕ, (∀ x ∈ N.output, f x < d x) → N'.value d f = N.value d f := by
  obtain ⟨path, fused, h1, h2, h3⟩ := fuse_path_ok hA h (w := w) hfuel
  have hc := h.consistent ha
  obtain ⟨⟨inds, out, arrs⟩, h4⟩ := (C31_succeeds A.enum hA.enum path N.tsInds (some (A.enum N.output)) _ (some (.dict N.dims)) h.nodup d hc
    (fun D hD x hx => by cases hD; exact (h.dims x hx).1) (fun x hx => h.output x (((hA.enum _).2 x).1 hx))).1 h2
  obtain ⟨v1, v2, rfl, v4, v5, v6⟩ := contract_einsum hA.enum h.nodup hc h4
  have h5 := C31_inds_only A.enum hA.enum path N.tsInds _ _ _ h.nodup inds N.output arrs h4 (.dict N.dims) (fun x hx => by
    show (N.dims x).isSome; rw [(h.dims x hx).1]; rfl)
  obtain ⟨F, hF⟩ := h2
  have ht : tagLoop path N.tsTags = .ok (F.map fun t => t.tagsOf fun i => (N.tsTags[i]?).getD none) := by
    have := tagLoop_replay (tags := fun i => (N.tsTags[i]?).getD none) path _ F hF
    rw [← h.tags] at this
    rw [← this]
    exact congrArg _ (tags_init N.tsTags).symm
  have hFl : F.length = inds.length := by
    have e1 := (Linear.replay_length hF).1
    have e2 := contractInds_length h5
    simp only [List.length_map, List.length_range] at e1
    omega
  refine ⟨{ N with tsInds := inds, arrays := arrs.map some, tsTags := F.map fun t => t.tagsOf fun i => (N.tsTags[i]?).getD none,
                   fusePath := some path }, path, ?_, ?_, ?_, ?_, rfl, rfl, ?_⟩
  · unfold fuseStep
    rw [h1]
    simp only [contractStep, if_pos hp0, h4, ht, hp]
    simp
  · exact ⟨rfl, ⟨F, hF⟩, h3, h5, rfl, rfl, F, hF, rfl⟩
  · refine ⟨by simp [v1.1], by simp [hFl], fun x hx => h.dims x (v5 x hx), ?_, v2, v4, fun x hx => ?_⟩
    · intro t ht' a hta
      rw [List.zip_map_left] at ht'
      obtain ⟨u, hu, rfl⟩ := List.mem_map.1 ht'
      simp only [Prod.map, Option.some.injEq, id] at hta ⊢
      rw [← hta]; exact v1.2 u hu
    · simp only [hs] at hx; exact absurd hx (Finset.notMem_empty x)
  · intro a ha'
    obtain ⟨b, -, rfl⟩ := List.mem_map.1 ha'
    rfl
  · intro f hf
    unfold ArrNet.value
    simp only [filterMap_map_some]
    refine v6 _ _ (nodup_summed N) (nodup_summed _) (fun x => mem_summed) (fun x => mem_summed) f hf

/-- Fusing tensors without arrays. -/
theorem fuseStep_inds {A : LoadNetArgs ι σ W} (hA : A.Ok) {d : ι → ℕ} {N : ArrNet ι K T} (h : N.Ok d) {w : W}
    (hfuel : N.tsInds.length + (uniqueEverseen N.tsInds.flatten).length < A.fuel) (hp : N.fusePath = none) (ha : ∀ a ∈ N.arrays, a = none) :
    ∃ N' path, fuseStep A 0 w N = some (.ok N') ∧ N.Fused A.enum A.log2 d w N' path ∧ N'.Fits d ∧ N'.arrays = N.arrays ∧
      N'.hyperMap = N.hyperMap ∧ N'.dims = N.dims ∧ (∀ x ∈ N.output, x ∈ N'.tsInds.flatten) ∧ N'.tsTags.length = N'.tsInds.length ∧
      (∀ x ∈ N'.tsInds.flatten, x ∈ N.tsInds.flatten) := by
  obtain ⟨path, fused, h1, h2, h3⟩ := fuse_path_ok hA h (w := w) hfuel
  obtain ⟨inds, h5, v2, v4, v5⟩ := contractInds_ok hA.enum h.nodup (fun x hx => (h.dims x hx).1) h.output h2
  obtain ⟨F, hF⟩ := h2
  have ht : tagLoop path N.tsTags = .ok (F.map fun t => t.tagsOf fun i => (N.tsTags[i]?).getD none) := by
    have := tagLoop_replay (tags := fun i => (N.tsTags[i]?).getD none) path _ F hF
    rw [← h.tags] at this
    rw [← this]
    exact congrArg _ (tags_init N.tsTags).symm
  have e2 := contractInds_length h5
  have hFl : F.length = inds.length := by
    have e1 := (Linear.replay_length hF).1
    simp only [List.length_map, List.length_range] at e1
    omega
  refine ⟨{ N with tsInds := inds, tsTags := F.map fun t => t.tagsOf fun i => (N.tsTags[i]?).getD none,
                   fusePath := some path }, path, ?_, ?_, ?_, rfl, rfl, rfl, v4, by simp [hFl], v5⟩
  · unfold fuseStep
    rw [h1]
    simp only [contractStep, h5, ht, hp]
    simp
  · exact ⟨rfl, ⟨F, hF⟩, h3, h5, rfl, rfl, F, hF, rfl⟩
  · refine ⟨?_, by simp [hFl], fun x hx => h.dims x (v5 x hx), ?_⟩
    · simp only; rw [h.arrays]; omega
    · intro t ht' a hta
      have := ha t.1 (List.of_mem_zip (show (t.1, t.2) ∈ _ from ht')).1
      rw [this] at hta; cases hta

end

end TNCO
