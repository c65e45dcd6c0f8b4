import Verif.Lemmas.Fuse
import Verif.Props.RandomPath
import Verif.Props.Contract

/-!
# C30: fusing tensors
-/

namespace TNCO
open Linear
variable {ι σ W : Type} [DecidableEq ι] [Zero W] [Add W] [LT W] [DecidableLT W]

theorem map_getElem_range (l : List (List ι)) : (List.range l.length).map (fun k => l.getD k []) = l := by
  refine List.ext_getElem (by simp) fun i h1 h2 => ?_
  rw [List.getElem_map, List.getElem_range, List.getD_eq_getElem _ _ h2]

theorem cntI_init {tsInds : List (List ι)} (hn : ∀ xs ∈ tsInds, xs.Nodup) (x : ι) :
    cntI (fun k => tsInds.getD k []) (List.range tsInds.length) x = tsInds.flatten.count x := by
  have : ∀ l : List (List ι), (∀ xs ∈ l, xs.Nodup) → l.flatten.count x = l.countP fun xs => x ∈ xs := by
    intro l
    induction l with
    | nil => intro _; rfl
    | cons a l ih =>
      intro h
      rw [List.flatten_cons, List.count_append, ih fun xs hxs => h xs (by simp [hxs]), List.countP_cons, count_of_nodup (h a (by simp))]
      simp only [decide_eq_true_eq]
      omega
  rw [this tsInds hn]
  conv_rhs => rw [← map_getElem_range tsInds, List.countP_map]
  rfl

/-- The invariant before the loop. -/
theorem fuInv_init {enum : Finset ι → List ι} {out excl : Finset ι} {width : List ι → Except PyErr W} {maxW : W}
    {tsInds : List (List ι)} (hn : ∀ xs ∈ tsInds, xs.Nodup) :
    FuInv enum out excl width maxW tsInds (fuseInit tsInds excl) (fun k => tsInds.getD k []) (fun k => tsInds.getD k [])
      (List.range tsInds.length) := by
  have hget : ∀ k < tsInds.length, tsInds.getD k [] ∈ tsInds := fun k hk => by
    rw [List.getD_eq_getElem _ _ hk]; exact List.getElem_mem _
  refine ⟨rfl, trivial, rfl, fun k hk => List.mem_range.1 hk, List.pairwise_lt_range, ?_, fun _ _ _ => rfl, ?_, ?_, ?_, ?_, ?_, ?_,
    fun _ _ => .refl _, ?_, ?_, ?_, ?_⟩
  · intro k hk
    rw [List.mem_range] at hk
    show tsInds[k]? = _
    rw [List.getElem?_eq_getElem hk, List.getD_eq_getElem _ _ hk]
  · intro k hk; exact hn _ (hget k (List.mem_range.1 hk))
  · intro k hk x hx; exact List.mem_flatten.2 ⟨_, hget k (List.mem_range.1 hk), hx⟩
  · intro x hx
    rw [cntI_init hn, List.count_pos_iff] at hx
    show (if x ∈ tsInds.flatten then some ((Finset.range tsInds.length).filter fun k => x ∈ tsInds.getD k []) else none) = _
    rw [if_pos hx]
    congr 1
    ext k
    simp
  · intro x hx
    rw [cntI_init hn]
    show ((tsInds.flatten.count x : ℕ) : ℤ) - 1 = _
    have := List.count_pos_iff.2 hx
    omega
  · intro x hx
    exact mem_uniqueEverseen.1 (List.mem_filter.1 hx).1
  · show Except.ok (_, _) = Except.ok (_, _)
    rw [map_getElem_range]
    rfl
  · intro i hi
    simp [fuseInit] at hi
  · intro k hk; simp [fuseInit, tri, used] at hk
  · intro x hx; simp [fuseInit] at hx
  · intro e _ x hx hxa
    by_contra h0
    refine hxa (List.mem_filter.2 ⟨mem_uniqueEverseen.2 hx, decide_eq_true ⟨?_, h0⟩⟩)
    rw [e]; simp

/-- C30: whatever the random numbers, `fuse` ends and returns a valid path. Contracting along the path with `contract` gives after
every step a tensor with the reported indices, in some order; its width is not larger than the limit; it has no excluded
index, and no tensor with an excluded index is touched. Without a limit and exclusions, no two tensors share an index in the end. -/
theorem C30_fuse (g : PyRng σ) (hg : g.Ok) (enumN : Finset ℕ → List ℕ) (heN : EnumOk enumN) (enum : Finset ι → List ι)
    (he : EnumOk enum) (s : σ) (log2 : ℕ → W) (tsInds : List (List ι)) (dims : PyDims ι) (maxW : W) (output : Option (List ι))
    (exclude : List ι) (hn : ∀ xs ∈ tsInds, xs.Nodup) (hx : ∀ x ∈ exclude, x ∈ tsInds.flatten) (d : ι → ℕ)
    (hd : ∀ x ∈ tsInds.flatten, dims.get? x = some (d x) ∧ 0 < d x)
    (ho : match output with
      | some l => ∀ x ∈ l, x ∈ tsInds.flatten
      | none => ∀ x, tsInds.flatten.count x ≤ 2) :
    ∃ path fused, (∀ fuel, tsInds.length + (uniqueEverseen tsInds.flatten).length < fuel →
        fuse g enumN fuel s log2 tsInds dims maxW output exclude = some (.ok (path, fused))) ∧
      ValidPath tsInds.length path ∧ fused.length = path.length ∧
      (∀ k, Touches tsInds.length path k → ∀ x ∈ exclude, ¬ Holds tsInds k x) ∧
      (∀ i (hi : i < fused.length), (∃ inds outR zs, contractInds enum (path.take (i + 1)) tsInds output (some dims) = .ok (inds, outR) ∧
          inds.getLast? = some zs ∧ zs.Perm fused[i]) ∧
        ¬ maxW < (fused[i].map fun x => log2 (d x)).foldl (· + ·) 0 ∧ ∀ x ∈ exclude, x ∉ fused[i]) ∧
      ∃ inds outR, contractInds enum path tsInds output (some dims) = .ok (inds, outR) ∧
        (exclude = [] → (∀ w, ¬ maxW < w) → inds.flatten.Nodup) := by
  obtain ⟨out, hout⟩ := contractOutput_ok ho
  have hck : checkDims (R := ℕ) tsInds none (some dims) = .ok () := by
    unfold checkDims
    cases dims with
    | int n => rfl
    | dict f =>
      simp only
      rw [if_pos]
      rw [List.all_eq_true]
      intro x hx
      rw [show f x = some (d x) from (hd x hx).1]; rfl
  have hci : ∀ p hc inds, contractSt enum out (hyperCount tsInds.flatten) tsInds p = .ok (hc, inds) →
      contractInds enum p tsInds output (some dims) = .ok (inds, out ∩ inds.flatten.toFinset) := by
    intro p hc inds hp
    unfold contractInds
    rw [hck]
    simp only [hout]
    rw [contractSt_snd, hp]
    rfl
  set width := fuseWidth (ι := ι) log2 (fun x => (dims.get? x).getD 0) with hwidth
  have hwid : ∀ xs : List ι, (∀ x ∈ xs, x ∈ tsInds.flatten) →
      width xs = .ok ((xs.map fun x => log2 (d x)).foldl (· + ·) 0) := by
    intro xs hxs
    rw [hwidth]
    unfold fuseWidth
    rw [if_neg]
    · congr 2
      refine List.map_congr_left fun x hx => ?_
      simp only [(hd x (hxs x hx)).1]; rfl
    · rintro ⟨x, h1, h2⟩
      have := hd x (hxs x h1)
      simp only [this.1, Option.getD_some] at h2
      omega
  have hI : FuInv enum out exclude.toFinset width maxW tsInds (fuseInit tsInds exclude.toFinset) _ _ _ := fuInv_init hn
  obtain ⟨st, f, u, L, r1, r2, r3⟩ := fuseLoop_spec hg heN he (fun xs hxs => ⟨_, hwid xs hxs⟩) _ s _ _ _ _ hI (le_refl _)
  have hfl : ∀ fuel, tsInds.length + (uniqueEverseen tsInds.flatten).length < fuel →
      fuseLoop g enumN out exclude.toFinset width maxW fuel s (fuseInit tsInds exclude.toFinset) = some (.ok st) := by
    intro fuel hf
    refine r1 fuel ?_
    rw [List.length_range]
    have : (fuseInit tsInds exclude.toFinset).avail.length ≤ (uniqueEverseen tsInds.flatten).length := List.length_filter_le _ _
    omega
  set c := tri tsInds.length st.merged with hc
  set path := lin (List.range tsInds.length) c with hpath
  have hnorm : fuseNorm (List.range st.tIdx) st.merged = .ok path := by
    rw [r2.idx]
    have := fuseNorm_eq st.merged tsInds.length st.merged.length (L := List.range tsInds.length) List.pairwise_lt_range
      (fun a ha => List.mem_range.1 ha) r2.ok (le_refl _)
    rw [← this, List.range_eq_range', List.range_eq_range']
    congr 1
    have e := List.range'_append_1 (s := 0) (m := tsInds.length) (n := st.merged.length)
    rw [Nat.zero_add] at e
    exact e.symm
  obtain ⟨σ', l1, -, l3⟩ := lin_spec List.nodup_range r2.ok .tensor .tensor fun a _ => .tensor a
  have hmlen : path.length = st.merged.length := by rw [hpath, lin_length, hc, tri_length]
  refine ⟨path, st.merged.map fun m => m.2.2, ?_, ⟨_, l1⟩, by simp [hmlen], ?_, ?_, ?_⟩
  · intro fuel hf
    unfold fuse
    have hsubset : exclude.toFinset ⊆ tsInds.flatten.toFinset := fun x hxe => List.mem_toFinset.2 (hx x (List.mem_toFinset.1 hxe))
    rw [if_neg (not_not.2 hsubset), if_neg]
    · rw [hout]
      simp only
      rw [← hwidth, hfl fuel hf]
      simp only
      rw [if_neg, if_neg, hnorm]
      · rintro ⟨x, h1, h2⟩
        rw [r2.hc x h1] at h2
        omega
      · rw [not_not, Finset.eq_empty_iff_forall_notMem]
        intro x h1
        rw [Finset.mem_inter] at h1
        exact r2.mergedx x h1.1 h1.2
    · rintro ⟨x, h1, h2⟩
      rw [(hd x h1).1] at h2
      simp at h2
  · rintro k ⟨t, ht, hk⟩ x hxe hh
    obtain ⟨v, hv, hs⟩ := forall2_mem l3 ht
    obtain ⟨a, ha, hka⟩ := (prods_tensors (c := c) .tensor k).1 ⟨v, hv, (same_tensors hs k).1 hk⟩
    simp only [Term.tensors, List.mem_singleton] at hka
    subst hka
    have hlt : k < tsInds.length := List.mem_range.1 (r2.ok.input List.nodup_range ha)
    exact r2.usedx k (mem_used_of_input ha) hlt x hh (List.mem_toFinset.2 hxe)
  · intro i hi
    have hi' : i < st.merged.length := by simpa using hi
    have hM := r2.merged i hi'
    obtain ⟨hc', inds, zs, e1, e2, e3⟩ := hM.contr
    rw [List.getElem_map]
    refine ⟨⟨inds, _, zs, hci _ _ _ e1, e2, e3⟩, ?_, ?_⟩
    · obtain ⟨w, w1, w2⟩ := hM.width_le
      rw [hwid _ hM.sub] at w1
      rw [Except.ok.inj w1]
      exact w2
    · intro x hxe hxm
      exact hM.excluded x hxm (List.mem_toFinset.2 hxe)
  · refine ⟨_, _, hci _ _ _ r2.contr, ?_⟩
    intro hee hW
    rw [List.nodup_iff_count_le_one]
    intro x
    have hcount : (L.map u).flatten.count x = cntI f L x := by
      have : ∀ M : List ℕ, (∀ k ∈ M, k ∈ L) → (M.map u).flatten.count x = cntI f M x := by
        intro M
        induction M with
        | nil => intro _; rfl
        | cons k M ih =>
          intro hM
          have hk : k ∈ L := hM k (by simp)
          unfold cntI at ih ⊢
          rw [List.map_cons, List.flatten_cons, List.count_append, ih fun j hj => hM j (by simp [hj]), List.countP_cons,
            (r2.perm k hk).count_eq, count_of_nodup (r2.nd k hk)]
          simp only [decide_eq_true_eq]
          omega
      exact this L fun _ h => h
    rw [hcount]
    by_cases hxf : x ∈ tsInds.flatten
    · have h1 := r2.free (by rw [hee]; rfl) hW x hxf (by rw [r3]; simp)
      rw [r2.hc x hxf] at h1
      omega
    · have : ¬ 0 < cntI f L x := by
        rw [cntI_pos]
        rintro ⟨k, hk, hxk⟩
        exact hxf (r2.sub k hk x hxk)
      omega

/-- C30: arguments that do not fit the network are rejected. -/
theorem C30_rejects (g : PyRng σ) (enumN : Finset ℕ → List ℕ) (fuel : ℕ) (s : σ) (log2 : ℕ → W) (tsInds : List (List ι)) (dims : PyDims ι)
    (maxW : W) (output : Option (List ι)) (exclude : List ι)
    (h : (∃ x ∈ exclude, x ∉ tsInds.flatten) ∨ (∃ x ∈ tsInds.flatten, dims.get? x = none) ∨
      match output with
      | some l => ∃ x ∈ l, x ∉ tsInds.flatten
      | none => ∃ x, 2 < tsInds.flatten.count x) :
    fuse g enumN fuel s log2 tsInds dims maxW output exclude = some (.error .valueError) := by
  unfold fuse
  split
  · rfl
  · rename_i h1
    split
    · rfl
    · rename_i h2
      rcases h with ⟨x, hx, hxf⟩ | h | h
      · exact absurd (List.mem_toFinset.1 (not_not.1 h1 (List.mem_toFinset.2 hx))) hxf
      · exact absurd h h2
      · have : contractOutput tsInds.flatten output = .error .valueError := by
          unfold contractOutput
          cases output with
          | some l =>
            obtain ⟨x, hx, hxf⟩ := h
            simp only
            rw [if_neg fun hs => hxf (List.mem_toFinset.1 (hs (List.mem_toFinset.2 hx)))]
          | none =>
            obtain ⟨x, hx⟩ := h
            simp only
            rw [if_pos]
            rw [List.any_eq_true]
            refine ⟨x, mem_uniqueEverseen.2 (List.count_pos_iff.1 (by omega)), decide_eq_true ?_⟩
            unfold hyperCount
            omega
        rw [this]

/-- A chain with a hyper-index and an excluded index meets the conditions. -/
example : (∀ xs ∈ [[0, 1], [1, 2], [1, 2, 3], [3, 4]], xs.Nodup) ∧
    (∀ x ∈ [4], x ∈ [[0, 1], [1, 2], [1, 2, 3], [3, 4]].flatten) ∧
    (∀ x ∈ [[0, 1], [1, 2], [1, 2, 3], [3, 4]].flatten, (PyDims.int 2 : PyDims ℕ).get? x = some 2 ∧ 0 < 2) ∧
    ∀ x ∈ [0], x ∈ [[0, 1], [1, 2], [1, 2, 3], [3, 4]].flatten := by
  refine ⟨by decide, by decide, fun _ _ => ⟨rfl, by decide⟩, by decide⟩

end TNCO
