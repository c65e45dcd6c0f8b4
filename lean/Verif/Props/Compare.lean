import Verif.Lemmas.Compare

/-!
# Property C68: comparing trees and optimizers

`InfReach enum g m o`, `FwReach enum g log2 m maxNew o`: the optimizers of a program, that is, built from a tree that was built from a path, and updated any
number of times; `m` is the cost model given to the constructor. `o.reduce m` are the arguments of `o.__reduce__()`, by which optimizers are compared.
-/

namespace TNCO
open PTree

variable {ι : Type} [DecidableEq ι]

/-! ## Trees -/

/-- C68: two trees built from paths are equal exactly if they have the same nodes, index sets, dimensions and names of indices. -/
theorem C68_tree (enum enum' : Finset ι → List ι) (path path' : List (ℕ × ℕ)) (tsInds tsInds' : List (List ι)) (dims dims' : PyDims ι)
    (output output' : Option (List ι)) (check check' : Bool) (t u : PyTree ι) (ht : PyTree.ofPath enum path tsInds dims output check = .ok t)
    (hu : PyTree.ofPath enum' path' tsInds' dims' output' check' = .ok u) :
    t.same u = true ↔ t.core = u.core ∧ t.indsOrder = u.indsOrder :=
  PyTree.same_iff (ofPath_tidy ht).clean (ofPath_tidy hu).clean

/-- C68: equal trees have the same path if both contract all tensors of their lists. -/
theorem C68_tree_path_partial (enum enum' : Finset ι → List ι) (he : EnumOk enum) (he' : EnumOk enum') (path path' : List (ℕ × ℕ))
    (tsInds tsInds' : List (List ι)) (hts : ∀ l ∈ tsInds, l.Nodup) (hts' : ∀ l ∈ tsInds', l.Nodup) (dims dims' : PyDims ι)
    (output output' : Option (List ι)) (check check' : Bool) (t u : PyTree ι) (ht : PyTree.ofPath enum path tsInds dims output check = .ok t)
    (hu : PyTree.ofPath enum' path' tsInds' dims' output' check' = .ok u) (hall : ∀ p < tsInds.length, p ∈ t.tensorsPos)
    (hall' : ∀ p < tsInds'.length, p ∈ u.tensorsPos) (heq : t.same u = true) : t.path = u.path := by
  have key : ∀ {enum : Finset ι → List ι}, EnumOk enum → ∀ {path tsInds dims output check} {t : PyTree ι}, (∀ l ∈ tsInds, l.Nodup) →
      PyTree.ofPath enum path tsInds dims output check = .ok t → (∀ p < tsInds.length, p ∈ t.tensorsPos) →
      t.tensorsPos = List.range t.nTensors ∧ t.nTensors = (t.core.tree.size + 1) / 2 := by
    intro enum he path tsInds dims output check t hts ht hall
    obtain ⟨c, t0, t', out, hG, -, hb, -, hnt, -⟩ := ofPath_sound he hts ht
    have e : t.tensorsPos = List.range t.nTensors := by
      rw [hb.pos, hnt]
      refine List.Perm.eq_of_pairwise' (tensorsPosOf_sorted _ _) (List.pairwise_le_range) ?_
      rw [List.perm_ext_iff_of_nodup (tensorsPosOf_nodup _ _) List.nodup_range]
      intro p
      rw [List.mem_range]
      constructor
      · intro h; exact (mem_tensorsPosOf.1 h).2
      · intro h; rw [← hb.pos]; exact hall p h
    refine ⟨e, ?_⟩
    rw [← hb.len, e, List.length_range]
  obtain ⟨h1, h2⟩ := (C68_tree _ _ _ _ _ _ _ _ _ _ _ _ _ _ ht hu).1 heq
  obtain ⟨a1, a2⟩ := key he hts ht hall
  obtain ⟨b1, b2⟩ := key he' hts' hu hall'
  have hn : t.nTensors = u.nTensors := by rw [a2, b2, h1]
  unfold PyTree.path
  rw [h1, a1, b1, hn]

/-- Sets of `Fin 4` in increasing order. -/
def fourEnum (s : Finset (Fin 4)) : List (Fin 4) := (List.finRange 4).filter (· ∈ s)

theorem fourEnum_ok : EnumOk fourEnum := fun s => ⟨(List.nodup_finRange 4).filter _, fun x => by simp [fourEnum]⟩

/-- **C68 is violated**: `_n_tensors` and `_tensors_pos` are not compared. Contracting the two tensors of `[01, 12]` and the first and the last one of
`[01, 3, 12]` gives equal trees with different paths; the path of one contracts other tensors if used with the other. -/
theorem C68_violated_path :
    ∃ t u : PyTree (Fin 4), PyTree.ofPath fourEnum [(0, 1)] [[0, 1], [1, 2]] (.int 2) none false = .ok t ∧
      PyTree.ofPath fourEnum [(0, 2)] [[0, 1], [3], [1, 2]] (.int 2) none false = .ok u ∧
      t.same u = true ∧ t.path = some [(0, 1)] ∧ u.path = some [(0, 2)] := by
  obtain ⟨t, u, h1, h2, h3⟩ := fw_eval (x := some (PyTree.ofPath fourEnum [(0, 1)] [[0, 1], [1, 2]] (.int 2) none false))
    (f := fun _ => PyTree.ofPath fourEnum [(0, 2)] [[0, 1], [3], [1, 2]] (.int 2) none false)
    (Q := fun t u => t.same u && decide (t.path = some [(0, 1)]) && decide (u.path = some [(0, 2)])) (by decide +kernel)
  simp only [Bool.and_eq_true, decide_eq_true_eq] at h3
  exact ⟨t, u, Option.some.inj h1, h2, h3.1.1, h3.1.2, h3.2⟩

/-! ## The infinite-memory optimizer -/

section
variable {σ P : Type} [LinearOrder P]

/-- The infinite-memory optimizers of a program. -/
def InfReach (enum : Finset ι → List ι) (g : Prng σ P) (m : PyCost ι) (o : PyInf ι σ ℤ) : Prop :=
  ∃ path tsInds dims output check t seed dis c o0, ∃ probs : List (ℤ → ℤ → P),
    (∀ l ∈ tsInds, l.Nodup) ∧ PyTree.ofPath enum path tsInds dims output check = .ok t ∧ m.core enum t.indsOrder = .ok c ∧
    PyInf.make (fun _ d => c.model d) t seed dis none = .ok o0 ∧ o0.core.run g (c.model t.core.dims) probs = some o.core ∧ o.cache = o0.cache

theorem InfReach.facts {enum : Finset ι → List ι} (he : EnumOk enum) {g : Prng σ P} {m : PyCost ι} {o : PyInf ι σ ℤ} (h : InfReach enum g m o) :
    ∃ c nT tp, m.core enum o.cache.indsOrder = .ok c ∧ o.core.ctree.Clean ∧ o.core.minCtree.Clean ∧
      o.reduce m = .ok ⟨⟨o.core.ctree, nT, tp, o.cache.indsOrder⟩, m, o.core.prng, o.core.disableShared, ⟨o.core.minCtree, nT, tp, o.cache.indsOrder⟩⟩ ∧
      InfOpt.make (c.model o.core.ctree.dims) o.core.ctree o.core.prng o.core.disableShared (some o.core.minCtree) = some (.ok o.core) ∧
      PyInf.unpickle enum (fun _ d => c.model d) o = .ok o := by
  obtain ⟨path, tsInds, dims, output, check, t, seed, dis, c, o0, probs, hts, ht, hc, hmk, hrun, hca⟩ := h
  obtain ⟨⟨t0, hwf, hex⟩, -⟩ := C10_core_exact enum he path tsInds hts dims output check t ht
  have hv := (C10_indices_exact enum he path tsInds hts dims output check t ht).1
  have hpos : ∀ s, s ⊆ Finset.range t.core.nInds → 0 < (c.model t.core.dims).get s := fun s hs =>
    core_pos hc ((ctree_isValid_iff hwf _).1 hv).1 hs
  obtain ⟨h1, h2, h3, h4, h5, h6, h7⟩ := inf_rebuild (cm := fun _ d => c.model d) he (ofPath_tidy ht) hwf hex hpos hmk hrun
  have h8 := C26_infinite_memory_state enum he g (fun _ d => c.model d) t seed dis probs o0 o.core t0 _ (ofPath_tidy ht) hwf hex hpos hmk hrun
  obtain ⟨oc, oca⟩ := o
  simp only at hca h2 h3 h4 h5 h6 h7 h8 ⊢
  subst hca
  rw [h1] at h8 ⊢
  refine ⟨c, t.nTensors, t.tensorsPos, hc, h3, h4, ?_, by rw [h2]; exact h7, h8⟩
  unfold PyInf.reduce
  simp only [h1, h5, h6]
  rfl

variable [DecidableEq σ] {W : Type} [AddCommGroup W] [LinearOrder W]

/-- C68: comparing infinite-memory optimizers never fails. They are equal exactly if their cost models and index names are equal and all of their state is:
trees, costs, caches, generator and options. -/
theorem C68_infinite (enum : Finset ι → List ι) (he : EnumOk enum) (g : Prng σ P) (m m' : PyCost ι) (o o' : PyInf ι σ ℤ) (h : InfReach enum g m o)
    (h' : InfReach enum g m' o') : ∃ a b, o'.reduce m' = .ok a ∧ o.eq m (W := W) (.inf a) = .ok b ∧
      (b = true ↔ m.eq m' = true ∧ o.cache.indsOrder = o'.cache.indsOrder ∧ o.core = o'.core) := by
  obtain ⟨c, nT, tp, hc, hcl, hcm, hr, hmk, -⟩ := h.facts he
  obtain ⟨c', nT', tp', hc', hcl', hcm', hr', hmk', -⟩ := h'.facts he
  refine ⟨_, _, hr', by unfold PyInf.eq; rw [hr]; rfl, ?_⟩
  simp only [Bool.and_eq_true, decide_eq_true_eq]
  rw [PyTree.same_iff hcl hcl', PyTree.same_iff hcm hcm']
  constructor
  · rintro ⟨⟨⟨⟨⟨h1, h2⟩, h3⟩, h4⟩, h5⟩, ⟨h6, -⟩⟩
    simp only at h1 h2 h4 h5 h6
    refine ⟨h3, h2, ?_⟩
    rw [h2] at hc
    rw [core_eq_of_eq h3 hc hc', h1, h4, h5, h6, hmk'] at hmk
    simpa using hmk.symm
  · rintro ⟨h1, h2, h3⟩
    rw [h2, h3]
    exact ⟨⟨⟨⟨⟨rfl, rfl⟩, h1⟩, rfl⟩, rfl⟩, ⟨rfl, rfl⟩⟩

/-- C68: equal infinite-memory optimizers answer every sequence of updates in the same way. -/
theorem C68_infinite_future (enum : Finset ι → List ι) (he : EnumOk enum) (g : Prng σ P) (m m' : PyCost ι) (o o' : PyInf ι σ ℤ) (h : InfReach enum g m o)
    (h' : InfReach enum g m' o') (a : InfArgs ι σ) (ha : o'.reduce m' = .ok a) (heq : o.eq m (W := W) (.inf a) = .ok true) :
    ∃ c, m.core enum o.cache.indsOrder = .ok c ∧ m'.core enum o'.cache.indsOrder = .ok c ∧ o.core.ctree.dims = o'.core.ctree.dims ∧
      ∀ future, o.core.run g (c.model o.core.ctree.dims) future = o'.core.run g (c.model o'.core.ctree.dims) future := by
  obtain ⟨a', b, ha', hb, hiff⟩ := C68_infinite (W := W) enum he g m m' o o' h h'
  rw [ha] at ha'; cases ha'
  rw [heq] at hb; cases hb
  obtain ⟨h1, h2, h3⟩ := hiff.1 rfl
  obtain ⟨c, -, -, hc, -⟩ := h.facts he
  obtain ⟨c', -, -, hc', -⟩ := h'.facts he
  have := core_eq_of_eq h1 hc (h2 ▸ hc')
  subst this
  exact ⟨c, hc, hc', by rw [h3], fun future => by rw [h3]⟩

/-- C68: a pickled copy is equal to the original. -/
theorem C68_infinite_pickle (enum : Finset ι → List ι) (he : EnumOk enum) (g : Prng σ P) (m : PyCost ι) (o : PyInf ι σ ℤ) (h : InfReach enum g m o) :
    ∃ c o' a, m.core enum o.cache.indsOrder = .ok c ∧ PyInf.unpickle enum (fun _ d => c.model d) o = .ok o' ∧ o'.reduce m = .ok a ∧
      o.eq m (W := W) (.inf a) = .ok true := by
  obtain ⟨c, nT, tp, hc, -, -, hr, -, hp⟩ := h.facts he
  obtain ⟨a, b, ha, hb, hiff⟩ := C68_infinite (W := W) enum he g m m o o h h
  refine ⟨c, o, a, hc, hp, ha, ?_⟩
  rw [hb, hiff.2 ⟨by simp [PyCost.eq], rfl, rfl⟩]

end

/-! ## The finite-width optimizer -/

section
variable {σ P W : Type} [LinearOrder P] [AddCommGroup W] [LinearOrder W] [IsOrderedAddMonoid W]

/-- The finite-width optimizers of a program, with `max_number_new_slices = maxNew`; with sparse indices only for `maxNew = 0`, as in C22. -/
def FwReach (enum : Finset ι → List ι) (g : FwPrng σ P) (log2 : ℕ → W) (m : PyFwCost ι W) (maxNew : ℕ) (o : PyFw ι σ ℤ W) : Prop :=
  ∃ path tsInds dims output check t seed dis skip c w o0, ∃ ps : List ((ℤ → ℤ → P) × Bool),
    (∀ l ∈ tsInds, l.Nodup) ∧ PyTree.ofPath enum path tsInds dims output check = .ok t ∧ m.core enum t.indsOrder = .ok c ∧
    c.widthModel log2 t.core.dims m.maxWidth = some w ∧ (c = .simple ∨ maxNew = 0) ∧
    PyFw.make g (fun _ d => c.model d) (fun _ _ => w) t maxNew seed dis skip none none none = .ok o0 ∧
    o0.core.run g (c.model t.core.dims) w ps = .ok o.core ∧ o.cache = o0.cache ∧ o.skip = o0.skip

theorem FwReach.facts {enum : Finset ι → List ι} (he : EnumOk enum) {g : FwPrng σ P} {log2 : ℕ → W} (hlog : ∀ n, 0 ≤ log2 n) {m : PyFwCost ι W}
    {maxNew : ℕ} {o : PyFw ι σ ℤ W} (h : FwReach enum g log2 m maxNew o) :
    ∃ c w nT tp f1 f2 sk, m.core enum o.cache.indsOrder = .ok c ∧ c.widthModel log2 o.core.inf.ctree.dims m.maxWidth = some w ∧
      o.core.maxNew = maxNew ∧ o.core.inf.ctree.Clean ∧ o.core.inf.minCtree.Clean ∧
      toBits o.cache.indsOrder o.skip = some sk ∧ toBits o.cache.indsOrder f1 = some o.core.slices ∧ toBits o.cache.indsOrder f2 = some o.core.minSlices ∧
      ofBits o.cache.indsOrder o.core.inf.ctree.nInds o.core.slices = some f1 ∧
      ofBits o.cache.indsOrder o.core.inf.ctree.nInds o.core.minSlices = some f2 ∧
      o.reduce m = .ok ⟨⟨o.core.inf.ctree, nT, tp, o.cache.indsOrder⟩, m, o.core.inf.prng, o.core.inf.disableShared,
        ⟨o.core.inf.minCtree, nT, tp, o.cache.indsOrder⟩, f1, f2, o.skip⟩ ∧
      FwOpt.pyMake g (c.model o.core.inf.ctree.dims) w o.core.inf.ctree 0 o.core.inf.prng o.core.inf.disableShared sk (some o.core.inf.minCtree)
        (some o.core.slices) (some o.core.minSlices) = some (.ok { o.core with maxNew := 0 }) ∧
      PyFw.unpickle enum g (fun _ d => c.model d) (fun _ _ => w) o = .ok { o with core := { o.core with maxNew := 0 } } := by
  obtain ⟨path, tsInds, dims, output, check, t, seed, dis, skip, c, w, o0, ps, hts, ht, hc, hw, hk, hmk, hrun, hca, hsk⟩ := h
  obtain ⟨⟨t0, hwf, hex⟩, -⟩ := C10_core_exact enum he path tsInds hts dims output check t ht
  have hv := (C10_indices_exact enum he path tsInds hts dims output check t ht).1
  have hpos : ∀ s, s ⊆ Finset.range t.core.nInds → 0 < (c.model t.core.dims).get s := fun s hs =>
    core_pos hc ((ctree_isValid_iff hwf _).1 hv).1 hs
  have hmodel : (∃ mw, simpleWidthModel log2 t.core.dims mw = some w) ∨
      (maxNew = 0 ∧ ∃ mw sparse nProjs, sparseWidthModel log2 t.core.dims mw sparse nProjs = some w) := by
    cases c with
    | simple => exact Or.inl ⟨_, hw⟩
    | sparse b n =>
      rcases hk with h | h
      · cases h
      · exact Or.inr ⟨h, _, _, _, hw⟩
  obtain ⟨h1, h2, h3, h4, h5, h6, h7, h8, h9, f1, f2, sk, h10, h11, h12, h13, h14, h15⟩ := fw_rebuild (cm := fun _ d => c.model d) (wm := fun _ _ => w) he hlog
    (ofPath_tidy ht) hwf hex hpos hmodel hmk hrun
  have h16 := C26_finite_width_state_partial enum he g (fun _ d => c.model d) (fun _ _ => w) log2 hlog t maxNew seed dis skip ps o0 o.core t0 _ (ofPath_tidy ht)
    hwf hex hpos hmodel hmk hrun
  obtain ⟨oc, oca, osk⟩ := o
  simp only at hca hsk h3 h4 h5 h6 h7 h8 h9 h10 h11 h13 h14 h15 h16 ⊢
  subst hca hsk
  rw [h1, h2] at h16 ⊢
  refine ⟨c, w, t.nTensors, t.tensorsPos, f1, f2, sk, hc, by rw [h4]; exact hw, h3, h6, h7, h12, h13, h14, h10, h11, ?_, by rw [h4]; exact h15, h16⟩
  unfold PyFw.reduce
  have hca : t.cache.indsOrder = t.indsOrder := rfl
  simp only [h1, h8, h9, hca, h10, h11, h2]

variable [DecidableEq σ]

/-- C68: comparing finite-width optimizers never fails. They are equal exactly if their cost models, index names and skipped indices are equal and all of their
state is, except for `max_number_new_slices`. -/
theorem C68_finite_partial (enum : Finset ι → List ι) (he : EnumOk enum) (g : FwPrng σ P) (log2 : ℕ → W) (hlog : ∀ n, 0 ≤ log2 n) (m m' : PyFwCost ι W)
    (maxNew maxNew' : ℕ) (o o' : PyFw ι σ ℤ W) (h : FwReach enum g log2 m maxNew o) (h' : FwReach enum g log2 m' maxNew' o') :
    ∃ a b, o'.reduce m' = .ok a ∧ o.eq m (.fw a) = .ok b ∧ (b = true ↔ m.eq m' = true ∧ o.cache.indsOrder = o'.cache.indsOrder ∧ o.skip = o'.skip ∧
      { o.core with maxNew := 0 } = { o'.core with maxNew := 0 }) := by
  obtain ⟨c, w, nT, tp, f1, f2, sk, hc, hw, hn, hcl, hcm, hsk, hf1, hf2, hb1, hb2, hr, hmk, -⟩ := h.facts he hlog
  obtain ⟨c', w', nT', tp', f1', f2', sk', hc', hw', hn', hcl', hcm', hsk', hf1', hf2', hb1', hb2', hr', hmk', -⟩ := h'.facts he hlog
  refine ⟨_, _, hr', by unfold PyFw.eq; rw [hr]; rfl, ?_⟩
  simp only [Bool.and_eq_true, decide_eq_true_eq]
  rw [PyTree.same_iff hcl hcl', PyTree.same_iff hcm hcm']
  constructor
  · rintro ⟨⟨⟨⟨⟨⟨⟨⟨h1, h2⟩, h3⟩, h4⟩, h5⟩, ⟨h6, -⟩⟩, h7⟩, h8⟩, h9⟩
    simp only at h1 h2 h4 h5 h6
    refine ⟨h3, h2, h9, ?_⟩
    have h3' : m.toPyCost.eq m'.toPyCost = true ∧ m.maxWidth = m'.maxWidth := by
      unfold PyFwCost.eq at h3
      simp only [Bool.and_eq_true, decide_eq_true_eq] at h3
      exact ⟨h3.2, h3.1.1⟩
    rw [h2] at hc hsk hf1 hf2
    rw [h9, hsk'] at hsk
    rw [h7, hf1'] at hf1
    rw [h8, hf2'] at hf2
    cases core_eq_of_eq h3'.1 hc hc'
    rw [h1, h3'.2, hw'] at hw
    cases hw
    simp only [Option.some.injEq] at hsk hf1 hf2
    rw [h1, h4, h5, h6, ← hf1, ← hf2, ← hsk, hmk'] at hmk
    simpa using hmk.symm
  · rintro ⟨h1, h2, h3, h4⟩
    have e : o.core.inf = o'.core.inf ∧ o.core.slices = o'.core.slices ∧ o.core.minSlices = o'.core.minSlices := by
      have := h4
      simp only [FwOpt.mk.injEq] at this
      tauto
    rw [h2, e.1, e.2.1] at hb1
    rw [h2, e.1, e.2.2] at hb2
    rw [hb1'] at hb1
    rw [hb2'] at hb2
    simp only [Option.some.injEq] at hb1 hb2
    rw [h2, e.1, ← hb1, ← hb2]
    exact ⟨⟨⟨⟨⟨⟨⟨⟨rfl, rfl⟩, h1⟩, rfl⟩, rfl⟩, ⟨rfl, rfl⟩⟩, rfl⟩, rfl⟩, h3⟩

/-- C68: equal finite-width optimizers with the same `max_number_new_slices` answer every sequence of updates in the same way. -/
theorem C68_finite_future_partial (enum : Finset ι → List ι) (he : EnumOk enum) (g : FwPrng σ P) (log2 : ℕ → W) (hlog : ∀ n, 0 ≤ log2 n) (m m' : PyFwCost ι W)
    (maxNew : ℕ) (o o' : PyFw ι σ ℤ W) (h : FwReach enum g log2 m maxNew o) (h' : FwReach enum g log2 m' maxNew o') (a : FwArgs ι σ W)
    (ha : o'.reduce m' = .ok a) (heq : o.eq m (.fw a) = .ok true) :
    ∃ c w, m.core enum o.cache.indsOrder = .ok c ∧ m'.core enum o'.cache.indsOrder = .ok c ∧
      c.widthModel log2 o.core.inf.ctree.dims m.maxWidth = some w ∧ c.widthModel log2 o'.core.inf.ctree.dims m'.maxWidth = some w ∧
      ∀ future, o.core.run g (c.model o.core.inf.ctree.dims) w future = o'.core.run g (c.model o'.core.inf.ctree.dims) w future := by
  obtain ⟨a', b, ha', hb, hiff⟩ := C68_finite_partial enum he g log2 hlog m m' maxNew maxNew o o' h h'
  rw [ha] at ha'; cases ha'
  rw [heq] at hb; cases hb
  obtain ⟨h1, h2, h3, h4⟩ := hiff.1 rfl
  obtain ⟨c, w, -, -, -, -, -, hc, hw, hn, -⟩ := h.facts he hlog
  obtain ⟨c', w', -, -, -, -, -, hc', hw', hn', -⟩ := h'.facts he hlog
  have h1' : m.toPyCost.eq m'.toPyCost = true ∧ m.maxWidth = m'.maxWidth := by
    unfold PyFwCost.eq at h1
    simp only [Bool.and_eq_true, decide_eq_true_eq] at h1
    exact ⟨h1.2, h1.1.1⟩
  cases core_eq_of_eq h1'.1 hc (h2 ▸ hc')
  have hcore : o.core = o'.core := by
    have e1 : o.core = { { o.core with maxNew := 0 } with maxNew := maxNew } := by rw [← hn]
    have e2 : o'.core = { { o'.core with maxNew := 0 } with maxNew := maxNew } := by rw [← hn']
    rw [e1, e2, h4]
  have : w' = w := by
    rw [← hcore, ← h1'.2, hw] at hw'
    exact (Option.some.inj hw').symm
  subst this
  exact ⟨c, w', hc, hc', hw, hw', fun future => by rw [hcore]⟩

/-- C68: a pickled copy is equal to the original - also if `max_number_new_slices` is lost. -/
theorem C68_finite_pickle (enum : Finset ι → List ι) (he : EnumOk enum) (g : FwPrng σ P) (log2 : ℕ → W) (hlog : ∀ n, 0 ≤ log2 n) (m : PyFwCost ι W)
    (maxNew : ℕ) (o : PyFw ι σ ℤ W) (h : FwReach enum g log2 m maxNew o) :
    ∃ c w o' a, m.core enum o.cache.indsOrder = .ok c ∧ c.widthModel log2 o.core.inf.ctree.dims m.maxWidth = some w ∧
      PyFw.unpickle enum g (fun _ d => c.model d) (fun _ _ => w) o = .ok o' ∧ o'.reduce m = .ok a ∧ o.eq m (.fw a) = .ok true := by
  obtain ⟨c, w, nT, tp, f1, f2, sk, hc, hw, -, -, -, -, -, -, -, -, hr, -, hp⟩ := h.facts he hlog
  obtain ⟨a, b, ha, hb, hiff⟩ := C68_finite_partial enum he g log2 hlog m m maxNew maxNew o o h h
  refine ⟨c, w, _, a, hc, hw, hp, by rw [← ha]; rfl, ?_⟩
  rw [hb, hiff.2 ⟨by simp [PyFwCost.eq, PyCost.eq], rfl, rfl, rfl⟩]

end

/-! ## What the comparison misses, and where it fails -/

/-- Tensors `{0,1} {1,2,3} {2,3}` of dimension 2, output `{0}`. -/
def cmpTree : Except PyErr (PyTree (Fin 4)) := PyTree.ofPath fourEnum [(1, 2), (0, 1)] [[0, 1], [1, 2, 3], [2, 3]] (.int 2) (some [0]) true

/-- `SimpleCostModel(max_width=2)` -/
def cmpFw : PyFwCost (Fin 4) ℤ := ⟨⟨"float64", none, none⟩, 2, "float32"⟩

def cmpMake (maxNew : ℕ) (t : PyTree (Fin 4)) : Except ShipErr (PyFw (Fin 4) Unit ℤ ℤ) :=
  PyFw.make (constPrng 1) (fun _ d => CostCore.simple.model d) (fun _ _ => pickWm [] t.core.dims) t maxNew () false ∅ none none none

/-- An optimizer just built. -/
theorem cmp_reach {maxNew : ℕ} {t : PyTree (Fin 4)} {o : PyFw (Fin 4) Unit ℤ ℤ} (ht : cmpTree = .ok t) (ho : cmpMake maxNew t = .ok o) :
    FwReach fourEnum (constPrng 1) ilog2 cmpFw maxNew o :=
  ⟨_, _, _, _, _, t, (), false, ∅, .simple, pickWm [] t.core.dims, o, [], by decide, ht, rfl, rfl, Or.inl rfl, ho, rfl, rfl, rfl⟩

/-- **C68 is violated** by the finite-width optimizer: `max_number_new_slices` is not compared. Two optimizers that differ in it are equal, and still are in
different states after the same update, with the same draws and acceptance function. -/
theorem C68_violated :
    ∃ t o o' args a b, cmpTree = .ok t ∧ cmpMake 1 t = .ok o ∧ cmpMake 0 t = .ok o' ∧ o'.reduce cmpFw = .ok args ∧ o.eq cmpFw (.fw args) = .ok true ∧
      o.core.run (constPrng 1) (CostCore.simple.model t.core.dims) (pickWm [] t.core.dims) [(fun _ _ => 1, false)] = .ok a ∧
      o'.core.run (constPrng 1) (CostCore.simple.model t.core.dims) (pickWm [] t.core.dims) [(fun _ _ => 1, false)] = .ok b ∧
      a.slices ≠ b.slices ∧ a.inf.ctree.tree.nodes 3 ≠ b.inf.ctree.tree.nodes 3 := by
  obtain ⟨t, r, h1, h2, h3⟩ := fw_eval (x := some cmpTree)
    (f := fun t => match cmpMake 1 t, cmpMake 0 t with
      | .ok o, .ok o' => match o.core.run (constPrng 1) (CostCore.simple.model t.core.dims) (pickWm [] t.core.dims) [(fun _ _ => 1, false)],
          o'.core.run (constPrng 1) (CostCore.simple.model t.core.dims) (pickWm [] t.core.dims) [(fun _ _ => 1, false)] with
        | .ok a, .ok b => .ok (o, o', a, b)
        | _, _ => .error ()
      | _, _ => (.error () : Except Unit _))
    (Q := fun _ r => decide (r.2.2.1.slices ≠ r.2.2.2.slices) && decide (r.2.2.1.inf.ctree.tree.nodes 3 ≠ r.2.2.2.inf.ctree.tree.nodes 3) &&
      (match r.2.1.reduce cmpFw with
      | .ok a => match r.1.eq cmpFw (.fw a) with | .ok b => b | .error _ => false
      | .error _ => false)) (by decide +kernel)
  split at h2
  · next o o' ho ho' =>
    split at h2
    · next a b ha hb =>
      cases h2
      simp only [Bool.and_eq_true, decide_eq_true_eq] at h3
      obtain ⟨⟨h3, h4⟩, h5⟩ := h3
      split at h5
      · next args hargs =>
        split at h5
        · next heq => subst h5; exact ⟨t, o, o', args, a, b, Option.some.inj h1, ho, ho', hargs, heq, ha, hb, h3, h4⟩
        · cases h5
      · cases h5
    · cases h2
  · cases h2

section
variable {σ P W : Type} [LinearOrder P] [AddCommGroup W] [LinearOrder W] [IsOrderedAddMonoid W] [DecidableEq σ]

/-- **C68 is violated** if the two kinds of optimizers are compared: `inf == fw` is `False`, but `fw == inf` raises `AttributeError` exactly if the two trees
are equal. -/
theorem C68_violated_mixed (enum : Finset ι → List ι) (he : EnumOk enum) (gi : Prng σ P) (g : FwPrng σ P) (log2 : ℕ → W) (hlog : ∀ n, 0 ≤ log2 n)
    (m : PyCost ι) (m' : PyFwCost ι W) (maxNew : ℕ) (o : PyInf ι σ ℤ) (o' : PyFw ι σ ℤ W) (h : InfReach enum gi m o)
    (h' : FwReach enum g log2 m' maxNew o') : ∃ a a', o.reduce m = .ok a ∧ o'.reduce m' = .ok a' ∧ o.eq m (.fw a') = .ok false ∧
      (o'.eq m' (.inf a) = .error .attributeError ↔ o.core.ctree = o'.core.inf.ctree ∧ o.cache.indsOrder = o'.cache.indsOrder) ∧
      (o'.eq m' (.inf a) ≠ .error .attributeError → o'.eq m' (.inf a) = .ok false) := by
  obtain ⟨c, nT, tp, hc, hcl, hcm, hr, hmk, -⟩ := h.facts he
  obtain ⟨c', w', nT', tp', f1', f2', sk', hc', hw', hn', hcl', hcm', hsk', hf1', hf2', hb1', hb2', hr', hmk', -⟩ := h'.facts he hlog
  have key : ∀ q : Bool, ((if q = true then Except.error PyErr.attributeError else .ok false : Except PyErr Bool) = .error .attributeError ↔ q = true) := by
    intro q; cases q <;> simp
  refine ⟨_, _, hr, hr', by unfold PyInf.eq; rw [hr]; rfl, ?_, ?_⟩
  · unfold PyFw.eq
    rw [hr']
    simp only [FwArgs.eq]
    rw [key, PyTree.same_iff hcl' hcl]
    exact ⟨fun h => ⟨h.1.symm, h.2.symm⟩, fun h => ⟨h.1.symm, h.2.symm⟩⟩
  · unfold PyFw.eq
    rw [hr']
    simp only [FwArgs.eq]
    split
    · simp
    · simp

/-- **C68 is violated** for other objects: comparing an optimizer with `None`, a number, a text or a list raises `TypeError` instead of giving `False`. -/
theorem C68_violated_builtin (enum : Finset ι → List ι) (he : EnumOk enum) (gi : Prng σ P) (g : FwPrng σ P) (log2 : ℕ → W) (hlog : ∀ n, 0 ≤ log2 n)
    (m : PyCost ι) (m' : PyFwCost ι W) (maxNew : ℕ) (o : PyInf ι σ ℤ) (o' : PyFw ι σ ℤ W) (h : InfReach enum gi m o)
    (h' : FwReach enum g log2 m' maxNew o') : o.eq m (W := W) .builtin = .error .typeError ∧ o'.eq m' .builtin = .error .typeError := by
  obtain ⟨c, nT, tp, hc, hcl, hcm, hr, hmk, -⟩ := h.facts he
  obtain ⟨c', w', nT', tp', f1', f2', sk', hc', hw', hn', hcl', hcm', hsk', hf1', hf2', hb1', hb2', hr', hmk', -⟩ := h'.facts he hlog
  constructor
  · unfold PyInf.eq; rw [hr]; rfl
  · unfold PyFw.eq; rw [hr']; rfl

end

/-! ## Examples -/

/-- The hypotheses of the theorems on finite-width optimizers hold after two updates. -/
example : ∃ o : PyFw (Fin 4) Unit ℤ ℤ, FwReach fourEnum (constPrng 1) ilog2 cmpFw 1 o ∧ o.core.slices ≠ ∅ := by
  obtain ⟨t, r, h1, h2, h3⟩ := fw_eval (x := some cmpTree)
    (f := fun t => match cmpMake 1 t with
      | .ok o => match o.core.run (constPrng 1) (CostCore.simple.model t.core.dims) (pickWm [] t.core.dims) [(fun _ _ => 1, false), (fun _ _ => 1, true)] with
        | .ok a => .ok (o, a)
        | _ => .error ()
      | _ => (.error () : Except Unit _))
    (Q := fun _ r => decide (r.2.slices ≠ ∅)) (by decide +kernel)
  split at h2
  · next o ho =>
    split at h2
    · next a ha =>
      cases h2
      refine ⟨⟨a, o.cache, o.skip⟩, ⟨_, _, _, _, _, t, (), false, ∅, .simple, pickWm [] t.core.dims, o, _, by decide, Option.some.inj h1, rfl, rfl, Or.inl rfl,
        ho, ha, rfl, rfl⟩, by simpa using h3⟩
    · cases h2
  · cases h2

/-- The hypotheses of the theorems on infinite-memory optimizers hold after two updates. -/
example : ∃ o : PyInf (Fin 4) Unit ℤ, InfReach fourEnum (constPrng 1).toPrng cmpFw.toPyCost o := by
  obtain ⟨t, r, h1, h2, h3⟩ := fw_eval (x := some cmpTree)
    (f := fun t => match PyInf.make (σ := Unit) (fun _ d => CostCore.simple.model d) t () false none with
      | .ok o => match o.core.run (constPrng 1).toPrng (CostCore.simple.model t.core.dims) [fun _ _ => 1, fun _ _ => 1] with
        | some a => .ok (o, a)
        | _ => .error ()
      | _ => (.error () : Except Unit _))
    (Q := fun _ _ => true) (by decide +kernel)
  split at h2
  · next o ho =>
    split at h2
    · next a ha =>
      cases h2
      exact ⟨⟨a, o.cache⟩, _, _, _, _, _, t, (), false, .simple, o, _, by decide, Option.some.inj h1, rfl, ho, ha, rfl⟩
    · cases h2
  · cases h2

/-- C68 on the tree of three tensors: it contracts all of them. -/
example : ∃ t, cmpTree = .ok t ∧ (∀ p : ℕ, p < 3 → p ∈ t.tensorsPos) ∧ t.same t = true := by
  obtain ⟨t, r, h1, h2, h3⟩ := fw_eval (x := some cmpTree) (f := fun t => (.ok t : Except Unit _))
    (Q := fun t _ => decide (∀ p : ℕ, p < 3 → p ∈ t.tensorsPos) && t.same t) (by decide +kernel)
  simp only [Bool.and_eq_true, decide_eq_true_eq] at h3
  exact ⟨t, Option.some.inj h1, h3.1, h3.2⟩

/-- Two optimizers of both kinds with the same tree, as in `C68_violated_mixed`: there `fw == inf` raises the exception. -/
example : ∃ (o : PyInf (Fin 4) Unit ℤ) (o' : PyFw (Fin 4) Unit ℤ ℤ), InfReach fourEnum (constPrng 1).toPrng cmpFw.toPyCost o ∧
    FwReach fourEnum (constPrng 1) ilog2 cmpFw 0 o' ∧ o.core.ctree = o'.core.inf.ctree ∧ o.cache.indsOrder = o'.cache.indsOrder := by
  obtain ⟨t, r, h1, h2, h3⟩ := fw_eval (x := some cmpTree)
    (f := fun t => match PyInf.make (σ := Unit) (fun _ d => CostCore.simple.model d) t () false none, cmpMake 0 t with
      | .ok o, .ok o' => .ok (o, o')
      | _, _ => (.error () : Except Unit _))
    (Q := fun _ r => r.1.core.ctree.same r.2.core.inf.ctree && decide (r.1.cache.indsOrder = r.2.cache.indsOrder)) (by decide +kernel)
  split at h2
  · next o o' ho ho' =>
    cases h2
    simp only [Bool.and_eq_true, decide_eq_true_eq] at h3
    have hi : InfReach fourEnum (constPrng 1).toPrng cmpFw.toPyCost o :=
      ⟨_, _, _, _, _, t, (), false, .simple, o, [], by decide, Option.some.inj h1, rfl, ho, rfl, rfl⟩
    have hf := cmp_reach (Option.some.inj h1) ho'
    obtain ⟨-, -, -, -, hcl, -⟩ := hi.facts fourEnum_ok
    obtain ⟨-, -, -, -, -, -, -, -, -, -, hcl', -⟩ := hf.facts fourEnum_ok ilog2_nonneg
    exact ⟨o, o', hi, hf, (CTree.same_iff hcl hcl').1 h3.1, h3.2⟩
  · cases h2

end TNCO
