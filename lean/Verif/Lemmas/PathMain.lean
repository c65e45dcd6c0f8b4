import Verif.Lemmas.PathBuild

/-! Success and failure of the constructor. -/

namespace TNCO
open PTree
variable {ι : Type} [DecidableEq ι]

theorem outputOf_sub {used : List ι} {output : Option (List ι)} {out : Finset ι}
    (h : outputOf used output = .ok out) : ∀ x ∈ out, x ∈ used := by
  unfold outputOf at h
  cases output with
  | none =>
    simp only at h
    split at h
    · simp at h
    · simp only [Except.ok.injEq] at h
      subst h
      intro x hx
      rw [List.mem_toFinset, List.mem_filter, mem_uniqueEverseen] at hx
      exact hx.1
  | some l =>
    simp only [Except.ok.injEq] at h
    subst h
    intro x hx
    rw [Finset.mem_inter, List.mem_toFinset, List.mem_toFinset, mem_uniqueEverseen] at hx
    exact hx.2

theorem isPair_toTerm (f : ℕ → ℕ) (t : PTree) : (t.toTerm f).isPair = true ↔ ∃ p l r, t = .node p l r := by
  cases t <;> simp [toTerm, Term.isPair]

theorem tensors_toTerm (f : ℕ → ℕ) (t : PTree) : (t.toTerm f).tensors = t.leaves.map f := by
  induction t with
  | leaf p => rfl
  | node p l r ihl ihr => simp [toTerm, Term.tensors, leaves, ihl, ihr]

theorem filter_isPair {c : List (ℕ × ℕ × ℕ)} {F : List PTree} {n : ℕ}
    (h1 : PathForest n c (F.filter fun t => decide (t.root ∈ flattenTriples c)))
    (h2 : ∀ t ∈ F, t.root ∉ flattenTriples c → ∃ p, t = .leaf p) (f : ℕ → ℕ) :
    (F.map (toTerm f)).filter Term.isPair =
      (F.filter fun t => decide (t.root ∈ flattenTriples c)).map (toTerm f) := by
  rw [List.filter_map]
  congr 1
  refine List.filter_congr fun t ht => ?_
  rw [Bool.eq_iff_iff, decide_eq_true_eq]
  show (t.toTerm f).isPair = true ↔ _
  rw [isPair_toTerm]
  constructor
  · rintro ⟨p, l, r, rfl⟩
    by_contra hx
    obtain ⟨q, hq⟩ := h2 _ ht hx
    simp at hq
  · intro hx
    exact h1.node t (List.mem_filter.2 ⟨ht, by simpa using hx⟩)

theorem take_posList (n : ℕ) (c) : (posList n c).take (tensorsPosOf n c).length = tensorsPosOf n c := by
  unfold posList
  rw [List.take_append_of_le_length (le_refl _), List.take_length]

/-- Everything that follows from success, for the list of contractions. -/
theorem ofTriples_sound {enum : Finset ι → List ι} (he : EnumOk enum) {c : List (ℕ × ℕ × ℕ)} (hcne : c ≠ [])
    {tsInds : List (List ι)} (hts : ∀ l ∈ tsInds, l.Nodup) {dims : PyDims ι} {output : Option (List ι)}
    {check : Bool} {pt : PyTree ι} {G : List PTree} (hG : PathForest tsInds.length c G)
    (h : PyTree.ofTriples enum c tsInds dims output check = .ok pt) :
    ∃ t0 t out, G = [t0] ∧ PathForest tsInds.length c [t0] ∧
      outputOf (usedInds tsInds (tensorsPosOf tsInds.length c)) output = .ok out ∧
      Built tsInds.length c tsInds dims out t0 t pt ∧ pt.core.isValid check = true ∧
      pt.nTensors = tsInds.length := by
  unfold PyTree.ofTriples at h
  dsimp only at h
  split at h
  · simp at h
  next out hout =>
    rcases indsLoop_path he hts hG out check (outputOf_sub hout) with ⟨herr, -⟩ | ⟨I, hI, hgood, hleaf, hsh⟩
    · rw [herr] at h; simp at h
    · rw [hI] at h
      simp only [hG.pos] at h
      split at h
      · simp at h
      · split at h
        · simp at h
        next ts hmap =>
          split at h
          · simp at h
          next ds hds =>
            split at h
            · simp at h
            · split at h
              · simp at h
              next core hcore =>
                simp only [Except.ok.injEq] at h
                unfold CTree.make at hcore
                split at hcore
                · simp at hcore
                next T hT =>
                  have hTv : (Tree.ofList (buildNodes (posList tsInds.length c) c)).isValid = true ∧
                      T = Tree.ofList (buildNodes (posList tsInds.length c) c) := by
                    unfold Tree.make at hT
                    split at hT
                    · simp at hT
                    · split at hT
                      next h' => exact ⟨h', by simpa using hT.symm⟩
                      · simp at hT
                  obtain ⟨hTv, rfl⟩ := hTv
                  obtain ⟨t0, ht0⟩ := hG.unique hcne hTv
                  rw [ht0] at hG hgood
                  obtain ⟨hb, hval⟩ := built hcne hG (check := check) (fun s hs => hgood t0 (by simp) s hs)
                    hleaf (outputOf_sub hout) hsh hmap hds
                  split at hcore
                  · simp at hcore
                  · simp only at hcore
                    split at hcore
                    next hv =>
                      simp only [Except.ok.injEq] at hcore
                      subst hcore
                      subst h
                      exact ⟨t0, _, out, ht0, hG, hout, hb, hv, rfl⟩
                    · simp at hcore

/-- Everything that follows from success. -/
theorem ofPath_sound {enum : Finset ι → List ι} (he : EnumOk enum) {path : List (ℕ × ℕ)}
    {tsInds : List (List ι)} (hts : ∀ l ∈ tsInds, l.Nodup) {dims : PyDims ι} {output : Option (List ι)}
    {check : Bool} {pt : PyTree ι} (h : PyTree.ofPath enum path tsInds dims output check = .ok pt) :
    ∃ c t0 t out, PathForest tsInds.length c [t0] ∧
      outputOf (usedInds tsInds (tensorsPosOf tsInds.length c)) output = .ok out ∧
      Built tsInds.length c tsInds dims out t0 t pt ∧ pt.core.isValid check = true ∧
      pt.nTensors = tsInds.length ∧
      ((∀ s ∈ path, s.1 ≠ s.2) → ∃ F, replay (initTerms tsInds.length) path = some F ∧
        F.filter Term.isPair = [t0.toTerm id]) := by
  unfold PyTree.ofPath at h
  cases path with
  | nil => cases output <;> simp at h
  | cons s0 path0 =>
    simp only at h
    split at h
    · simp at h
    next c hc =>
      obtain ⟨F', hr, hlen, hG, hleafs, hrep⟩ := pathForest hc
      have hcne : c ≠ [] := by
        intro e; rw [e] at hlen; simp at hlen
      obtain ⟨t0, t, out, ht0, hG', hout, hb, hv, hn⟩ := ofTriples_sound he hcne hts hG h
      refine ⟨c, t0, t, out, hG', hout, hb, hv, hn, fun hne => ?_⟩
      refine ⟨F'.map (toTerm id), hrep hne id, ?_⟩
      rw [filter_isPair hG hleafs, ht0]; rfl

theorem sub_toTerm {s t : PTree} (h : PTree.Sub s t) : Term.Sub (s.toTerm id) (t.toTerm id) := by
  induction h with
  | refl => exact .refl
  | left _ ih => exact .left ih
  | right _ ih => exact .right ih

/-- Success, for the list of contractions. -/
theorem ofTriples_complete {enum : Finset ι → List ι} (he : EnumOk enum) {c : List (ℕ × ℕ × ℕ)} (hcne : c ≠ [])
    {tsInds : List (List ι)} (hts : ∀ l ∈ tsInds, l.Nodup) {dims : PyDims ι} {output : Option (List ι)}
    {t0 : PTree} (hG : PathForest tsInds.length c [t0]) {u : Term} (hut : u = t0.toTerm id)
    (hout : output = none → ∀ x, (u.tensors.filter fun p => decide (x ∈ tsInds.getD p [])).length ≤ 2)
    (hd : ∀ p ∈ u.tensors, ∀ x ∈ tsInds.getD p [], ∃ d, d ≠ 0 ∧ dims.get? x = some d) (check : Bool)
    (hsh0 : check = true → ∀ a b, Term.Sub (.pair a b) u → ∃ x, (∃ i ∈ a.tensors, x ∈ tsInds.getD i []) ∧
      ∃ j ∈ b.tensors, x ∈ tsInds.getD j []) :
    ∃ pt, PyTree.ofTriples enum c tsInds dims output check = .ok pt := by
  have hSL0 : t0.leaves.Perm (tensorsPosOf tsInds.length c) := by
    have := hG.run.leaves_perm
    simpa [List.flatMap_map, leaves] using this
  have hten : u.tensors.Perm (tensorsPosOf tsInds.length c) := by
    rw [hut, tensors_toTerm]; simpa using hSL0
  set SL := tensorsPosOf tsInds.length c with hSL
  have hcnt : ∀ x, (usedInds tsInds SL).count x =
      (u.tensors.filter fun p => decide (x ∈ tsInds.getD p [])).length := by
    intro x
    rw [count_used hts, List.countP_map, (hten.filter _).length_eq, ← List.countP_eq_length_filter]
    refine List.countP_congr fun p _ => ?_
    show hasB _ x (.leaf p) = true ↔ _
    rw [hasB_iff]; simp [leaves]
  obtain ⟨out, hout'⟩ : ∃ out, outputOf (usedInds tsInds SL) output = .ok out := by
    unfold outputOf
    cases output with
    | some l => exact ⟨_, rfl⟩
    | none =>
      simp only
      rw [if_neg]
      · exact ⟨_, rfl⟩
      · simp only [List.any_eq_true, decide_eq_true_eq, not_exists, not_and]
        intro x _
        have := hout rfl x
        rw [← hcnt] at this
        intro hgt
        simp only [hyperCount] at hgt
        omega
  rcases indsLoop_path he hts hG out check (outputOf_sub hout') with ⟨-, hch, t', ht', z, a, b, hs', h'⟩ | ⟨I, hI, hgood, hleaf, hsh⟩
  · rw [List.mem_singleton] at ht'
    subst ht'
    obtain ⟨x, ⟨i, hi, hxi⟩, j, hj, hxj⟩ := hsh0 hch (a.toTerm id) (b.toTerm id) (hut ▸ sub_toTerm hs')
    rw [tensors_toTerm, List.map_id] at hi hj
    exact absurd ⟨hasB_iff.2 ⟨i, hi, List.mem_toFinset.2 hxi⟩, hasB_iff.2 ⟨j, hj, List.mem_toFinset.2 hxj⟩⟩ (h' x)
  have hgood' := fun s hs => hgood t0 (by simp) s hs
  -- all positions have indices
  have hIall : ∀ p ∈ posList tsInds.length c, ∃ l, I p = some l := by
    intro p hp
    have hp' : p ∈ t0.postorder := by
      have := hG.labels.mem_iff.2 hp
      simpa [Run.labels] using this
    obtain ⟨K, s, hs, rfl⟩ := exists_plug hp'
    obtain ⟨l, hl, -⟩ := hgood' s (hs ▸ sub_plug K s)
    exact ⟨l, hl⟩
  obtain ⟨ts, hmap⟩ : ∃ ts, (posList tsInds.length c).mapM I = some ts := by
    refine ⟨(posList tsInds.length c).map fun p => (I p).getD [], (mapM_some_iff _ _ _).2 ⟨by simp, fun i hi => ?_⟩⟩
    obtain ⟨l, hl⟩ := hIall _ (List.getElem_mem hi)
    rw [List.getElem?_map, List.getElem?_eq_getElem hi, Option.map_some, hl]; rfl
  have hord : ∀ x ∈ uniqueEverseen ts.flatten, ∃ p ∈ SL, x ∈ tsInds.getD p [] := by
    intro x hx
    obtain ⟨xs, hxs, hx⟩ := List.mem_flatten.1 (mem_uniqueEverseen.1 hx)
    obtain ⟨j, hj, rfl⟩ := List.getElem_of_mem hxs
    obtain ⟨h1, h2⟩ := (mapM_some_iff _ _ _).1 hmap
    have hj' : j < (posList tsInds.length c).length := by omega
    have h3 := h2 j hj'
    rw [List.getElem?_eq_getElem hj] at h3
    have hp' : (posList tsInds.length c)[j] ∈ t0.postorder := by
      have := hG.labels.mem_iff.2 (List.getElem_mem hj')
      simpa [Run.labels] using this
    obtain ⟨K, s, hs, hroot⟩ := exists_plug hp'
    obtain ⟨l, hl, hl2⟩ := hgood' s (hs ▸ sub_plug K s)
    rw [hroot, ← h3, Option.some.injEq] at hl
    rw [hl] at hx
    obtain ⟨⟨p, hp, hxp⟩, -⟩ := (hl2 x).1 hx
    refine ⟨p, hSL0.mem_iff.1 ?_, by simpa using hxp⟩
    rw [hs, (K.leaves_plug s).mem_iff]; simp [hp]
  have hdx : ∀ x ∈ uniqueEverseen ts.flatten, ∃ d, d ≠ 0 ∧ dims.get? x = some d := by
    intro x hx
    obtain ⟨p, hp, hxp⟩ := hord x hx
    exact hd p (hten.mem_iff.2 hp) x hxp
  obtain ⟨ds, hds, hds0⟩ : ∃ ds, dims.toList (uniqueEverseen ts.flatten) = .ok ds ∧ ∀ d ∈ ds, d ≠ 0 := by
    have hex : ∃ ds, dims.toList (uniqueEverseen ts.flatten) = .ok ds := by
      cases dims with
      | int d => exact ⟨_, rfl⟩
      | dict f =>
        have : (uniqueEverseen ts.flatten).mapM f =
            some ((uniqueEverseen ts.flatten).map fun x => (f x).getD 0) := by
          refine (mapM_some_iff _ _ _).2 ⟨by simp, fun i hi => ?_⟩
          obtain ⟨d, -, hdd⟩ := hdx _ (List.getElem_mem hi)
          have hdd' : f (uniqueEverseen ts.flatten)[i] = some d := hdd
          rw [List.getElem?_map, List.getElem?_eq_getElem hi, Option.map_some, hdd']; rfl
        refine ⟨(uniqueEverseen ts.flatten).map fun x => (f x).getD 0, ?_⟩
        simp only [PyDims.toList, this]
    obtain ⟨ds, hds⟩ := hex
    refine ⟨ds, hds, fun d hd' => ?_⟩
    obtain ⟨h1, h2⟩ := toList_some hds
    obtain ⟨j, hj, rfl⟩ := List.getElem_of_mem hd'
    have hj' : j < (uniqueEverseen ts.flatten).length := by omega
    have h3 := h2 j _ (List.getElem?_eq_getElem hj')
    obtain ⟨d, hd0, hdd⟩ := hdx _ (List.getElem_mem hj')
    rw [hdd, List.getElem?_eq_getElem hj, Option.some.injEq] at h3
    rw [h3]; exact hd0
  obtain ⟨hb, hval⟩ := built hcne hG (check := check) hgood' hleaf (outputOf_sub hout') hsh hmap hds
  have hv := hval.2 hds0
  have hTv : (Tree.ofList (buildNodes (posList tsInds.length c) c)).isValid = true := by
    obtain ⟨hwf, -⟩ := hG.wellFormed hcne
    exact hwf.linked.isValid
  have hsz := hG.size hcne
  have hposl : 0 < (posList tsInds.length c).length := by
    have : 0 < c.length := List.length_pos_iff.2 hcne
    simp [posList]; omega
  have hszl : (buildNodes (posList tsInds.length c) c).length = (posList tsInds.length c).length := hsz
  have hnodes : ((buildNodes (posList tsInds.length c) c).all Node.isValid) = true := by
    rw [List.all_eq_true]
    intro nd hnd
    obtain ⟨i, hi, rfl⟩ := List.getElem_of_mem hnd
    have := ((Tree.isValid_iff _).1 hTv).1 i hi
    have h4 := this.2.2.2
    simp only [Tree.ofList, List.getD_eq_getElem _ _ hi] at h4
    exact h4
  obtain ⟨h1, -⟩ := (mapM_some_iff _ _ _).1 hmap
  have hmk : Tree.make (buildNodes (posList tsInds.length c) c) =
      some (Tree.ofList (buildNodes (posList tsInds.length c) c)) := by
    unfold Tree.make
    rw [if_neg (by omega), if_pos hTv]
  have hcm : CTree.make (buildNodes (posList tsInds.length c) c)
      (ts.map fun xs => xs.map fun x => (uniqueEverseen ts.flatten).idxOf x) ds check =
        .ok (rawCore tsInds.length c ts ds) := by
    unfold CTree.make
    rw [hmk]
    simp only
    rw [if_neg (by rw [hsz, List.length_map, h1]; simp)]
    exact if_pos hv
  refine ⟨⟨rawCore tsInds.length c ts ds, tsInds.length, SL, uniqueEverseen ts.flatten⟩, ?_⟩
  unfold PyTree.ofTriples
  dsimp only
  rw [hout']
  simp only
  rw [hI]
  simp only [hG.pos]
  rw [if_neg (by
    intro h'
    refine h' ⟨by simp [hSL], ?_⟩
    exact take_posList _ _)]
  have e : tensorsPosOf tsInds.length c ++ List.range' tsInds.length c.length = posList tsInds.length c := rfl
  rw [e, hmap]
  simp only
  rw [hds]
  simp only
  rw [if_neg (by simp [hnodes]), hcm]

/-- Success. -/
theorem ofPath_complete {enum : Finset ι → List ι} (he : EnumOk enum) {path : List (ℕ × ℕ)}
    {tsInds : List (List ι)} (hts : ∀ l ∈ tsInds, l.Nodup) {dims : PyDims ι} {output : Option (List ι)}
    (hne : ∀ s ∈ path, s.1 ≠ s.2) {F : List Term} {u : Term}
    (hF : replay (initTerms tsInds.length) path = some F) (hu : F.filter Term.isPair = [u])
    (hout : output = none → ∀ x, (u.tensors.filter fun p => decide (x ∈ tsInds.getD p [])).length ≤ 2)
    (hd : ∀ p ∈ u.tensors, ∀ x ∈ tsInds.getD p [], ∃ d, d ≠ 0 ∧ dims.get? x = some d) (check : Bool)
    (hsh0 : check = true → ∀ a b, Term.Sub (.pair a b) u → ∃ x, (∃ i ∈ a.tensors, x ∈ tsInds.getD i []) ∧
      ∃ j ∈ b.tensors, x ∈ tsInds.getD j []) :
    ∃ pt, PyTree.ofPath enum path tsInds dims output check = .ok pt := by
  have hpne : path ≠ [] := by
    rintro rfl
    simp only [replay, Option.some.injEq] at hF
    subst hF
    have : (initTerms tsInds.length).filter Term.isPair = [] := by
      rw [List.filter_eq_nil_iff]
      intro t ht
      obtain ⟨i, -, rfl⟩ := List.mem_map.1 ht
      simp [Term.isPair]
    rw [this] at hu; simp at hu
  cases hc : contractionLoop tsInds.length 0 (List.range tsInds.length) path with
  | none =>
    have e : (List.range tsInds.length) = ((List.range tsInds.length).map PTree.leaf).map root := by
      rw [List.map_map]; simp [Function.comp_def, root]
    have := (contractionLoop_spec tsInds.length path 0 ((List.range tsInds.length).map .leaf)).2
      (by rw [← e]; exact hc) hne id
    rw [List.map_map] at this
    have h2 : replay (initTerms tsInds.length) path = none := this
    rw [h2] at hF; simp at hF
  | some c =>
    obtain ⟨F', hr, hlen, hG, hleafs, hrep⟩ := pathForest hc
    have hcne : c ≠ [] := by
      intro e; rw [e] at hlen
      exact hpne (List.length_eq_zero_iff.1 (by simpa using hlen.symm))
    have hF' : F = F'.map (toTerm id) := by
      have := hrep hne id
      rw [show (List.range tsInds.length).map (fun p => Term.tensor (id p)) = initTerms tsInds.length from rfl,
        hF, Option.some.injEq] at this
      exact this
    rw [hF', filter_isPair hG hleafs] at hu
    obtain ⟨t0, ht0, hut⟩ : ∃ t0, F'.filter (fun t => decide (t.root ∈ flattenTriples c)) = [t0] ∧ u = t0.toTerm id := by
      obtain ⟨t0, h1, h2⟩ := List.map_eq_singleton_iff.1 hu
      exact ⟨t0, h1, h2.symm⟩
    rw [ht0] at hG
    obtain ⟨pt, hpt⟩ := ofTriples_complete (enum := enum) (dims := dims) (output := output) he hcne hts hG hut hout hd check hsh0
    refine ⟨pt, ?_⟩
    unfold PyTree.ofPath
    cases path with
    | nil => exact absurd rfl hpne
    | cons s0 path0 => simp only [hc, hpt]

end TNCO
