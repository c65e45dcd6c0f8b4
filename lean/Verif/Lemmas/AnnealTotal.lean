import Verif.Lemmas.AnnealInf
import Verif.Lemmas.AnnealRun
import Verif.Props.MergeSplit

/-! Putting the parts together; the infinite-memory app is safe. -/

namespace TNCO
variable {ι τ σ P V : Type} [DecidableEq ι] [LinearOrder P]

theorem SameTouch.valid {n : ℕ} {p q : List (ℕ × ℕ)} (h : SameTouch n p q) : ValidPath n q := by
  obtain ⟨⟨F, hF, -⟩, -⟩ := h
  exact ⟨F, hF⟩

theorem sameTouch_nil (n : ℕ) : SameTouch n [] [] := by
  refine ⟨⟨_, rfl, ?_⟩, fun k => Iff.rfl⟩
  rw [List.filter_eq_nil_iff.2]
  · simp
  · intro t ht
    obtain ⟨i, -, rfl⟩ := List.mem_map.1 ht
    simp [Term.isPair]

theorem sameTouch_disconnected {n : ℕ} {ps qs : List (List (ℕ × ℕ))} (h : List.Forall₂ (SameTouch n) ps qs) (hd : Disconnected n ps) :
    Disconnected n qs := by
  unfold Disconnected at hd ⊢
  induction h with
  | nil => exact .nil
  | @cons p q ps qs hpq hrest ih =>
    obtain ⟨h1, h2⟩ := List.pairwise_cons.1 hd
    refine List.pairwise_cons.2 ⟨fun q' hq' k ⟨hk, hk'⟩ => ?_, ih h2⟩
    obtain ⟨i, hi, rfl⟩ := List.getElem_of_mem hq'
    have hl := hrest.length_eq
    have := (List.forall₂_iff_get.1 hrest).2 i (by omega) hi
    exact h1 (ps.get ⟨i, by omega⟩) (List.get_mem _ _) k ⟨(hpq.2 k).1 hk, (this.2 k).1 hk'⟩

theorem touches_nil {n k : ℕ} : ¬ Touches n [] k := by
  rintro ⟨t, ht, -⟩
  cases ht

theorem disconnected_replicate (n m : ℕ) : Disconnected n (List.replicate m []) := by
  unfold Disconnected
  rw [List.pairwise_replicate]
  right
  intro k ⟨h, _⟩
  exact touches_nil h

/-- The merged path. -/
theorem merge_total {n : ℕ} {qs : List (List (ℕ × ℕ))} (hv : ∀ q ∈ qs, ValidPath n q) (hd : Disconnected n qs) :
    ∃ pre rest, mergePaths n qs true = .ok (pre ++ rest) ∧ ValidPath n pre ∧ (pre ++ rest).length = n - 1 ∧
      (0 < n → ∃ u, replay (initTerms n) (pre ++ rest) = some [u]) ∧
      List.Forall₂ Term.Same (trace (initTerms n) pre) ((qs.map (trace (initTerms n))).flatten) := by
  obtain ⟨path, F, h1, h2, -, -, h5⟩ := C28_merge n qs hv hd
  obtain ⟨path', rest, g1, g2, g3, g4⟩ := C28_autocomplete n qs hv hd
  rw [h1] at g1
  cases g1
  exact ⟨path, rest, g2, ⟨F, h2⟩, g3, g4, h5⟩

theorem pathCost_merged {cost : Finset ι → ℤ} {tsInds : List (List ι)} {out extra : Finset ι} {pre : List (ℕ × ℕ)} {qs : List (List (ℕ × ℕ))}
    (h : List.Forall₂ Term.Same (trace (initTerms tsInds.length) pre) ((qs.map (trace (initTerms tsInds.length))).flatten)) :
    pathCost cost tsInds out extra pre = (qs.map (pathCost cost tsInds out extra)).sum := by
  unfold pathCost
  have : ((trace (initTerms tsInds.length) pre).map (pairCost cost tsInds out extra)) =
      ((qs.map (trace (initTerms tsInds.length))).flatten.map (pairCost cost tsInds out extra)) := by
    generalize trace (initTerms tsInds.length) pre = a at h
    generalize (qs.map (trace (initTerms tsInds.length))).flatten = b at h
    induction h with
    | nil => rfl
    | cons h _ ih => simp only [List.map_cons, ih, pairCost_same h]
  rw [this]
  clear this h
  induction qs with
  | nil => rfl
  | cons q qs ih => simp only [List.map_cons, List.flatten_cons, List.map_append, List.sum_append, List.sum_cons, ih]

theorem pathCost_nil {cost : Finset ι → ℤ} {tsInds : List (List ι)} {out extra : Finset ι} : pathCost cost tsInds out extra [] = 0 := rfl

theorem inf_pieces (E : SaEnv ι τ σ P V) {N : NetworkRec ι} {cm : PyCM ι} (hN : N.Plain) (he : EnumOk E.enum) (hcm : cm.Ok)
    {paths : List (List (ℕ × ℕ))} (hP : PartPaths N.tsInds paths) {betas : List ℚ} {L seed : ℕ} {ps : List (List (ℕ × ℕ))} {ks : List InfPart}
    (hsub : ∀ p ∈ ps, p ∈ paths) (h : AnyParts (infAnneal E N cm) betas L seed ps ks) :
    List.Forall₂ (Piece (N.cost cm) N.tsInds N.output) ps ks := by
  induction h with
  | nil => exact .nil
  | empty _ ih =>
    exact .cons ⟨sameTouch_nil _, rfl, le_refl _⟩ (ih fun p hp => hsub p (List.mem_cons_of_mem _ hp))
  | @path p ps k ks o o' j h1 h2 h3 h4 h5 _ ih =>
    refine .cons ?_ (ih fun p hp => hsub p (List.mem_cons_of_mem _ hp))
    obtain ⟨o2, k2, g1, g2, ⟨⟨F, u, g3, g3'⟩, g4, g5⟩, g6⟩ := inf_part E hN he hcm hP (hsub p List.mem_cons_self) h1 h2 0 (betas.take j)
    rw [h4] at g1
    cases g1
    rw [h5] at g2
    cases g2
    exact ⟨⟨⟨F, g3, by rw [g3']; simp⟩, g4⟩, g5, g6⟩

theorem inf_total {cost : Finset ι → ℤ} {tsInds : List (List ι)} {out : Finset ι} {ps : List (List (ℕ × ℕ))} (hP : PartPaths tsInds ps) {ks : List InfPart}
    (h : List.Forall₂ (Piece cost tsInds out) ps ks) :
    ∃ r, infTotalWith exactPrinter tsInds.length ks = .ok r ∧ InfTotalOk cost tsInds out ps r := by
  have hst : List.Forall₂ (SameTouch tsInds.length) ps (ks.map InfPartOf.path) := by
    rw [List.forall₂_map_right_iff]
    exact h.imp fun _ _ h => h.same
  set qs := if ks = [] then List.replicate tsInds.length [] else ks.map InfPartOf.path with hqs
  have hvd : (∀ q ∈ qs, ValidPath tsInds.length q) ∧ Disconnected tsInds.length qs := by
    by_cases hk : ks = []
    · rw [hqs, if_pos hk]
      refine ⟨fun q hq => ?_, disconnected_replicate _ _⟩
      rw [(List.mem_replicate.1 hq).2]
      exact ⟨_, rfl⟩
    · rw [hqs, if_neg hk]
      refine ⟨fun q hq => ?_, sameTouch_disconnected hst hP.disc⟩
      obtain ⟨i, hi, rfl⟩ := List.getElem_of_mem hq
      exact ((List.forall₂_iff_get.1 hst).2 i (by rw [hst.length_eq]; exact hi) hi).valid
  obtain ⟨pre, rest, m1, m2, m3, m4, m5⟩ := merge_total hvd.1 hvd.2
  have hcost : (ks.map InfPartOf.cost).sum = pathCost cost tsInds out ∅ pre := by
    rw [pathCost_merged m5]
    by_cases hk : ks = []
    · subst hk
      simp only [hqs, if_true, List.map_nil, List.sum_nil, List.map_replicate, pathCost_nil]
      simp
    · rw [hqs, if_neg hk, List.map_map]
      clear hvd m1 m2 m3 m4 m5 hqs hst hP
      congr 1
      induction h with
      | nil => rfl
      | cons h1 h2 ih =>
        simp only [List.map_cons, Function.comp, h1.exact]
        rename_i a b l1 l2
        by_cases hl : l2 = []
        · subst hl; simp
        · simp only [List.cons.injEq, true_and]; exact ih hl
  refine ⟨⟨(ks.map InfPartOf.cost).sum, pre ++ rest, ks.map InfPartOf.cost, qs⟩, ?_, ?_, ?_, rfl, pre, rest, rfl, m2, m3, m4, m5, hcost.symm⟩
  · unfold infTotalWith
    simp only [List.isEmpty_iff, ← hqs, m1]
    rfl
  · intro hne
    have hk : ks ≠ [] := by
      rintro rfl
      cases h
      exact hne rfl
    simp only [hqs, if_neg hk, List.length_map, and_true]
    have : ((ks.map InfPartOf.cost).zip (ks.map InfPartOf.path)).map (fun x => (⟨x.1, x.2⟩ : InfPart)) = ks := by
      rw [List.zip_map', List.map_map]
      exact List.map_id _
    rw [this]
    exact h
  · rintro rfl
    cases h
    simp [hqs]

/-- A run of the infinite-memory app is safe if the sparse indices are in every part with more than one tensor. -/
theorem inf_safe (E : SaEnv ι τ σ P V) {N : NetworkRec ι} {cm : PyCM ι} (hN : N.Plain) (he : EnumOk E.enum) (hcm : cm.Ok)
    {ps : List (List (ℕ × ℕ))} (hP : PartPaths N.tsInds ps) (betas : List ℚ) (L seed : ℕ)
    (hps : (infAnneal E N cm).paths seed = some (.ok ps))
    (hsp : ∀ p ∈ ps, p ≠ [] → ∀ x ∈ cm.sparse.getD ∅, ∃ k, Touches N.tsInds.length p k ∧ x ∈ N.tsInds.getD k []) :
    (infAnneal E N cm).Safe betas L seed ps := by
  refine ⟨hps, fun p hp hne => ?_, fun ks hks => ?_⟩
  · obtain ⟨o, ho⟩ := inf_make E hN he hcm hP hp hne (hsp p hp hne) seed
    refine ⟨o, ho, fun k _ => ?_⟩
    obtain ⟨o', r, h1, h2, -⟩ := inf_part E hN he hcm hP hp hne ho 0 (betas.take k)
    exact ⟨o', r, h1, h2⟩
  · obtain ⟨r, hr, -⟩ := inf_total hP (inf_pieces E hN he hcm hP (fun p hp => hp) hks)
    refine ⟨r, ?_⟩
    have : N.tsInds.length = N.tensors.length := by simp [NetworkRec.tsInds]
    rw [this] at hr
    exact hr

end TNCO
