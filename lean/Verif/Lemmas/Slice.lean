import Verif.Lemmas.Muls

/-! Slices of a network. -/

namespace TNCO
variable {ι R : Type} [DecidableEq ι] [CommSemiring R]

theorem mem_sliceInds {S : Finset ι} {xs : List ι} {x : ι} : x ∈ sliceInds S xs ↔ x ∈ xs ∧ x ∉ S := by
  unfold sliceInds
  rw [List.mem_filter, decide_eq_true_eq]

omit [CommSemiring R] in
theorem sliceArray_shape {S : Finset ι} {v : ι → ℕ} {a : NDArray R} {xs : List ι} {d : ι → ℕ} (h : a.shape = xs.map d) :
    (sliceArray S v a xs).shape = (sliceInds S xs).map d := by
  simp only [sliceArray, h, sliceInds]
  clear h
  induction xs with
  | nil => rfl
  | cons x xs ih =>
    by_cases hx : x ∈ S
    · simp only [List.map_cons, List.zip_cons_cons, List.filter_cons, hx, not_true, decide_false, Bool.false_eq_true, if_false]
      exact ih
    · simp only [List.map_cons, List.zip_cons_cons, List.filter_cons, hx, not_false_eq_true, decide_true, if_true, List.map_cons]
      rw [ih]

omit [CommSemiring R] in
theorem sliceArray_get {S : Finset ι} {v : ι → ℕ} {a : NDArray R} {xs : List ι} {d : ι → ℕ} (h : a.shape = xs.map d) {f : ι → ℕ}
    (hf : ∀ x ∈ xs, x ∉ S → f x < d x) :
    (sliceArray S v a xs).get ((sliceInds S xs).map f) = a.get (xs.map fun x => if x ∈ S then v x else f x) := by
  have hs := sliceArray_shape (S := S) (v := v) h
  unfold NDArray.get
  rw [hs]
  have hs' : ((xs.zip a.shape).filter fun p => decide (p.1 ∉ S)).map Prod.snd = (sliceInds S xs).map d := hs
  simp only [sliceArray, hs']
  rw [unravel_ravel (forall2_map fun x hx => hf x (mem_sliceInds.1 hx).1 (mem_sliceInds.1 hx).2)]
  unfold NDArray.get
  congr 2
  refine List.map_congr_left fun x hx => ?_
  by_cases hS : x ∈ S
  · rw [if_pos hS, if_pos hS]
  · rw [if_neg hS, if_neg hS]
    have hm : x ∈ sliceInds S xs := mem_sliceInds.2 ⟨hx, hS⟩
    have hlt : (sliceInds S xs).idxOf x < (sliceInds S xs).length := List.idxOf_lt_length_of_mem hm
    rw [List.getD_eq_getElem?_getD, List.getElem?_map, List.getElem?_eq_getElem hlt]
    simp

theorem slice_consistent {S : Finset ι} {v d : ι → ℕ} {arrays : List (NDArray R)} {tsInds : List (List ι)} (h : Consistent d arrays tsInds) :
    Consistent d (sliceArrays S v arrays tsInds) (sliceNetInds S tsInds) := by
  obtain ⟨h1, h2⟩ := h
  refine ⟨by simp [sliceArrays, sliceNetInds, h1], ?_⟩
  unfold sliceArrays sliceNetInds
  clear h1
  induction arrays generalizing tsInds with
  | nil => simp
  | cons a as ih =>
    cases tsInds with
    | nil => simp
    | cons xs ts =>
      intro t ht
      simp only [List.zipWith_cons_cons, List.map_cons, List.zip_cons_cons, List.mem_cons] at ht
      rcases ht with rfl | ht
      · exact sliceArray_shape (h2 (a, xs) (by simp))
      · exact ih (fun t ht => h2 t (by simp [ht])) t ht

omit [CommSemiring R] in
theorem slice_zip (S : Finset ι) (v : ι → ℕ) (arrays : List (NDArray R)) (tsInds : List (List ι)) :
    (sliceArrays S v arrays tsInds).zip (sliceNetInds S tsInds) = (arrays.zip tsInds).map fun t => (sliceArray S v t.1 t.2, sliceInds S t.2) := by
  unfold sliceArrays sliceNetInds
  induction arrays generalizing tsInds with
  | nil => simp
  | cons a as ih =>
    cases tsInds with
    | nil => simp
    | cons xs ts => simp [ih]

theorem slice_flatten (S : Finset ι) (tsInds : List (List ι)) : (sliceNetInds S tsInds).flatten = tsInds.flatten.filter (· ∉ S) := by
  unfold sliceNetInds sliceInds
  rw [List.filter_flatten]

theorem slice_getD (S : Finset ι) (tsInds : List (List ι)) (p : ℕ) : (sliceNetInds S tsInds).getD p [] = sliceInds S (tsInds.getD p []) := by
  unfold sliceNetInds
  rw [List.getD_eq_getElem?_getD, List.getD_eq_getElem?_getD, List.getElem?_map]
  cases tsInds[p]? <;> rfl

/-- The indices of a contraction of the slice. -/
theorem slice_termInds (S : Finset ι) (tsInds : List (List ι)) (out out' : Finset ι) (ho : ∀ x, x ∈ out' ↔ x ∈ out ∧ x ∉ S) (t : Term) :
    termInds (sliceNetInds S tsInds) out' t = termInds tsInds out t \ S := by
  ext x
  rw [Finset.mem_sdiff, mem_termInds, mem_termInds]
  unfold Survives
  simp only [slice_getD, mem_sliceInds, ho]
  have hl : (sliceNetInds S tsInds).length = tsInds.length := by simp [sliceNetInds]
  rw [hl]
  by_cases hx : x ∈ S <;> simp [hx]

theorem held_init {d : ι → ℕ} {arrays : List (NDArray R)} {tsInds : List (List ι)} (hc : Consistent d arrays tsInds)
    (hn : ∀ xs ∈ tsInds, xs.Nodup) (out : Finset ι) :
    ∃ L : List ((NDArray R × List ι) × Term), L.map Prod.fst = arrays.zip tsInds ∧ L.map Prod.snd = initTerms tsInds.length ∧
      CInv d (hyperCount tsInds.flatten) (L.map Prod.fst) ∧ (∀ e ∈ L, ∀ x, x ∈ e.1.2 ↔ x ∈ termInds tsInds out e.2) ∧
      ((L.map Prod.snd).flatMap Term.tensors).Perm (List.range tsInds.length) := by
  have hz : (arrays.zip tsInds).length = tsInds.length := by rw [List.length_zip, hc.1, Nat.min_self]
  have hi : (initTerms tsInds.length).length = tsInds.length := by simp [initTerms]
  have e1 : ((arrays.zip tsInds).zip (initTerms tsInds.length)).map Prod.fst = arrays.zip tsInds := List.map_fst_zip (by omega)
  have e2 : ((arrays.zip tsInds).zip (initTerms tsInds.length)).map Prod.snd = initTerms tsInds.length := List.map_snd_zip (by omega)
  refine ⟨_, e1, e2, by rw [e1]; exact cinv_init hc hn, ?_, ?_⟩
  · intro e he x
    obtain ⟨k, hk, rfl⟩ := List.getElem_of_mem he
    have hk' : k < tsInds.length := by simpa [hz, hi] using hk
    have ha : k < arrays.length := by rw [hc.1]; exact hk'
    simp only [List.getElem_zip, initTerms, List.getElem_map, List.getElem_range]
    rw [mem_termInds]
    have hg : tsInds.getD k [] = tsInds[k] := by simp [hk']
    simp only [Term.tensors, List.mem_singleton, exists_eq_left, hg]
    refine ⟨fun hx => ⟨hx, ?_⟩, fun hx => hx.1⟩
    by_cases hq : ∃ q < tsInds.length, q ∉ [k] ∧ x ∈ tsInds.getD q []
    · exact Or.inr (Or.inl hq)
    · refine Or.inr (Or.inr ?_)
      intro p hp q hq' ⟨h1, h2⟩
      have hpk : p = k := by
        by_contra hne
        exact hq ⟨p, hp, by simpa using hne, h1⟩
      have hqk : q = k := by
        by_contra hne
        exact hq ⟨q, hq', by simpa using hne, h2⟩
      rw [hpk, hqk]
  · rw [e2]
    simp [initTerms, List.flatMap_map, Term.tensors]

/-- A complete path performs the contraction of everything: whatever is held is later an operand. -/
theorem replay_operand {path : List (ℕ × ℕ)} {ts : List Term} {u : Term} (h : replay ts path = some [u]) {t : Term} (ht : t ∈ ts) (hne : path ≠ []) :
    ∃ o, .pair t o ∈ trace ts path ∨ .pair o t ∈ trace ts path := by
  induction path generalizing ts with
  | nil => exact absurd rfl hne
  | cons s path ih =>
    obtain ⟨x, y⟩ := s
    obtain ⟨a, b, rest, hp, hr, htr⟩ := replay_step h
    rw [htr]
    rw [hp.mem_iff, List.mem_cons, List.mem_cons] at ht
    rcases ht with rfl | rfl | ht
    · exact ⟨b, Or.inl (by simp)⟩
    · exact ⟨a, Or.inr (by simp)⟩
    · have hne' : path ≠ [] := by
        rintro rfl
        simp only [replay, Option.some.injEq] at hr
        have := congrArg List.length hr
        simp only [List.length_append, List.length_singleton] at this
        have h0 : 0 < rest.length := List.length_pos_of_mem ht
        omega
      obtain ⟨o, ho⟩ := ih hr (List.mem_append_left _ ht) hne'
      exact ⟨o, ho.imp (List.mem_cons_of_mem _) (List.mem_cons_of_mem _)⟩

theorem replay_last {path : List (ℕ × ℕ)} {ts : List Term} {u : Term} (h : replay ts path = some [u]) (hne : path ≠ []) : u ∈ trace ts path := by
  induction path generalizing ts with
  | nil => exact absurd rfl hne
  | cons s path ih =>
    obtain ⟨x, y⟩ := s
    obtain ⟨a, b, rest, hp, hr, htr⟩ := replay_step h
    rw [htr]
    by_cases hne' : path = []
    · subst hne'
      simp only [replay, Option.some.injEq] at hr
      have := congrArg List.length hr
      simp only [List.length_append, List.length_singleton] at this
      have h0 : rest = [] := List.length_eq_zero_iff.1 (by omega)
      subst h0
      simp only [List.nil_append, List.cons.injEq, and_true] at hr
      simp [hr]
    · exact List.mem_cons_of_mem _ (ih hr hne')

/-- Everything that is ever held when following a complete path fits. -/
theorem fits_held {W : Type} [LinearOrder W] {width : Finset ι → W} {mw : W} {tsInds : List (List ι)} {out sl : Finset ι} {p q : List (ℕ × ℕ)}
    (hf : PathFits width mw tsInds out sl (p ++ q)) {u : Term} (hu : replay (initTerms tsInds.length) (p ++ q) = some [u])
    {F : List Term} (hF : replay (initTerms tsInds.length) p = some F) (h2 : 2 ≤ tsInds.length) :
    ∀ t ∈ F, width (termInds tsInds out t \ sl) ≤ mw := by
  intro t ht
  rw [Linear.replay_append hF] at hu
  have htr := Linear.trace_append (q := q) hF
  by_cases hq : q = []
  · subst hq
    simp only [replay, Option.some.injEq] at hu
    subst hu
    rw [List.mem_singleton] at ht
    subst ht
    have hp : p ≠ [] := by
      rintro rfl
      simp only [replay, Option.some.injEq] at hF
      have := congrArg List.length hF
      simp [initTerms] at this
      omega
    have hm := replay_last hF hp
    have hpair := trace_isPair hm
    rw [List.append_nil] at hf
    cases t with
    | tensor i => cases hpair
    | pair a b => exact (hf a b hm).2.2
  · obtain ⟨o, ho | ho⟩ := replay_operand hu ht hq
    · exact (hf t o (by rw [htr]; exact List.mem_append_right _ ho)).1
    · exact (hf o t (by rw [htr]; exact List.mem_append_right _ ho)).2.1

end TNCO
