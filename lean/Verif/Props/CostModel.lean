import Verif.Lemmas.CostModel

/-!
# Property C58: the Python cost models compute the documented formulas, by index name
-/

namespace TNCO

variable {ι : Type} [DecidableEq ι]

/-- C58: the constructor of the infinite-memory model accepts exactly the documented arguments, and
saves them. -/
theorem C58_accepts (ct : String) (sp : Option (List ι)) (np : Option PyNum) (m : PyCost ι) :
    PyCost.make ct sp np = .ok m ↔ CostArgsOk ct sp np ∧ m = ⟨ct, sp.map List.toFinset, np⟩ := by
  unfold PyCost.make
  by_cases ht : ct ∈ costTypes
  · simp only [ht, not_true_eq_false, if_false]
    cases hc : checkSparse sp np with
    | error e =>
      simp only [reduceCtorEq, false_iff, not_and]
      intro h
      have := (checkSparse_iff sp np _).2 ⟨rfl, h.projs, h.given, h.alone⟩
      rw [hc] at this; cases this
    | ok s =>
      obtain ⟨rfl, h1, h2, h3⟩ := (checkSparse_iff sp np s).1 hc
      constructor
      · intro h; cases h; exact ⟨⟨ht, h1, h2, h3⟩, rfl⟩
      · rintro ⟨_, rfl⟩; rfl
  · simp only [ht, not_false_eq_true, if_true, reduceCtorEq, false_iff, not_and]
    intro h; exact absurd h.type ht

section
variable {W : Type} [AddCommGroup W] [LinearOrder W]

/-- C58: the same for the finite-width model, whose `max_width` must not be negative. -/
theorem C58_accepts_fw (mw : W) (wt ct : String) (sp : Option (List ι)) (np : Option PyNum) (m : PyFwCost ι W) :
    PyFwCost.make mw wt ct sp np = .ok m ↔
      (0 ≤ mw ∧ wt ∈ ["float32", "float64", "float128"] ∧ CostArgsOk ct sp np) ∧
      m = ⟨⟨ct, sp.map List.toFinset, np⟩, mw, wt⟩ := by
  unfold PyFwCost.make
  by_cases h1 : mw < 0
  · simp [h1, not_le.2 h1]
  by_cases h2 : wt ∈ widthTypes
  · simp only [h1, if_false, h2, not_true_eq_false]
    cases hm : PyCost.make ct sp np with
    | error e =>
      simp only [reduceCtorEq, false_iff, not_and]
      rintro ⟨_, _, h⟩
      have := (C58_accepts ct sp np _).2 ⟨h, rfl⟩
      rw [hm] at this; cases this
    | ok m' =>
      obtain ⟨h, rfl⟩ := (C58_accepts ct sp np m').1 hm
      constructor
      · intro e; cases e; exact ⟨⟨not_lt.1 h1, h2, h⟩, rfl⟩
      · rintro ⟨_, rfl⟩; rfl
  · simp only [h1, if_false, h2, not_false_eq_true, if_true, reduceCtorEq, false_iff, not_and]
    rintro ⟨_, h, _⟩; exact absurd h h2

end

/-- An accepted model whose `n_projs`, if given, is the `int` `n`. -/
theorem projs_of_make {ct : String} {sp : Option (List ι)} {np : Option PyNum} {m : PyCost ι}
    (hm : PyCost.make ct sp np = .ok m) {n : ℕ} (hn : ∀ z, np = some z → z = .int n) :
    ∀ s, m.sparse = some s → s ≠ ∅ → m.nProjs = some (.int n) := by
  obtain ⟨h, rfl⟩ := (C58_accepts ct sp np m).1 hm
  intro s hs h0
  cases sp with
  | none => cases hs
  | some l =>
    simp only [Option.map_some, Option.some.injEq] at hs
    have : l ≠ [] := by rintro rfl; exact h0 (by rw [← hs]; rfl)
    cases np with
    | none => exact absurd rfl (h.given l rfl this)
    | some z => rw [hn z rfl]

theorem make_of_fw {W : Type} [AddCommGroup W] [LinearOrder W] {mw : W} {wt ct : String} {sp : Option (List ι)}
    {np : Option PyNum} {m : PyFwCost ι W} (hm : PyFwCost.make mw wt ct sp np = .ok m) :
    PyCost.make ct sp np = .ok m.toPyCost := by
  obtain ⟨⟨_, _, h⟩, rfl⟩ := (C58_accepts_fw mw wt ct sp np m).1 hm
  exact (C58_accepts ct sp np _).2 ⟨h, rfl⟩

/-- C58: `contraction_cost` of an accepted infinite-memory model is the documented product over the
indices of `A` and `B`, whatever the order of the indices and the iteration order of sets, and
whether the dimensions are one number or a dictionary. -/
theorem C58_cost {enum : Finset ι → List ι} (he : EnumOk enum) {ct : String} {sp : Option (List ι)}
    {np : Option PyNum} {m : PyCost ι} (hm : PyCost.make ct sp np = .ok m) {n : ℕ} (h0 : 0 < n)
    (hn : ∀ z, np = some z → z = .int n) {A B C : List ι} (hA : A.Nodup) (hB : B.Nodup) (hC : C.Nodup)
    {dims : PyDims ι} {d : ι → ℕ}
    (hd : ∀ x, x ∈ A ∨ x ∈ B ∨ x ∈ C ∨ x ∈ m.sparseSet → dims.get? x = some (d x)) :
    m.contractionCost enum A B C dims = .ok (costByName m.sparse n d (A.toFinset ∪ B.toFinset)) := by
  set order := m.allInds enum (uniqueEverseen (A ++ B ++ C)) with ho
  have hmem : ∀ x, x ∈ order ↔ x ∈ A ∨ x ∈ B ∨ x ∈ C ∨ x ∈ m.sparseSet := fun x => by
    rw [ho, mem_allInds he, mem_uniqueEverseen]; simp [or_assoc]
  obtain ⟨D, hD, hD'⟩ := inOrder_ok (dims := dims) (order := order) (d := d) fun x hx => hd x ((hmem x).1 hx)
  obtain ⟨c, hc, hc'⟩ := core_cost he h0 (projs_of_make hm hn) (fun x hx => (hmem x).2 (.inr (.inr (.inr hx)))) hD'
  have hA' : ∀ x ∈ A, x ∈ order := fun x hx => (hmem x).2 (.inl hx)
  have hB' : ∀ x ∈ B, x ∈ order := fun x hx => (hmem x).2 (.inr (.inl hx))
  have hC' : ∀ x ∈ C, x ∈ order := fun x hx => (hmem x).2 (.inr (.inr (.inl hx)))
  have := hc' (A.toFinset ∪ B.toFinset) (by
    intro x hx
    rcases Finset.mem_union.1 hx with h | h
    · exact hA' x (List.mem_toFinset.1 h)
    · exact hB' x (List.mem_toFinset.1 h))
  rw [Finset.image_union] at this
  unfold PyCost.contractionCost
  simp only [← ho, hD, hc, bitsIn_ok hA hA', bitsIn_ok hB hB', bitsIn_ok hC hC', this,
    bind, Except.bind, pure, Except.pure]

/-- C58: a dimension missing for an index of the call, or for a sparse index, is a `ValueError`. -/
theorem C58_cost_missing {enum : Finset ι → List ι} (he : EnumOk enum) (m : PyCost ι) (A B C : List ι)
    (dims : PyDims ι) (h : ∃ x, (x ∈ A ∨ x ∈ B ∨ x ∈ C ∨ x ∈ m.sparseSet) ∧ dims.get? x = none) :
    m.contractionCost enum A B C dims = .error .valueError := by
  obtain ⟨x, hx, hn⟩ := h
  have : dims.inOrder (m.allInds enum (uniqueEverseen (A ++ B ++ C))) = .error .valueError :=
    inOrder_missing ⟨x, by rw [mem_allInds he, mem_uniqueEverseen]; simpa [or_assoc] using hx, hn⟩
  unfold PyCost.contractionCost
  simp only [this, bind, Except.bind]

/-- C58: an index given twice in one of the three lists is a `ValueError`. -/
theorem C58_cost_repeated {enum : Finset ι → List ι} (he : EnumOk enum) {ct : String} {sp : Option (List ι)}
    {np : Option PyNum} {m : PyCost ι} (hm : PyCost.make ct sp np = .ok m) {n : ℕ} (h0 : 0 < n)
    (hn : ∀ z, np = some z → z = .int n) {A B C : List ι} (h : ¬ (A.Nodup ∧ B.Nodup ∧ C.Nodup)) (dims : PyDims ι) :
    m.contractionCost enum A B C dims = .error .valueError := by
  by_cases hx : ∃ x, (x ∈ A ∨ x ∈ B ∨ x ∈ C ∨ x ∈ m.sparseSet) ∧ dims.get? x = none
  · exact C58_cost_missing he m A B C dims hx
  set order := m.allInds enum (uniqueEverseen (A ++ B ++ C)) with ho
  have hmem : ∀ x, x ∈ order ↔ x ∈ A ∨ x ∈ B ∨ x ∈ C ∨ x ∈ m.sparseSet := fun x => by
    rw [ho, mem_allInds he, mem_uniqueEverseen]; simp [or_assoc]
  obtain ⟨D, hD, hD'⟩ := inOrder_ok (dims := dims) (order := order) (d := fun x => (dims.get? x).getD 0) fun x hx' => by
    cases hd : dims.get? x with
    | none => exact absurd ⟨x, (hmem x).1 hx', hd⟩ hx
    | some k => rfl
  obtain ⟨c, hc, -⟩ := core_cost he h0 (projs_of_make hm hn) (fun x hx => (hmem x).2 (.inr (.inr (.inr hx)))) hD'
  have hA' : ∀ x ∈ A, x ∈ order := fun x hx => (hmem x).2 (.inl hx)
  have hB' : ∀ x ∈ B, x ∈ order := fun x hx => (hmem x).2 (.inr (.inl hx))
  unfold PyCost.contractionCost
  simp only [← ho, hD, hc, bind, Except.bind, pure, Except.pure]
  by_cases hA : A.Nodup
  · simp only [bitsIn_ok hA hA']
    by_cases hB : B.Nodup
    · simp only [bitsIn_ok hB hB']
      have hC : ¬ C.Nodup := fun hC => h ⟨hA, hB, hC⟩
      simp only [bitsIn_dup hC]
    · simp only [bitsIn_dup hB]
  · simp only [bitsIn_dup hA]

/-- C58: `contraction_cost` of an accepted finite-width model: as before, over the indices of `A`,
`B` and the sliced indices. -/
theorem C58_cost_fw {W : Type} [AddCommGroup W] [LinearOrder W] {enum : Finset ι → List ι} (he : EnumOk enum)
    {mw : W} {wt ct : String} {sp : Option (List ι)} {np : Option PyNum} {m : PyFwCost ι W}
    (hm : PyFwCost.make mw wt ct sp np = .ok m) {n : ℕ} (h0 : 0 < n) (hn : ∀ z, np = some z → z = .int n)
    {A B C S : List ι} (hA : A.Nodup) (hB : B.Nodup) (hC : C.Nodup) (hS : S.Nodup) (hsub : ∀ x ∈ C, x ∈ A ∨ x ∈ B)
    {dims : PyDims ι} {d : ι → ℕ} (hd : ∀ x, x ∈ A ∨ x ∈ B ∨ x ∈ S ∨ x ∈ m.sparseSet → dims.get? x = some (d x)) :
    m.contractionCost enum A B C dims S =
      .ok (costByName m.sparse n d (A.toFinset ∪ B.toFinset ∪ S.toFinset)) := by
  have hm' := make_of_fw hm
  set order := m.allInds enum (uniqueEverseen (A ++ B ++ C ++ S)) with ho
  have hmem : ∀ x, x ∈ order ↔ x ∈ A ∨ x ∈ B ∨ x ∈ S ∨ x ∈ m.sparseSet := fun x => by
    rw [ho, mem_allInds he, mem_uniqueEverseen]
    have := hsub x
    simp only [List.mem_append]
    tauto
  obtain ⟨D, hD, hD'⟩ := inOrder_ok (dims := dims) (order := order) (d := d) fun x hx => hd x ((hmem x).1 hx)
  obtain ⟨c, hc, hc'⟩ := core_cost he h0 (projs_of_make hm' hn) (fun x hx => (hmem x).2 (.inr (.inr (.inr hx)))) hD'
  have hA' : ∀ x ∈ A, x ∈ order := fun x hx => (hmem x).2 (.inl hx)
  have hB' : ∀ x ∈ B, x ∈ order := fun x hx => (hmem x).2 (.inr (.inl hx))
  have hS' : ∀ x ∈ S, x ∈ order := fun x hx => (hmem x).2 (.inr (.inr (.inl hx)))
  have hC' : ∀ x ∈ C, x ∈ order := fun x hx => (hsub x hx).elim (hA' x) (hB' x)
  have := hc' (A.toFinset ∪ B.toFinset ∪ S.toFinset) (by
    intro x hx
    rcases Finset.mem_union.1 hx with h | h
    · rcases Finset.mem_union.1 h with h | h
      · exact hA' x (List.mem_toFinset.1 h)
      · exact hB' x (List.mem_toFinset.1 h)
    · exact hS' x (List.mem_toFinset.1 h))
  rw [Finset.image_union, Finset.image_union] at this
  have hany : C.any (fun x => decide (x ∉ A ++ B)) = false := by
    rw [List.any_eq_false]; intro x hx; simpa using fun h => (hsub x hx).resolve_left h
  unfold PyFwCost.contractionCost
  simp only [hany, Bool.false_eq_true, if_false, ← ho, hD, hc, bitsIn_ok hA hA', bitsIn_ok hB hB', bitsIn_ok hC hC',
    bitsIn_ok hS hS', this, bind, Except.bind, pure, Except.pure]

/-- C58: an index of the result that neither operand has is a `ValueError` of the finite-width model. -/
theorem C58_cost_fw_result {W : Type} [AddCommGroup W] [LinearOrder W] (enum : Finset ι → List ι) (m : PyFwCost ι W)
    (A B C S : List ι) (dims : PyDims ι) (h : ∃ x ∈ C, x ∉ A ∧ x ∉ B) :
    m.contractionCost enum A B C dims S = .error .valueError := by
  obtain ⟨x, hx, h⟩ := h
  have hany : C.any (fun x => decide (x ∉ A ++ B)) = true := by
    rw [List.any_eq_true]; exact ⟨x, hx, by simpa using h⟩
  unfold PyFwCost.contractionCost
  simp only [hany, if_true]
  rfl

section
variable {W : Type} [AddCommGroup W] [LinearOrder W]

/-- C58: `width` is the documented sum of logarithms; `delta_width` is the change of `width` when an
index of the tensor is removed. -/
theorem C58_width (log2 : ℕ → W) {enum : Finset ι → List ι} (he : EnumOk enum)
    {mw : W} {wt ct : String} {sp : Option (List ι)} {np : Option PyNum} {m : PyFwCost ι W}
    (hm : PyFwCost.make mw wt ct sp np = .ok m) {n : ℕ} (h0 : 0 < n) (hlog : 0 ≤ log2 n)
    (hn : ∀ z, np = some z → z = .int n) {X : List ι} (hX : X.Nodup)
    {dims : PyDims ι} {d : ι → ℕ} (hd : ∀ x, x ∈ X ∨ x ∈ m.sparseSet → dims.get? x = some (d x)) :
    m.width log2 enum X dims = .ok (widthByName log2 m.sparse n d X.toFinset) ∧
    ∀ x ∈ X, m.deltaWidth log2 enum X dims x =
      .ok (widthByName log2 m.sparse n d (X.toFinset.erase x) - widthByName log2 m.sparse n d X.toFinset) := by
  have hm' := make_of_fw hm
  set order := m.allInds enum X with ho
  have hmem : ∀ x, x ∈ order ↔ x ∈ X ∨ x ∈ m.sparseSet := fun x => by rw [ho, mem_allInds he]
  obtain ⟨D, hD, hD'⟩ := inOrder_ok (dims := dims) (order := order) (d := d) fun x hx => hd x ((hmem x).1 hx)
  obtain ⟨c, hc, hw, ht⟩ := core_width log2 he h0 hlog (projs_of_make hm' hn) (fun x hx => (hmem x).2 (.inr hx)) hD'
  have hX' : ∀ x ∈ X, x ∈ order := fun x hx => (hmem x).2 (.inl hx)
  have hw1 := hw X.toFinset fun x hx => hX' x (List.mem_toFinset.1 hx)
  constructor
  · unfold PyFwCost.width
    simp only [← ho, hD, hc, bitsIn_ok hX hX', hw1, bind, Except.bind, pure, Except.pure]
  · intro x hx
    have hpos : X.idxOf x = order.idxOf x := by rw [ho, idxOf_allInds enum m.toPyCost hX hx]
    have hw2 := hw (X.toFinset.erase x) fun y hy => hX' y (List.mem_toFinset.1 (Finset.mem_of_mem_erase hy))
    have hmi : order.idxOf x ∈ X.toFinset.image order.idxOf := Finset.mem_image_of_mem _ (List.mem_toFinset.2 hx)
    have htog : ISet.toggle (X.toFinset.image order.idxOf) (order.idxOf x) = (X.toFinset.erase x).image order.idxOf := by
      unfold ISet.toggle
      rw [if_pos hmi]
      ext i
      simp only [Finset.mem_erase, Finset.mem_image, List.mem_toFinset]
      constructor
      · rintro ⟨hi, y, hy, rfl⟩
        exact ⟨y, ⟨fun h => hi (by rw [h]), hy⟩, rfl⟩
      · rintro ⟨y, ⟨hne, hy⟩, rfl⟩
        exact ⟨fun h => hne (idxOf_injOn order (hX' y hy) (hX' x hx) h), y, hy, rfl⟩
    have := ht (X.toFinset.image order.idxOf) (order.idxOf x)
    rw [htog, hw2, hw1] at this
    unfold PyFwCost.deltaWidth
    simp only [hx, not_true_eq_false, if_false, ← ho, hD, hc, bitsIn_ok hX hX', hpos, bind, Except.bind, pure, Except.pure]
    rw [this, add_sub_cancel_left]

/-- C58: `width` of a tensor with a repeated index, or with an index whose dimension is missing, is a
`ValueError`; so is `delta_width`. -/
theorem C58_width_errors (log2 : ℕ → W) {enum : Finset ι → List ι} (he : EnumOk enum)
    {mw : W} {wt ct : String} {sp : Option (List ι)} {np : Option PyNum} {m : PyFwCost ι W}
    (hm : PyFwCost.make mw wt ct sp np = .ok m) {n : ℕ} (h0 : 0 < n)
    (hn : ∀ z, np = some z → z = .int n) {X : List ι} {dims : PyDims ι}
    (h : ¬ X.Nodup ∨ ∃ x, (x ∈ X ∨ x ∈ m.sparseSet) ∧ dims.get? x = none) :
    m.width log2 enum X dims = .error .valueError ∧ ∀ x, m.deltaWidth log2 enum X dims x = .error .valueError := by
  have hm' := make_of_fw hm
  set order := m.allInds enum X with ho
  have hmem : ∀ x, x ∈ order ↔ x ∈ X ∨ x ∈ m.sparseSet := fun x => by rw [ho, mem_allInds he]
  have key : dims.inOrder order = .error .valueError ∨
      ∃ D c, dims.inOrder order = .ok D ∧ m.core enum order = .ok c ∧ bitsIn order X = .error .valueError := by
    by_cases hx : ∃ x ∈ order, dims.get? x = none
    · exact .inl (inOrder_missing hx)
    · have hX : ¬ X.Nodup := h.resolve_right fun ⟨x, h1, h2⟩ => hx ⟨x, (hmem x).2 h1, h2⟩
      obtain ⟨D, hD, hD'⟩ := inOrder_ok (dims := dims) (order := order) (d := fun x => (dims.get? x).getD 0) fun x hx' => by
        cases hd : dims.get? x with
        | none => exact absurd ⟨x, hx', hd⟩ hx
        | some k => rfl
      obtain ⟨c, hc, -⟩ := core_cost he h0 (projs_of_make hm' hn) (fun x hx => (hmem x).2 (.inr hx)) hD'
      exact .inr ⟨D, c, hD, hc, bitsIn_dup hX⟩
  constructor
  · unfold PyFwCost.width
    rcases key with h | ⟨D, c, h1, h2, h3⟩
    · simp only [← ho, h, bind, Except.bind]
    · simp only [← ho, h1, h2, h3, bind, Except.bind]
  · intro x
    unfold PyFwCost.deltaWidth
    by_cases hx : x ∈ X
    · rcases key with h | ⟨D, c, h1, h2, h3⟩
      · simp only [hx, not_true_eq_false, if_false, ← ho, h, bind, Except.bind, pure, Except.pure]
      · simp only [hx, not_true_eq_false, if_false, ← ho, h1, h2, h3, bind, Except.bind, pure, Except.pure]
    · simp only [hx, not_false_eq_true, if_true]
      rfl

/-- C58 violated: the documentation of `delta_width` promises the difference also for an index that is
not in the tensor; the call always fails. -/
theorem C58_violated_add (log2 : ℕ → W) (enum : Finset ι → List ι) (m : PyFwCost ι W) (X : List ι) (dims : PyDims ι)
    (x : ι) (h : x ∉ X) : m.deltaWidth log2 enum X dims x = .error .valueError := by
  unfold PyFwCost.deltaWidth
  simp only [h, not_false_eq_true, if_true]
  rfl

end

/-- C58 violated: an unknown `cost_type` or `width_type` is announced as `NotImplementedError`, but what
is raised is an `AttributeError`. -/
theorem C58_violated_type {W : Type} [AddCommGroup W] [LinearOrder W] (mw : W) (hmw : 0 ≤ mw) (wt ct : String)
    (sp : Option (List ι)) (np : Option PyNum) :
    (ct ∉ ["float32", "float64", "float128", "float1024"] →
      PyCost.make ct sp np = .error .attributeError ∧ PyFwCost.make mw wt ct sp np = .error .attributeError) ∧
    (wt ∉ ["float32", "float64", "float128"] → PyFwCost.make mw wt ct sp np = .error .attributeError) := by
  have h1 : ct ∉ ["float32", "float64", "float128", "float1024"] → PyCost.make ct sp np = .error .attributeError :=
    fun h => by
      have h : ct ∉ costTypes := h
      rw [PyCost.make, if_pos h]
  refine ⟨fun h => ⟨h1 h, ?_⟩, fun h => ?_⟩
  · unfold PyFwCost.make
    rw [if_neg (not_lt.2 hmw), h1 h]
    split <;> rfl
  · unfold PyFwCost.make
    have h : wt ∉ widthTypes := h
    rw [if_neg (not_lt.2 hmw), if_pos h]

/-- C58 violated: a whole `n_projs` given as a `float` is accepted, and then no cost can be computed. -/
theorem C58_violated_float {enum : Finset ι → List ι} (he : EnumOk enum) {ct : String} {l : List ι} {q : ℚ}
    {m : PyCost ι} (hm : PyCost.make ct (some l) (some (.float q)) = .ok m) (hl : l ≠ []) (A B C : List ι)
    (d : ℕ) : m.contractionCost enum A B C (.int d) = .error .typeError := by
  obtain ⟨-, rfl⟩ := (C58_accepts _ _ _ m).1 hm
  have hl' : l.toFinset ≠ ∅ := by simpa [List.toFinset_eq_empty_iff] using hl
  have e : (enum l.toFinset).toFinset = l.toFinset := by ext x; simp [(he _).2]
  unfold PyCost.contractionCost
  set order := PyCost.allInds enum ⟨ct, some l.toFinset, some (.float q)⟩ (uniqueEverseen (A ++ B ++ C)) with ho
  have hS : ∀ x ∈ l.toFinset, x ∈ order := fun x hx => by rw [ho, mem_allInds he]; exact .inr hx
  have hb : bitsIn order (enum l.toFinset) = .ok (l.toFinset.image order.idxOf) := by
    rw [bitsIn_ok (he _).1 fun x hx => hS x (((he _).2 x).1 hx), e]
  have hsub : l.toFinset ⊆ order.toFinset := fun x hx => List.mem_toFinset.2 (hS x hx)
  have hc : PyCost.core enum ⟨ct, some l.toFinset, some (.float q)⟩ order = .error .typeError := by
    unfold PyCost.core
    simp only [if_neg hl', hb, projsArg, hsub, not_true_eq_false, if_false]
  simp only [Option.map_some, ← ho, PyDims.inOrder, hc, bind, Except.bind]

/-- C58: two models are equal exactly if their arguments are. -/
theorem C58_eq (m o : PyCost ι) : m.eq o = true ↔
    m.costType = o.costType ∧ m.sparse = o.sparse ∧ m.nProjs.map PyNum.val = o.nProjs.map PyNum.val := by
  simp [PyCost.eq, and_assoc]

/-- Non-trivial instances: a sparse model, sets read in increasing order. -/
example : ∃ m, PyCost.make "float64" (some [2, 5]) (some (.int 3)) = .ok m ∧
    PyCost.contractionCost (fun s : Finset ℕ => (List.range 8).filter (· ∈ s)) m [0, 2] [5, 0, 1] [1]
      (.dict fun x => some (x + 2)) = .ok ((2 * 3) * min (4 * 7) 3) := by
  refine ⟨⟨"float64", some {2, 5}, some (.int 3)⟩, ?_, ?_⟩
  · exact (C58_accepts _ _ _ _).2 ⟨⟨by simp, fun z hz => ⟨3, by omega, (by cases hz; rfl)⟩, fun _ _ _ h => (by cases h),
      fun h => (by cases h)⟩, by simp⟩
  · decide +kernel

example : ∃ m, PyFwCost.make (W := ℤ) 7 "float32" "float64" (some [2, 5]) (some (.int 3)) = .ok m ∧
    PyFwCost.deltaWidth (fun n => (Nat.log2 n : ℤ)) (fun s : Finset ℕ => (List.range 8).filter (· ∈ s)) m [0, 2, 1]
      (.dict fun x => some (x + 2)) 0 = .ok (-1) := by
  refine ⟨⟨⟨"float64", some {2, 5}, some (.int 3)⟩, 7, "float32"⟩, ?_, ?_⟩
  · exact (C58_accepts_fw _ _ _ _ _ _).2 ⟨⟨by decide, by simp, ⟨by simp, fun z hz => ⟨3, by omega, (by cases hz; rfl)⟩,
      fun _ _ _ h => (by cases h), fun h => (by cases h)⟩⟩, by simp⟩
  · decide +kernel

end TNCO
