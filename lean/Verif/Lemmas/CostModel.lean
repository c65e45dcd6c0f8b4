import Verif.Spec.CostModel
import Verif.Props.Cost
import Verif.Props.Width
import Verif.Lemmas.Unique

/-!
# Lemmas on the Python cost models
-/

namespace TNCO

variable {ι : Type} [DecidableEq ι]

theorem mapM_some_map {α β : Type} {f : α → Option β} {g : α → β} : ∀ {l : List α}, (∀ x ∈ l, f x = some (g x)) →
    l.mapM f = some (l.map g)
  | [], _ => rfl
  | a :: l, h => by
    rw [List.mapM_cons, h a (by simp), mapM_some_map fun x hx => h x (by simp [hx])]; rfl

theorem mapM_none {α β : Type} {f : α → Option β} : ∀ {l : List α}, (∃ x ∈ l, f x = none) → l.mapM f = none
  | [], ⟨_, h, _⟩ => by cases h
  | a :: l, ⟨x, hx, h⟩ => by
    rw [List.mapM_cons]
    cases ha : f a with
    | none => rfl
    | some b =>
      have : x ∈ l := by
        rcases List.mem_cons.1 hx with rfl | h'
        · rw [ha] at h; cases h
        · exact h'
      rw [mapM_none ⟨x, this, h⟩]; rfl

theorem inOrder_ok {dims : PyDims ι} {order : List ι} {d : ι → ℕ} (h : ∀ x ∈ order, dims.get? x = some (d x)) :
    ∃ D, dims.inOrder order = .ok D ∧ ∀ x ∈ order, D.get (order.idxOf x) = d x := by
  cases dims with
  | int k =>
    refine ⟨.int k, rfl, fun x hx => ?_⟩
    have := h x hx
    simp only [PyDims.get?, Option.some.injEq] at this
    exact this
  | dict f =>
    refine ⟨.vec (order.map d), by
      have : order.mapM f = some (order.map d) := mapM_some_map h
      simp only [PyDims.inOrder, this], fun x hx => ?_⟩
    have hi := List.idxOf_lt_length_of_mem hx
    simp [Dims.get, List.getD_eq_getElem?_getD, List.getElem?_eq_getElem hi]

theorem inOrder_missing {dims : PyDims ι} {order : List ι} (h : ∃ x ∈ order, dims.get? x = none) :
    dims.inOrder order = .error .valueError := by
  cases dims with
  | int k => obtain ⟨x, _, hx⟩ := h; cases hx
  | dict f => simp only [PyDims.inOrder, mapM_none (f := f) h]

theorem bitsIn_ok {order xs : List ι} (hn : xs.Nodup) (hs : ∀ x ∈ xs, x ∈ order) :
    bitsIn order xs = .ok (xs.toFinset.image order.idxOf) := by
  have : xs.any (fun x => decide (x ∉ order)) = false := by
    rw [List.any_eq_false]; intro x hx; simp [hs x hx]
  rw [bitsIn, if_neg (by simpa using hn), if_neg (by rw [this]; decide)]
  congr 1; ext; simp

theorem bitsIn_dup {order xs : List ι} (hn : ¬ xs.Nodup) : bitsIn order xs = .error .valueError := by
  rw [bitsIn, if_pos hn]

theorem idxOf_injOn (order : List ι) : Set.InjOn order.idxOf {x | x ∈ order} := by
  intro x hx y hy h
  exact (List.idxOf_inj hx).1 h

section
variable {order : List ι} {X S : Finset ι}

theorem idxOf_injOn_sub (hX : ∀ x ∈ X, x ∈ order) : Set.InjOn order.idxOf (X : Set ι) :=
  (idxOf_injOn order).mono fun x hx => hX x hx

theorem image_idx_inter (hX : ∀ x ∈ X, x ∈ order) (hS : ∀ x ∈ S, x ∈ order) :
    X.image order.idxOf ∩ S.image order.idxOf = (X ∩ S).image order.idxOf := by
  refine (Finset.image_inter_of_injOn X S ?_).symm
  exact (idxOf_injOn order).mono fun x hx => by
    rcases hx with h | h
    · exact hX x h
    · exact hS x h

theorem image_idx_sdiff (hX : ∀ x ∈ X, x ∈ order) (hS : ∀ x ∈ S, x ∈ order) :
    X.image order.idxOf \ S.image order.idxOf = (X \ S).image order.idxOf := by
  ext i
  simp only [Finset.mem_sdiff, Finset.mem_image, not_exists, not_and]
  constructor
  · rintro ⟨⟨x, hx, rfl⟩, h⟩
    exact ⟨x, ⟨hx, fun hs => h x hs rfl⟩, rfl⟩
  · rintro ⟨x, ⟨hx, hn⟩, rfl⟩
    refine ⟨⟨x, hx, rfl⟩, fun y hy h => hn ?_⟩
    rwa [← idxOf_injOn order (hS y hy) (hX x hx) h]

theorem simpleGet_image {D : Dims} {d : ι → ℕ} (hD : ∀ x ∈ order, D.get (order.idxOf x) = d x)
    (hX : ∀ x ∈ X, x ∈ order) : simpleGet D (X.image order.idxOf) = ∏ x ∈ X, d x := by
  rw [simpleGet_eq_prod, Finset.prod_image (fun x hx y hy h => idxOf_injOn_sub hX hx hy h)]
  exact Finset.prod_congr rfl fun x hx => hD x (hX x hx)

theorem simpleWidth_image {W : Type} [AddCommGroup W] (log2 : ℕ → W) {D : Dims} {d : ι → ℕ}
    (hD : ∀ x ∈ order, D.get (order.idxOf x) = d x)
    (hX : ∀ x ∈ X, x ∈ order) : simpleWidth log2 D (X.image order.idxOf) = ∑ x ∈ X, log2 (d x) := by
  rw [simpleWidth_eq_sum, Finset.sum_image (fun x hx y hy h => idxOf_injOn_sub hX hx hy h)]
  exact Finset.sum_congr rfl fun x hx => by rw [hD x (hX x hx)]

/-- The C++ object of an accepted model, with whole `n_projs`. -/
theorem core_ok {enum : Finset ι → List ι} (he : EnumOk enum) {m : PyCost ι} {n : ℕ} (hn : 0 < n)
    (hp : ∀ s, m.sparse = some s → s ≠ ∅ → m.nProjs = some (.int n)) (hS : ∀ x ∈ m.sparseSet, x ∈ order) :
    (m.sparseSet = ∅ ∧ m.core enum order = .ok .simple) ∨
    ∃ s, m.sparse = some s ∧ s ≠ ∅ ∧ m.core enum order = .ok (.sparse (s.image order.idxOf) n) := by
  unfold PyCost.core PyCost.sparseSet at *
  cases hs : m.sparse with
  | none => exact .inl ⟨rfl, rfl⟩
  | some s =>
    by_cases h0 : s = ∅
    · exact .inl ⟨by simpa using h0, by simp [h0]⟩
    · rw [hs] at hS
      simp only [Option.getD_some] at hS
      have e : (enum s).toFinset = s := by ext x; simp [(he s).2]
      refine .inr ⟨s, rfl, h0, ?_⟩
      have hb : bitsIn order (enum s) = .ok (s.image order.idxOf) := by
        rw [bitsIn_ok (he s).1 fun x hx => hS x (((he s).2 x).1 hx), e]
      have hsub : s ⊆ order.toFinset := fun x hx => List.mem_toFinset.2 (hS x hx)
      obtain ⟨k, rfl⟩ := Nat.exists_eq_succ_of_ne_zero hn.ne'
      simp only [if_neg h0, hb, hp s hs h0, projsArg, hsub, not_true_eq_false, if_false]
      rfl

theorem core_cost {enum : Finset ι → List ι} (he : EnumOk enum) {m : PyCost ι} {n : ℕ} (hn : 0 < n)
    (hp : ∀ s, m.sparse = some s → s ≠ ∅ → m.nProjs = some (.int n)) (hS : ∀ x ∈ m.sparseSet, x ∈ order)
    {D : Dims} {d : ι → ℕ} (hD : ∀ x ∈ order, D.get (order.idxOf x) = d x) :
    ∃ c, m.core enum order = .ok c ∧ ∀ X : Finset ι, (∀ x ∈ X, x ∈ order) →
      c.cost D (X.image order.idxOf) = costByName m.sparse n d X := by
  rcases core_ok he hn hp hS with ⟨h0, h⟩ | ⟨s, hs, _, h⟩
  · refine ⟨_, h, fun X hX => ?_⟩
    simp only [CostCore.cost, simpleGet_image hD hX, costByName]
    unfold PyCost.sparseSet at h0
    cases hs : m.sparse with
    | none => rfl
    | some s =>
      rw [hs] at h0
      simp only [Option.getD_some] at h0
      subst h0
      have : min (∏ x ∈ X ∩ ∅, d x) n = 1 := by simp; omega
      simp only [this]; simp
  · refine ⟨_, h, fun X hX => ?_⟩
    have hS' : ∀ x ∈ s, x ∈ order := fun x hx => hS x (by simpa [PyCost.sparseSet, hs] using hx)
    simp only [CostCore.cost, sparseGet_eq, costByName, hs, image_idx_inter hX hS', image_idx_sdiff hX hS']
    rw [simpleGet_image hD fun x hx => hX x (Finset.mem_sdiff.1 hx).1,
      simpleGet_image hD fun x hx => hX x (Finset.mem_inter.1 hx).1]

theorem core_width {W : Type} [AddCommGroup W] [LinearOrder W] (log2 : ℕ → W) {enum : Finset ι → List ι}
    (he : EnumOk enum) {m : PyCost ι} {n : ℕ} (hn : 0 < n) (hlog : 0 ≤ log2 n)
    (hp : ∀ s, m.sparse = some s → s ≠ ∅ → m.nProjs = some (.int n)) (hS : ∀ x ∈ m.sparseSet, x ∈ order)
    {D : Dims} {d : ι → ℕ} (hD : ∀ x ∈ order, D.get (order.idxOf x) = d x) :
    ∃ c, m.core enum order = .ok c ∧ (∀ X : Finset ι, (∀ x ∈ X, x ∈ order) →
      c.width log2 D (X.image order.idxOf) = widthByName log2 m.sparse n d X) ∧
      ∀ xs pos, c.width log2 D (xs.toggle pos) = c.width log2 D xs + c.deltaWidth log2 D xs pos := by
  rcases core_ok he hn hp hS with ⟨h0, h⟩ | ⟨s, hs, _, h⟩
  · refine ⟨_, h, fun X hX => ?_, fun xs pos => C46_delta_simple log2 D xs pos⟩
    simp only [CostCore.width, simpleWidth_image log2 hD hX, widthByName]
    unfold PyCost.sparseSet at h0
    cases hs : m.sparse with
    | none => rfl
    | some s =>
      rw [hs] at h0
      simp only [Option.getD_some] at h0
      subst h0
      simp [min_eq_left hlog]
  · refine ⟨_, h, fun X hX => ?_, fun xs pos => C46_delta_sparse log2 D _ n xs pos⟩
    have hS' : ∀ x ∈ s, x ∈ order := fun x hx => hS x (by simpa [PyCost.sparseSet, hs] using hx)
    simp only [CostCore.width, sparseWidth, minW_eq, widthByName, hs, image_idx_inter hX hS', image_idx_sdiff hX hS']
    rw [simpleWidth_image log2 hD fun x hx => hX x (Finset.mem_sdiff.1 hx).1,
      simpleWidth_image log2 hD fun x hx => hX x (Finset.mem_inter.1 hx).1]

end

theorem mem_allInds {enum : Finset ι → List ι} (he : EnumOk enum) (m : PyCost ι) (xs : List ι) (x : ι) :
    x ∈ m.allInds enum xs ↔ x ∈ xs ∨ x ∈ m.sparseSet := by
  unfold PyCost.allInds PyCost.sparseSet
  cases m.sparse with
  | none => simp
  | some s => simp [mem_uniqueEverseen, (he s).2]

theorem idxOf_allInds (enum : Finset ι → List ι) (m : PyCost ι) {xs : List ι} (hn : xs.Nodup) {x : ι} (hx : x ∈ xs) :
    (m.allInds enum xs).idxOf x = xs.idxOf x := by
  unfold PyCost.allInds
  cases m.sparse with
  | none => rfl
  | some s =>
    show (uniqueEverseen (xs ++ enum s)).idxOf x = _
    rw [uniqueEverseen, uniqueLoop_append, uniqueLoop_of_disjoint xs [] hn (by simp), List.idxOf_append_of_mem hx]

theorem checkSparse_iff (sparse : Option (List ι)) (nProjs : Option PyNum) (s : Option (Finset ι)) :
    checkSparse sparse nProjs = .ok s ↔ s = sparse.map List.toFinset ∧
      (∀ z, nProjs = some z → ∃ n : ℕ, 0 < n ∧ z.val = n) ∧ (∀ l, sparse = some l → l ≠ [] → nProjs ≠ none) ∧
      (sparse = none → nProjs = none) := by
  have key : ∀ z : PyNum, z.badProjs = false ↔ ∃ n : ℕ, 0 < n ∧ z.val = n := by
    intro z
    simp only [PyNum.badProjs, Bool.or_eq_false_iff, bne_eq_false_iff_eq, decide_eq_false_iff_not, not_lt]
    constructor
    · rintro ⟨hd, h1⟩
      have hz : z.val = (z.val.num : ℚ) := by
        conv_lhs => rw [← Rat.num_div_den z.val, hd]
        simp
      have : (1 : ℤ) ≤ z.val.num := by rw [hz] at h1; exact_mod_cast h1
      refine ⟨z.val.num.toNat, by omega, ?_⟩
      conv_lhs => rw [hz]
      have : ((z.val.num.toNat : ℤ) : ℚ) = (z.val.num : ℚ) := by rw [Int.toNat_of_nonneg (by omega)]
      exact_mod_cast this.symm
    · rintro ⟨n, hn, e⟩
      rw [e]
      exact ⟨by simp, by exact_mod_cast hn⟩
  have hval : ∀ z : PyNum, z.badProjs = false → z.val ≠ 0 := by
    intro z hz h0
    obtain ⟨n, hn, e⟩ := (key z).1 hz
    rw [e] at h0
    have : n = 0 := by exact_mod_cast h0
    omega
  unfold checkSparse
  cases nProjs with
  | none =>
    cases sparse with
    | none => simp [projsTrue, sparseTrue, eq_comm]
    | some l =>
      by_cases hl : l = []
      · simp [projsTrue, sparseTrue, hl, eq_comm]
      · simp [projsTrue, sparseTrue, hl, List.toFinset_eq_empty_iff]
  | some z =>
    by_cases hz : z.badProjs = true
    · have : ¬ ∃ n : ℕ, 0 < n ∧ z.val = n := fun h => by rw [(key z).2 h] at hz; cases hz
      simp only [Option.any_some, hz, if_true, reduceCtorEq, false_iff, not_and]
      intro _ h
      exact absurd (h z rfl) this
    · have hz' : z.badProjs = false := by simpa using hz
      have hv := hval z hz'
      have hk := (key z).1 hz'
      cases sparse with
      | none => simp [projsTrue, hz', hv]
      | some l =>
        have h0 : projsTrue (some z) = true := by simp [projsTrue, hv]
        simp only [Option.any_some, hz', Bool.false_eq_true, if_false, h0, Option.isNone_some, Bool.false_and,
          Option.map_some, Bool.not_true, Bool.and_false, Except.ok.injEq]
        constructor
        · rintro rfl
          exact ⟨rfl, fun w hw => (by cases hw; exact hk), fun _ _ _ h => (by cases h), fun h => (by cases h)⟩
        · rintro ⟨rfl, _⟩; rfl

end TNCO
