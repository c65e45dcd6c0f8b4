import Verif.Lemmas.SvdValue
import Verif.Props.Names
import Mathlib.Tactic.NormNum
import Mathlib.Tactic.IntervalCases

/-!
# C64: splitting a tensor (`tnco/utils/tensor.py` 259-359)
-/

namespace TNCO
open scoped ComplexConjugate
variable {ι : Type} [DecidableEq ι]

/-- `x >= atol` -/
noncomputable def atLeast (atol : ℝ) (x : ℝ) : Bool := decide (atol ≤ x)

/-! ## The tensors -/

/-- C64: with some but not all indices on the left, the three tensors have the indices `left`, then the new one; the new one; the new one,
then the remaining indices in their order. They replace the tensor: `U` has orthonormal columns, `Vh` orthonormal rows, the
singular values do not increase and are at least `atol`, every entry of the tensor is reproduced up to `atol` (exactly if no value is dropped), and the error in the Frobenius
norm is that of the dropped values. -/
theorem C64_split {K : Type} [RCLike K] {a : NDArray K} {inds left : List ι} {d : ι → ℕ} (hshape : a.shape = inds.map d)
    (hinds : inds.Nodup) (hleft : ∀ x ∈ left, x ∈ inds) (hnodup : left.Nodup) (hsome : left ≠ []) (hnotall : left.length < inds.length)
    (hpos : ∀ x ∈ inds, 0 < d x) {dec : SvdOracle K ℝ}
    (hdec : ∀ M : NDArray K, IsMatrixOf d a inds left (inds.filter (· ∉ left)) M →
      ∃ U s V, dec M = .ok (U, s, V) ∧ IsSvd (left.map d).prod ((inds.filter (· ∉ left)).map d).prod M U s V)
    (atol : ℝ) {name : Option ι} {seeded : Bool} {draw : ℕ → ι} {fuel : ℕ} {x : ι}
    (hname : svdName name seeded draw inds fuel = some (.ok x)) :
    ∃ U s V r, svd dec (atLeast atol) a inds left name seeded draw fuel =
        some (.ok (.split U (left ++ [x]) s [x] V (x :: inds.filter (· ∉ left)))) ∧
      IsSplit d a inds left (inds.filter (· ∉ left)) x atol r U s V := by
  obtain ⟨U, s, V, r, h, hsplit⟩ := svdSplit_isSplit hshape hinds hleft hnodup hsome hnotall hpos hdec atol
    (C36_fresh name seeded draw inds fuel x hname)
  refine ⟨U, s, V, r, ?_, hsplit⟩
  unfold svd
  rw [if_neg (by simp [NDArray.ndim, hshape]), if_neg (by simpa using hleft), hname]
  exact congrArg some h

/-- C64: with no index on the left, or all of them, the tensor is returned with its axes in the order of the indices on the left. -/
theorem C64_whole {R S : Type} {a : NDArray R} {inds left : List ι} {d : ι → ℕ} (hshape : a.shape = inds.map d) (hinds : inds.Nodup)
    (hleft : ∀ x ∈ left, x ∈ inds) (hnodup : left.Nodup) (hall : left = [] ∨ left.length = inds.length) (dec : SvdOracle R S)
    (big : S → Bool) {name : Option ι} {seeded : Bool} {draw : ℕ → ι} {fuel : ℕ} {x : ι}
    (hname : svdName name seeded draw inds fuel = some (.ok x)) :
    ∃ b, svd dec big a inds left name seeded draw fuel = some (.ok (.whole b (if left = [] then inds else left))) ∧
      b.shape = (if left = [] then inds else left).map d ∧
      ∀ f : ι → ℕ, (∀ y ∈ inds, f y < d y) → b.get ((if left = [] then inds else left).map f) = a.get (inds.map f) := by
  obtain ⟨b, h, h'⟩ := svdSplit_whole (dec := dec) (big := big) (name := x) hshape hinds hleft hnodup hall
  refine ⟨b, ?_, h'⟩
  unfold svd
  rw [if_neg (by simp [NDArray.ndim, hshape]), if_neg (by simpa using hleft), hname]
  exact congrArg some h

/-! ## Errors -/

/-- An oracle whose results have the right shapes. -/
def SvdOracle.Shaped {R S : Type} (dec : SvdOracle R S) : Prop :=
  ∀ (M : NDArray R) (m n : ℕ), M.shape = [m, n] →
    ∃ U s V, dec M = .ok (U, s, V) ∧ U.shape = [m, min m n] ∧ s.shape = [min m n] ∧ V.shape = [min m n, n]

/-- The arguments that `svd` accepts, when the name of the new index is given. -/
def SvdArgsOk {R : Type} (a : NDArray R) (inds left : List ι) (name : ι) : Prop :=
  a.shape.length = inds.length ∧ inds.Nodup ∧ (∀ x ∈ left, x ∈ inds) ∧ left.Nodup ∧ name ∉ inds ∧
    (left = [] ∨ left.length = inds.length ∨ ∀ n ∈ a.shape, n ≠ 0)

/-- C64: the arguments are accepted exactly when each axis has its own index, the indices on the left are different indices of the tensor,
the name is new and, unless all indices are on one side, no axis has length 0. -/
theorem C64_accepts {R S : Type} {dec : SvdOracle R S} (hdec : dec.Shaped) (big : S → Bool) (a : NDArray R) (inds left : List ι) (name : ι)
    (seeded : Bool) (draw : ℕ → ι) (fuel : ℕ) :
    (∃ r, svd dec big a inds left (some name) seeded draw fuel = some (.ok r)) ↔ SvdArgsOk a inds left name := by
  constructor
  · rintro ⟨r, h⟩
    unfold svd at h
    split at h
    · simp at h
    next hd =>
    split at h
    · simp at h
    next hl =>
    push Not at hd hl
    have hnm : name ∉ inds := by
      intro hm
      simp [svdName, hm] at h
    simp only [svdName, if_neg hnm] at h
    have h := Option.some.inj h
    have hnn : inds.Nodup ∧ left.Nodup := by
      by_contra hbad
      rw [svdSplit_bad hd hl hbad] at h
      cases h
    refine ⟨hd, hnn.1, hl, hnn.2, hnm, ?_⟩
    by_contra hc
    push Not at hc
    obtain ⟨h0, h1, n, hz, rfl⟩ := hc
    have hle : left.length ≤ inds.length := (List.subperm_of_subset hnn.2 hl).length_le
    have hs : a.shape = inds.map fun x => a.shape.getD (inds.idxOf x) 0 := by
      refine List.ext_getElem (by rw [List.length_map]; exact hd) fun p h2 h3 => ?_
      have : p < inds.length := by simpa using h3
      rw [List.getElem_map, hnn.1.idxOf_getElem, List.getD_eq_getElem _ _ h2]
    rw [svdSplit_empty hs hnn.1 hl hnn.2 h0 (by omega) hz] at h
    · cases h
    · intro M m hM
      simpa using hdec M m 0 hM
  · rintro ⟨hd, hn, hl, hln, hnm, hz⟩
    have hs : a.shape = inds.map fun x => a.shape.getD (inds.idxOf x) 0 := by
      refine List.ext_getElem (by rw [List.length_map]; exact hd) fun p h2 h3 => ?_
      have : p < inds.length := by simpa using h3
      rw [List.getElem_map, hn.idxOf_getElem, List.getD_eq_getElem _ _ h2]
    have hname : svdName (some name) seeded draw inds fuel = some (.ok name) := by simp [svdName, hnm]
    by_cases hall : left = [] ∨ left.length = inds.length
    · obtain ⟨b, h, -⟩ := C64_whole hs hn hl hln hall dec big hname
      exact ⟨_, h⟩
    · push Not at hall
      have hle : left.length ≤ inds.length := (List.subperm_of_subset hln hl).length_le
      have hz := (hz.resolve_left hall.1).resolve_left hall.2
      obtain ⟨M, hM, -, hrun⟩ := svdSplit_run (S := S) hs hn hl hln hall.1 (by omega) fun x hx => by
        refine Nat.pos_of_ne_zero ?_
        have := List.idxOf_lt_length_of_mem hx
        rw [List.getD_eq_getElem _ _ (by omega)]
        exact hz _ (List.getElem_mem _)
      obtain ⟨U, s, V, h1, h2, h3, h4⟩ := hdec M _ _ hM
      obtain ⟨U', s', V', h, -⟩ := (hrun dec big name).2 U s V _ h1 h2 h3 h4
      refine ⟨.split U' (left ++ [name]) s' [name] V' (name :: svdRight inds left), ?_⟩
      unfold svd
      rw [if_neg (by simpa [NDArray.ndim] using hd), if_neg (by simpa using hl), hname]
      exact congrArg some h

/-- C64: all other arguments raise a `ValueError`. -/
theorem C64_value_error {R S : Type} {dec : SvdOracle R S} (hdec : dec.Shaped) (big : S → Bool) (a : NDArray R) (inds left : List ι)
    (name : ι) (seeded : Bool) (draw : ℕ → ι) (fuel : ℕ) (hbad : ¬ SvdArgsOk a inds left name) :
    svd dec big a inds left (some name) seeded draw fuel = some (.error .valueError) := by
  unfold svd
  split
  · rfl
  next hd =>
  split
  · rfl
  next hl =>
  push Not at hd hl
  by_cases hnm : name ∈ inds
  · simp [svdName, hnm]
  simp only [svdName, if_neg hnm]
  by_cases hnn : inds.Nodup ∧ left.Nodup
  · have hc : ¬ (left = [] ∨ left.length = inds.length ∨ ∀ n ∈ a.shape, n ≠ 0) :=
      fun h => hbad ⟨hd, hnn.1, hl, hnn.2, hnm, h⟩
    push Not at hc
    obtain ⟨h0, h1, n, hz, rfl⟩ := hc
    have hle : left.length ≤ inds.length := (List.subperm_of_subset hnn.2 hl).length_le
    have hs : a.shape = inds.map fun x => a.shape.getD (inds.idxOf x) 0 := by
      refine List.ext_getElem (by rw [List.length_map]; exact hd) fun p h2 h3 => ?_
      have : p < inds.length := by simpa using h3
      rw [List.getElem_map, hnn.1.idxOf_getElem, List.getD_eq_getElem _ _ h2]
    rw [svdSplit_empty hs hnn.1 hl hnn.2 h0 (by omega) hz]
    intro M m hM
    simpa using hdec M m 0 hM
  · rw [svdSplit_bad hd hl hnn]

/-! ## Examples -/

/-- A tensor with three indices `0`, `1`, `2` of dimensions 2, 1, 2: the matrix with rows (3, 0) and (0, 1/10). -/
noncomputable def svdArray : NDArray ℝ := ⟨[2, 1, 2], fun k => if k = 0 then 3 else if k = 3 then 1 / 10 else 0⟩

/-- The decomposition of a 2×2 matrix with entries on the diagonal. -/
noncomputable def diagOracle : SvdOracle ℝ ℝ := fun M =>
  .ok (⟨[2, 2], fun k => if k = 0 ∨ k = 3 then 1 else 0⟩, ⟨[2], fun k => M.data (3 * k)⟩, ⟨[2, 2], fun k => if k = 0 ∨ k = 3 then 1 else 0⟩)

/-- Dimensions of the indices. -/
def svdDim (x : ℕ) : ℕ := if x = 1 then 1 else 2

theorem svdArray_matrix {M : NDArray ℝ} (hM : IsMatrixOf svdDim svdArray [0, 1, 2] [2] ([0, 1, 2].filter (· ∉ [2])) M) :
    ∃ U s V, diagOracle M = .ok (U, s, V) ∧
      IsSvd ([2].map svdDim).prod ((([0, 1, 2] : List ℕ).filter (· ∉ [2])).map svdDim).prod M U s V := by
  have e : (([0, 1, 2] : List ℕ).filter (· ∉ [2])) = [0, 1] := by decide
  have hent := hM.entries
  rw [e] at hent
  have hshape : M.shape = [2, 2] := hM.shape
  have h : ∀ i < 2, ∀ j < 2, M.get [i, j] = if i = 0 ∧ j = 0 then 3 else if i = 1 ∧ j = 1 then 1 / 10 else 0 := by
    intro i hi j hj
    have := hent (fun x => if x = 2 then i else if x = 0 then j else 0) (by simp [svdDim, hi, hj])
    simp only [List.map_cons, List.map_nil, svdDim, ravel, NDArray.get, svdArray] at this
    rw [NDArray.get, hshape]
    interval_cases i <;> interval_cases j <;> simp_all [ravel]
  have hd : ∀ i < 2, ∀ j < 2, M.data (i * 2 + j) = if i = 0 ∧ j = 0 then 3 else if i = 1 ∧ j = 1 then 1 / 10 else 0 := by
    intro i hi j hj
    have := h i hi j hj
    rw [NDArray.get, hshape] at this
    simpa [ravel] using this
  have hd0 := hd 0 (by decide) 0 (by decide)
  have hd3 := hd 1 (by decide) 1 (by decide)
  suffices h : ∃ U s V, diagOracle M = .ok (U, s, V) ∧ IsSvd 2 2 M U s V by
    rw [e]; exact h
  refine ⟨_, _, _, rfl, rfl, rfl, rfl, ?_, ?_, ?_, ?_, ?_⟩
  · rw [min_self]
    intro k hk l hl
    interval_cases k <;> interval_cases l <;> simp [Finset.sum_range_succ, NDArray.get, ravel]
  · rw [min_self]
    intro k hk l hl
    interval_cases k <;> interval_cases l <;> simp [Finset.sum_range_succ, NDArray.get, ravel]
  · rw [min_self]
    intro k hk
    interval_cases k <;> simp [NDArray.get, ravel] <;> simp_all
  · rw [min_self]
    intro l hl k hk
    interval_cases l <;> interval_cases k <;> simp [NDArray.get, ravel] <;> simp_all <;> norm_num
  · rw [min_self]
    intro i hi j hj
    have := h i hi j hj
    interval_cases i <;> interval_cases j <;> rw [this] <;> simp [Finset.sum_range_succ, NDArray.get, ravel] <;> simp_all

/-- Here the second singular value, 1/10, is dropped. -/
example : ∃ U s V r, svd diagOracle (atLeast (1 / 2)) svdArray [0, 1, 2] [2] (some 7) false id 0 =
      some (.ok (.split U [2, 7] s [7] V [7, 0, 1])) ∧ IsSplit svdDim svdArray [0, 1, 2] [2] [0, 1] 7 (1 / 2) r U s V :=
  C64_split (d := svdDim) (x := 7) rfl (by decide) (by decide) (by decide) (by decide) (by decide)
    (by simp [svdDim]) (fun _ => svdArray_matrix) (1 / 2) rfl

/-- All indices on the left: the axes are permuted. -/
example : ∃ b, svd diagOracle (atLeast 0) svdArray [0, 1, 2] [2, 0, 1] (some 7) false id 0 = some (.ok (.whole b [2, 0, 1])) ∧
    b.shape = [2, 2, 1] ∧ ∀ f : ℕ → ℕ, (∀ y ∈ [0, 1, 2], f y < svdDim y) → b.get [f 2, f 0, f 1] = svdArray.get [f 0, f 1, f 2] :=
  C64_whole (d := svdDim) (x := 7) rfl (by decide) (by decide) (by decide) (by decide) diagOracle (atLeast 0) rfl

/-- An oracle with the right shapes. -/
def zeroOracle : SvdOracle ℤ ℤ := fun M =>
  let m := M.shape.getD 0 0
  let n := M.shape.getD 1 0
  .ok (⟨[m, min m n], fun _ => 0⟩, ⟨[min m n], fun _ => 0⟩, ⟨[min m n, n], fun _ => 0⟩)

theorem zeroOracle_shaped : zeroOracle.Shaped := by
  intro M m n h
  simp [zeroOracle, h]

example : ¬ SvdArgsOk (⟨[2, 3, 2], fun _ => 1⟩ : NDArray ℤ) [0, 1, 2] [1, 1] 7 ∧
    ¬ SvdArgsOk (⟨[2, 3, 2], fun _ => 1⟩ : NDArray ℤ) [0, 1, 0] [1] 7 ∧ ¬ SvdArgsOk (⟨[2, 3, 2], fun _ => 1⟩ : NDArray ℤ) [0, 1, 2] [1] 2 ∧
    SvdArgsOk (⟨[2, 3, 2], fun _ => 1⟩ : NDArray ℤ) [0, 1, 2] [1] 7 := by
  simp [SvdArgsOk]

/-- C64: an array without entries cannot be split, although the arguments are consistent. -/
theorem C64_empty : svd zeroOracle (fun _ => true) ⟨[2, 0], fun _ => 0⟩ [0, 1] [0] (some 7) false id 0 = some (.error .valueError) :=
  C64_value_error zeroOracle_shaped _ _ _ _ _ _ _ _ (by simp [SvdArgsOk])

end TNCO
