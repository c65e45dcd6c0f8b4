import Verif.Model.Svd
import Verif.Spec.Svd
import Verif.Lemmas.Tensordot
import Mathlib.Tactic.Linarith
import Mathlib.Algebra.BigOperators.Field

/-! Orthonormal families, and the tensors of `svd`. -/

namespace TNCO
open scoped ComplexConjugate

section Orthonormal
variable {K : Type} [RCLike K] {m n N : ℕ} {u v : ℕ → ℕ → K} {D : Finset ℕ}

/-- Orthonormal columns keep the norm. -/
theorem norm_columns (hD : D ⊆ Finset.range N)
    (hu : ∀ k < N, ∀ l < N, ∑ i ∈ Finset.range m, conj (u i k) * u i l = if k = l then 1 else 0) (c : ℕ → K) :
    ∑ i ∈ Finset.range m, ‖∑ k ∈ D, u i k * c k‖ ^ 2 = ∑ k ∈ D, ‖c k‖ ^ 2 := by
  have h : ((∑ i ∈ Finset.range m, ‖∑ k ∈ D, u i k * c k‖ ^ 2 : ℝ) : K) = ((∑ k ∈ D, ‖c k‖ ^ 2 : ℝ) : K) := by
    push_cast
    calc ∑ i ∈ Finset.range m, (‖∑ k ∈ D, u i k * c k‖ : K) ^ 2
        = ∑ i ∈ Finset.range m, ∑ k ∈ D, ∑ l ∈ D, (conj (c k) * c l) * (conj (u i k) * u i l) := by
          refine Finset.sum_congr rfl fun i _ => ?_
          rw [← RCLike.conj_mul, map_sum, Finset.sum_mul_sum]
          refine Finset.sum_congr rfl fun k _ => Finset.sum_congr rfl fun l _ => ?_
          rw [map_mul]; ring
      _ = ∑ k ∈ D, ∑ l ∈ D, (conj (c k) * c l) * ∑ i ∈ Finset.range m, conj (u i k) * u i l := by
          rw [Finset.sum_comm]
          refine Finset.sum_congr rfl fun k _ => ?_
          rw [Finset.sum_comm]
          refine Finset.sum_congr rfl fun l _ => ?_
          rw [Finset.mul_sum]
      _ = ∑ k ∈ D, (‖c k‖ : K) ^ 2 := by
          refine Finset.sum_congr rfl fun k hk => ?_
          rw [Finset.sum_eq_single_of_mem k hk]
          · rw [hu k (Finset.mem_range.1 (hD hk)) k (Finset.mem_range.1 (hD hk)), if_pos rfl, mul_one, RCLike.conj_mul]
          · intro l hl hne
            rw [hu k (Finset.mem_range.1 (hD hk)) l (Finset.mem_range.1 (hD hl)), if_neg (Ne.symm hne), mul_zero]
  exact_mod_cast h

/-- Bessel's inequality for a unit vector. -/
theorem row_le_one (hu : ∀ k < N, ∀ l < N, ∑ i ∈ Finset.range m, conj (u i k) * u i l = if k = l then 1 else 0)
    (hD : D ⊆ Finset.range N) {i : ℕ} (hi : i < m) : ∑ k ∈ D, ‖u i k‖ ^ 2 ≤ 1 := by
  have h := norm_columns hD hu fun k => conj (u i k)
  have hp : (∑ k ∈ D, u i k * conj (u i k) : K) = ((∑ k ∈ D, ‖u i k‖ ^ 2 : ℝ) : K) := by
    push_cast
    exact Finset.sum_congr rfl fun k _ => RCLike.mul_conj _
  have hq : 0 ≤ ∑ k ∈ D, ‖u i k‖ ^ 2 := Finset.sum_nonneg fun _ _ => by positivity
  have hle : ‖∑ k ∈ D, u i k * conj (u i k)‖ ^ 2 ≤ ∑ x ∈ Finset.range m, ‖∑ k ∈ D, u x k * conj (u i k)‖ ^ 2 :=
    Finset.single_le_sum (f := fun x => ‖∑ k ∈ D, u x k * conj (u i k)‖ ^ 2) (fun _ _ => by positivity) (Finset.mem_range.2 hi)
  rw [h, hp, RCLike.norm_ofReal, sq_abs] at hle
  simp only [RCLike.norm_conj] at hle
  by_contra hc
  push Not at hc
  nlinarith

theorem conj_rows (hv : ∀ k < N, ∀ l < N, ∑ j ∈ Finset.range n, v k j * conj (v l j) = if k = l then 1 else 0) :
    ∀ k < N, ∀ l < N, ∑ j ∈ Finset.range n, conj (conj (v k j)) * conj (v l j) = if k = l then 1 else 0 := by
  simpa using hv

/-- A part of the product, each entry. -/
theorem part_entry (hD : D ⊆ Finset.range N)
    (hu : ∀ k < N, ∀ l < N, ∑ i ∈ Finset.range m, conj (u i k) * u i l = if k = l then 1 else 0)
    (hv : ∀ k < N, ∀ l < N, ∑ j ∈ Finset.range n, v k j * conj (v l j) = if k = l then 1 else 0)
    {s : ℕ → ℝ} {c : ℝ} (h0 : ∀ k ∈ D, 0 ≤ s k) (hc : ∀ k ∈ D, s k ≤ c) (hc0 : 0 ≤ c) {i j : ℕ} (hi : i < m) (hj : j < n) :
    ‖∑ k ∈ D, u i k * (s k : K) * v k j‖ ≤ c := by
  have h1 := row_le_one hu hD hi
  have h2 := row_le_one (u := fun j k => conj (v k j)) (conj_rows hv) hD hj
  simp only [RCLike.norm_conj] at h2
  calc ‖∑ k ∈ D, u i k * (s k : K) * v k j‖
      ≤ ∑ k ∈ D, ‖u i k * (s k : K) * v k j‖ := norm_sum_le _ _
    _ ≤ ∑ k ∈ D, c * ((‖u i k‖ ^ 2 + ‖v k j‖ ^ 2) / 2) := by
        refine Finset.sum_le_sum fun k hk => ?_
        rw [norm_mul, norm_mul, RCLike.norm_ofReal, abs_of_nonneg (h0 k hk)]
        have hp : 0 ≤ ‖u i k‖ * ‖v k j‖ := by positivity
        have h3 : ‖u i k‖ * ‖v k j‖ ≤ (‖u i k‖ ^ 2 + ‖v k j‖ ^ 2) / 2 := by
          nlinarith [sq_nonneg (‖u i k‖ - ‖v k j‖)]
        calc ‖u i k‖ * s k * ‖v k j‖ = s k * (‖u i k‖ * ‖v k j‖) := by ring
          _ ≤ c * (‖u i k‖ * ‖v k j‖) := mul_le_mul_of_nonneg_right (hc k hk) hp
          _ ≤ _ := mul_le_mul_of_nonneg_left h3 hc0
    _ = c * ((∑ k ∈ D, ‖u i k‖ ^ 2 + ∑ k ∈ D, ‖v k j‖ ^ 2) / 2) := by
        rw [← Finset.mul_sum, ← Finset.sum_div, Finset.sum_add_distrib]
    _ ≤ c * 1 := mul_le_mul_of_nonneg_left (by linarith) hc0
    _ = c := mul_one c

/-- A part of the product, all entries. -/
theorem part_norm (hD : D ⊆ Finset.range N)
    (hu : ∀ k < N, ∀ l < N, ∑ i ∈ Finset.range m, conj (u i k) * u i l = if k = l then 1 else 0)
    (hv : ∀ k < N, ∀ l < N, ∑ j ∈ Finset.range n, v k j * conj (v l j) = if k = l then 1 else 0) (s : ℕ → ℝ) :
    ∑ i ∈ Finset.range m, ∑ j ∈ Finset.range n, ‖∑ k ∈ D, u i k * (s k : K) * v k j‖ ^ 2 = ∑ k ∈ D, s k ^ 2 := by
  rw [Finset.sum_comm]
  have h1 : ∀ j, ∑ i ∈ Finset.range m, ‖∑ k ∈ D, u i k * (s k : K) * v k j‖ ^ 2 = ∑ k ∈ D, s k ^ 2 * ‖v k j‖ ^ 2 := by
    intro j
    have := norm_columns hD hu fun k => (s k : K) * v k j
    simp only [← mul_assoc, norm_mul, RCLike.norm_ofReal, mul_pow, sq_abs] at this
    exact this
  simp only [h1]
  rw [Finset.sum_comm]
  refine Finset.sum_congr rfl fun k hk => ?_
  rw [← Finset.mul_sum]
  have h2 : ((∑ j ∈ Finset.range n, ‖v k j‖ ^ 2 : ℝ) : K) = 1 := by
    have := hv k (Finset.mem_range.1 (hD hk)) k (Finset.mem_range.1 (hD hk))
    rw [if_pos rfl] at this
    rw [← this]
    push_cast
    exact Finset.sum_congr rfl fun j _ => (RCLike.mul_conj _).symm
  have h3 : ∑ j ∈ Finset.range n, ‖v k j‖ ^ 2 = 1 := by exact_mod_cast h2
  rw [h3, mul_one]

end Orthonormal

section Tensors
variable {ι R S : Type} [DecidableEq ι]

/-- The positions of the large singular values. -/
def keptPositions (big : S → Bool) (s : NDArray S) (N : ℕ) : List ℕ := (List.range N).filter fun k => big (s.get [k])

theorem keptPositions_eq (big : S → Bool) (s : NDArray S) (N : ℕ) :
    NDArray.maskPositions ((List.range N).map fun k => big (s.get [k])) = keptPositions big s N := by
  unfold NDArray.maskPositions keptPositions
  rw [List.length_map, List.length_range]
  refine List.filter_congr fun k hk => ?_
  have hk := List.mem_range.1 hk
  rw [List.getD_eq_getElem _ _ (by simpa using hk), List.getElem_map, List.getElem_range]

theorem reshapeFree_ok {a : NDArray R} {pre post : List ℕ} {q : ℕ} (hp : (pre ++ post).prod ≠ 0)
    (hs : a.shape.prod = (pre ++ post).prod * q) :
    a.reshapeFree pre post = .ok ⟨pre ++ q :: post, a.data⟩ := by
  unfold NDArray.reshapeFree
  rw [if_neg (by rw [hs, Nat.mul_mod_right]; simpa using hp), hs, Nat.mul_div_cancel_left _ (Nat.pos_of_ne_zero hp)]

theorem unravel_pair {m r i t : ℕ} (hi : i < m) (ht : t < r) : unravel [m, r] (i * r + t) = [i, t] := by
  have := unravel_ravel (ds := [m, r]) (is := [i, t]) (.cons hi (.cons ht .nil))
  simpa [ravel] using this

theorem unravel_single {r t : ℕ} (ht : t < r) : unravel [r] t = [t] := by
  have := unravel_ravel (ds := [r]) (is := [t]) (.cons ht .nil)
  simpa [ravel] using this

theorem maskCols_ok {U : NDArray R} {m N : ℕ} {mask : List Bool} (hU : U.shape = [m, N]) (hm : mask.length = N) :
    ∃ U', U.maskCols mask = .ok U' ∧ U'.shape = [m, (NDArray.maskPositions mask).length] ∧
      ∀ i < m, ∀ t < (NDArray.maskPositions mask).length,
        U'.get [i, t] = U.get [i, (NDArray.maskPositions mask).getD t 0] := by
  unfold NDArray.maskCols
  rw [hU]
  simp only [hm, ne_eq, not_true_eq_false, if_false]
  refine ⟨_, rfl, rfl, ?_⟩
  intro i hi t ht
  simp only [NDArray.get, ravel, List.prod_cons, List.prod_nil, mul_one, Nat.add_zero]
  rw [unravel_pair hi ht]
  simp [NDArray.get]

theorem maskRows_ok {V : NDArray R} {n N : ℕ} {mask : List Bool} (hV : V.shape = [N, n]) (hm : mask.length = N) :
    ∃ V', V.maskRows mask = .ok V' ∧ V'.shape = [(NDArray.maskPositions mask).length, n] ∧
      ∀ t < (NDArray.maskPositions mask).length, ∀ j < n,
        V'.get [t, j] = V.get [(NDArray.maskPositions mask).getD t 0, j] := by
  unfold NDArray.maskRows
  rw [hV]
  simp only [hm, ne_eq, not_true_eq_false, if_false]
  refine ⟨_, rfl, rfl, ?_⟩
  intro t ht j hj
  simp only [NDArray.get, ravel, List.prod_cons, List.prod_nil, mul_one, Nat.add_zero]
  rw [unravel_pair ht hj]
  simp [NDArray.get]

theorem maskEntries_ok {s : NDArray S} {N : ℕ} {mask : List Bool} (hs : s.shape = [N]) (hm : mask.length = N) :
    ∃ s', s.maskRows mask = .ok s' ∧ s'.shape = [(NDArray.maskPositions mask).length] ∧
      ∀ t < (NDArray.maskPositions mask).length, s'.get [t] = s.get [(NDArray.maskPositions mask).getD t 0] := by
  unfold NDArray.maskRows
  rw [hs]
  simp only [hm, ne_eq, not_true_eq_false, if_false]
  refine ⟨_, rfl, rfl, ?_⟩
  intro t ht
  simp only [NDArray.get, ravel, List.prod_nil, mul_one, Nat.add_zero]
  rw [unravel_single ht]
  simp [NDArray.get]

theorem svdRight_perm {inds left : List ι} (hn : inds.Nodup) (hl : ∀ x ∈ left, x ∈ inds) (hln : left.Nodup) :
    (left ++ svdRight inds left).Perm inds := by
  refine perm_of_mem ?_ hn ?_
  · refine List.Nodup.append hln (hn.filter _) fun x h1 h2 => ?_
    have := (List.mem_filter.1 h2).2
    simp [h1] at this
  · intro x
    unfold svdRight
    simp only [List.mem_append, List.mem_filter, decide_eq_true_eq]
    constructor
    · rintro (h | h)
      · exact hl x h
      · exact h.1
    · intro h
      by_cases hx : x ∈ left
      · exact .inl hx
      · exact .inr ⟨h, hx⟩

theorem dims_ok {inds : List ι} {d : ι → ℕ} {x : ι} (hx : x ∈ inds) :
    dictLast (inds.zip (inds.map d)) x = some (d x) := by
  refine dictLast_eq ?_ ?_
  · intro p hp
    have := List.of_mem_zip hp
    rw [List.zip_map_right] at hp
    obtain ⟨q, hq, rfl⟩ := List.mem_map.1 hp
    have : q.1 = q.2 := by
      have hz : inds.zip inds = inds.map fun x => (x, x) := by
        clear hq hp this hx
        induction inds with
        | nil => rfl
        | cons y l ih => simp [ih]
      rw [hz] at hq
      obtain ⟨y, _, rfl⟩ := List.mem_map.1 hq
      rfl
    simp [this]
  · rw [List.map_fst_zip (by simp)]
    exact hx

/-- What `svd` does when the indices are split. -/
theorem svdSplit_run {a : NDArray R} {inds left : List ι} {d : ι → ℕ} (hs : a.shape = inds.map d) (hn : inds.Nodup)
    (hl : ∀ x ∈ left, x ∈ inds) (hln : left.Nodup) (h0 : left ≠ []) (hlt : left.length < inds.length) (hpos : ∀ x ∈ inds, 0 < d x) :
    ∃ M : NDArray R, M.shape = [(left.map d).prod, ((svdRight inds left).map d).prod] ∧
      (∀ f : ι → ℕ, (∀ x ∈ inds, f x < d x) →
        M.get [ravel (left.map d) (left.map f), ravel ((svdRight inds left).map d) ((svdRight inds left).map f)] = a.get (inds.map f)) ∧
      ∀ (dec : SvdOracle R S) (big : S → Bool) (name : ι),
        (∀ e, dec M = .error e → svdSplit dec big a inds left name = .error e) ∧
        ∀ (U : NDArray R) (s : NDArray S) (V : NDArray R) (N : ℕ), dec M = .ok (U, s, V) →
        U.shape = [(left.map d).prod, N] → s.shape = [N] → V.shape = [N, ((svdRight inds left).map d).prod] →
        ∃ U' s' V', svdSplit dec big a inds left name =
            .ok (.split U' (left ++ [name]) s' [name] V' (name :: svdRight inds left)) ∧
          U'.shape = left.map d ++ [(keptPositions big s N).length] ∧ s'.shape = [(keptPositions big s N).length] ∧
          V'.shape = (keptPositions big s N).length :: (svdRight inds left).map d ∧
          ∀ t < (keptPositions big s N).length, s'.get [t] = s.get [(keptPositions big s N).getD t 0] ∧
            ∀ f : ι → ℕ, (∀ x ∈ inds, f x < d x) →
              U'.get (left.map f ++ [t]) = U.get [ravel (left.map d) (left.map f), (keptPositions big s N).getD t 0] ∧
              V'.get (t :: (svdRight inds left).map f) =
                V.get [(keptPositions big s N).getD t 0, ravel ((svdRight inds left).map d) ((svdRight inds left).map f)] := by
  have hperm := svdRight_perm hn hl hln
  have hr : ∀ x ∈ svdRight inds left, x ∈ inds := fun x h => (List.mem_filter.1 h).1
  obtain ⟨b, hb, hbs, hbg⟩ := transpose_named hs hn hperm
  have hm0 : (left.map d).prod ≠ 0 := by
    rw [Ne, List.prod_eq_zero_iff]
    intro h
    obtain ⟨x, hx, h⟩ := List.mem_map.1 h
    have := hpos x (hl x hx); omega
  have hn0 : ((svdRight inds left).map d).prod ≠ 0 := by
    rw [Ne, List.prod_eq_zero_iff]
    intro h
    obtain ⟨x, hx, h⟩ := List.mem_map.1 h
    have := hpos x (hr x hx); omega
  have hdl := dimList_ok (dims := dictLast (inds.zip (inds.map d))) (d := d) (l := left) fun x hx => dims_ok (hl x hx)
  have hdr := dimList_ok (dims := dictLast (inds.zip (inds.map d))) (d := d) (l := svdRight inds left) fun x hx => dims_ok (hr x hx)
  have hM : svdMatrix a inds left (dictLast (inds.zip (inds.map d))) =
      .ok ⟨[(left.map d).prod, ((svdRight inds left).map d).prod], b.data⟩ := by
    unfold svdMatrix
    rw [hdl, hb]
    simp only
    rw [reshapeFree_ok (q := ((svdRight inds left).map d).prod) (by simpa using hm0) (by simp [hbs])]
    rfl
  have hif : ¬ (left.length = 0 ∨ left.length = a.ndim) := by
    rintro (h | h)
    · exact h0 (List.length_eq_zero_iff.1 h)
    · rw [NDArray.ndim, hs, List.length_map] at h; omega
  refine ⟨⟨[(left.map d).prod, ((svdRight inds left).map d).prod], b.data⟩, rfl, ?_, ?_⟩
  · intro f hf
    rw [← hbg f hf]
    simp only [NDArray.get, hbs, List.map_append, ravel, List.prod_cons, List.prod_nil, mul_one, Nat.add_zero]
    rw [ravel_append _ _ _ _ (by simp)]
  intro dec big name
  refine ⟨?_, ?_⟩
  · intro e he
    unfold svdSplit
    rw [if_neg hif]
    simp only [hs, hM, he]
  intro U s V N hdec hU hS hV
  have hlen : ((List.range N).map fun k => big (s.get [k])).length = N := by simp
  obtain ⟨U1, hU1, hU1s, hU1g⟩ := maskCols_ok hU hlen
  obtain ⟨s1, hs1, hs1s, hs1g⟩ := maskEntries_ok hS hlen
  obtain ⟨V1, hV1, hV1s, hV1g⟩ := maskRows_ok hV hlen
  rw [keptPositions_eq] at hU1s hU1g hs1s hs1g hV1s hV1g
  set r := (keptPositions big s N).length with hrdef
  have hUr : U1.reshapeFree (left.map d) [] = .ok ⟨left.map d ++ [r], U1.data⟩ :=
    reshapeFree_ok (by simpa using hm0) (by simp [hU1s])
  have hVr : V1.reshapeFree [] ((svdRight inds left).map d) = .ok ⟨r :: (svdRight inds left).map d, V1.data⟩ := by
    rw [reshapeFree_ok (q := r) (by simpa using hn0) (by simp [hV1s, Nat.mul_comm])]
    rfl
  refine ⟨⟨left.map d ++ [r], U1.data⟩, s1, ⟨r :: (svdRight inds left).map d, V1.data⟩, ?_, rfl, hs1s, rfl, ?_⟩
  · unfold svdSplit
    rw [if_neg hif]
    simp only [hs, hM, hdec]
    unfold svdTensors
    rw [hS]
    simp only [List.getD_cons_zero, hU1, hs1, hV1, hdl, hdr, hUr, hVr]
  · intro t ht
    refine ⟨hs1g t ht, ?_⟩
    intro f hf
    have hfl : ravel (left.map d) (left.map f) < (left.map d).prod := ravel_lt (forall2_map fun x hx => hf x (hl x hx))
    have hfr : ravel ((svdRight inds left).map d) ((svdRight inds left).map f) < ((svdRight inds left).map d).prod :=
      ravel_lt (forall2_map fun x hx => hf x (hr x hx))
    constructor
    · rw [← hU1g _ hfl t ht]
      simp only [NDArray.get, hU1s]
      rw [ravel_append _ _ _ _ (by simp)]
      simp [ravel]
    · rw [← hV1g t ht _ hfr]
      simp only [NDArray.get, hV1s]
      simp [ravel]

theorem transpose_perm {a b : NDArray R} {inds l : List ι} (hd : a.ndim = inds.length) (hl : ∀ x ∈ l, x ∈ inds)
    (h : a.transpose (l.map fun x => inds.idxOf x) = .ok b) : l.Perm inds ∧ inds.Nodup := by
  unfold NDArray.transpose at h
  split at h
  · cases h
  · next hc =>
    push Not at hc
    obtain ⟨h1, h2, _⟩ := hc
    rw [List.length_map, hd] at h1
    have hln : l.Nodup := h2.of_map
    have hp : l.Perm inds := (List.subperm_of_subset hln hl).perm_of_length_le h1.ge
    exact ⟨hp, hp.nodup_iff.1 hln⟩

theorem transpose_value {a : NDArray R} {axes : List ℕ} {e : PyErr} (h : a.transpose axes = .error e) : e = .valueError := by
  unfold NDArray.transpose at h
  split at h <;> simp_all

theorem transpose_cases (a : NDArray R) (axes : List ℕ) : a.transpose axes = .error .valueError ∨ ∃ b, a.transpose axes = .ok b := by
  unfold NDArray.transpose
  split
  · exact .inl rfl
  · exact .inr ⟨_, rfl⟩

theorem dims_some {inds : List ι} {shape : List ℕ} (hd : shape.length = inds.length) {x : ι} (hx : x ∈ inds) :
    ∃ n, dictLast (inds.zip shape) x = some n := by
  unfold dictLast
  have : x ∈ (inds.zip shape).map Prod.fst := by rw [List.map_fst_zip (by omega)]; exact hx
  obtain ⟨p, hp, rfl⟩ := List.mem_map.1 this
  have : ((inds.zip shape).reverse.find? (·.1 == p.1)).isSome := by
    rw [List.find?_isSome]
    exact ⟨p, by simpa using hp, by simp⟩
  obtain ⟨q, hq⟩ := Option.isSome_iff_exists.1 this
  exact ⟨q.2, by rw [hq]; rfl⟩

theorem dimList_some {dims : ι → Option ℕ} {l : List ι} (h : ∀ x ∈ l, ∃ n, dims x = some n) : ∃ r, dimList dims l = .ok r := by
  refine ⟨_, dimList_ok (d := fun x => (dims x).getD 0) fun x hx => ?_⟩
  obtain ⟨n, hn⟩ := h x hx
  rw [hn]; rfl

/-- Without distinct indices on both sides `svd` fails. -/
theorem svdSplit_bad {dec : SvdOracle R S} {big : S → Bool} {a : NDArray R} {inds left : List ι} {name : ι} (hd : a.ndim = inds.length)
    (hl : ∀ x ∈ left, x ∈ inds) (hbad : ¬ (inds.Nodup ∧ left.Nodup)) : svdSplit dec big a inds left name = .error .valueError := by
  unfold svdSplit
  split
  · unfold svdWhole
    simp only
    rcases transpose_cases a ((if left.length = 0 then inds else left).map fun x => inds.idxOf x) with h | ⟨b, h⟩
    · rw [h]
    · exfalso
      have := transpose_perm hd (by split <;> simp_all) h
      refine hbad ⟨this.2, ?_⟩
      split at this
      · next h0 => rw [List.length_eq_zero_iff.1 h0]; exact List.nodup_nil
      · exact this.1.nodup_iff.2 this.2
  · simp only
    have hM : svdMatrix a inds left (dictLast (inds.zip a.shape)) = .error .valueError := by
      unfold svdMatrix
      obtain ⟨r, hr⟩ := dimList_some (dims := dictLast (inds.zip a.shape)) fun x hx => dims_some hd (hl x hx)
      rw [hr]
      simp only
      rcases transpose_cases a ((left ++ svdRight inds left).map fun x => inds.idxOf x) with h | ⟨b, h⟩
      · rw [h]
      · exfalso
        have := transpose_perm hd (fun x hx => (List.mem_append.1 hx).elim (hl x) fun h => (List.mem_filter.1 h).1) h
        exact hbad ⟨this.2, (List.nodup_append.1 (this.1.nodup_iff.2 this.2)).1⟩
    rw [hM]

/-- No index on the left, or all of them. -/
theorem svdSplit_whole {dec : SvdOracle R S} {big : S → Bool} {a : NDArray R} {inds left : List ι} {name : ι} {d : ι → ℕ}
    (hs : a.shape = inds.map d) (hn : inds.Nodup) (hl : ∀ x ∈ left, x ∈ inds) (hln : left.Nodup)
    (h0 : left = [] ∨ left.length = inds.length) :
    ∃ b, svdSplit dec big a inds left name = .ok (.whole b (if left = [] then inds else left)) ∧
      b.shape = (if left = [] then inds else left).map d ∧
      ∀ f : ι → ℕ, (∀ x ∈ inds, f x < d x) → b.get ((if left = [] then inds else left).map f) = a.get (inds.map f) := by
  have hp : (if left = [] then inds else left).Perm inds := by
    split
    · exact .refl _
    · next h => exact (List.subperm_of_subset hln hl).perm_of_length_le ((h0.resolve_left h).ge)
  obtain ⟨b, hb, hbs, hbg⟩ := transpose_named hs hn hp
  refine ⟨b, ?_, hbs, hbg⟩
  unfold svdSplit
  rw [if_pos (by simpa [NDArray.ndim, hs] using h0)]
  unfold svdWhole
  simp only [List.length_eq_zero_iff, hb]

/-- Axes of length 0. -/
theorem svdSplit_empty {dec : SvdOracle R S} {big : S → Bool} {a : NDArray R} {inds left : List ι} {name : ι} {d : ι → ℕ}
    (hs : a.shape = inds.map d) (hn : inds.Nodup) (hl : ∀ x ∈ left, x ∈ inds) (hln : left.Nodup) (h0 : left ≠ [])
    (hlt : left.length < inds.length) (hz : 0 ∈ a.shape)
    (hdec : ∀ M : NDArray R, ∀ m, M.shape = [m, 0] → ∃ U s V, dec M = .ok (U, s, V) ∧ U.shape = [m, 0] ∧ s.shape = [0] ∧ V.shape = [0, 0]) :
    svdSplit dec big a inds left name = .error .valueError := by
  have hperm := svdRight_perm hn hl hln
  have hr : ∀ x ∈ svdRight inds left, x ∈ inds := fun x h => (List.mem_filter.1 h).1
  obtain ⟨b, hb, hbs, -⟩ := transpose_named hs hn hperm
  have hdl := dimList_ok (dims := dictLast (inds.zip (inds.map d))) (d := d) (l := left) fun x hx => dims_ok (hl x hx)
  have hdr := dimList_ok (dims := dictLast (inds.zip (inds.map d))) (d := d) (l := svdRight inds left) fun x hx => dims_ok (hr x hx)
  have hif : ¬ (left.length = 0 ∨ left.length = a.ndim) := by
    rintro (h | h)
    · exact h0 (List.length_eq_zero_iff.1 h)
    · rw [NDArray.ndim, hs, List.length_map] at h; omega
  unfold svdSplit
  rw [if_neg hif]
  simp only [hs]
  by_cases hm0 : (left.map d).prod = 0
  · have hM : svdMatrix a inds left (dictLast (inds.zip (inds.map d))) = .error .valueError := by
      unfold svdMatrix
      rw [hdl, hb]
      simp only
      unfold NDArray.reshapeFree
      rw [if_pos (.inl (by simpa using hm0))]
    rw [hM]
  · have hn0 : ((svdRight inds left).map d).prod = 0 := by
      rw [List.prod_eq_zero_iff] at hm0 ⊢
      rw [hs] at hz
      obtain ⟨x, hx, h⟩ := List.mem_map.1 hz
      rcases List.mem_append.1 (hperm.mem_iff.2 hx) with hx | hx
      · exact absurd (List.mem_map.2 ⟨x, hx, h⟩) hm0
      · exact List.mem_map.2 ⟨x, hx, h⟩
    have hM : svdMatrix a inds left (dictLast (inds.zip (inds.map d))) = .ok ⟨[(left.map d).prod, 0], b.data⟩ := by
      unfold svdMatrix
      rw [hdl, hb]
      simp only
      rw [reshapeFree_ok (q := 0) (by simpa using hm0) (by rw [hbs, List.map_append, List.prod_append, hn0]; simp)]
      rfl
    obtain ⟨U, s, V, h1, h2, h3, h4⟩ := hdec ⟨[(left.map d).prod, 0], b.data⟩ _ rfl
    rw [hM]
    simp only [h1]
    unfold svdTensors
    obtain ⟨U1, hU1, hU1s, -⟩ := maskCols_ok (mask := []) h2 rfl
    obtain ⟨s1, hs1, hs1s, -⟩ := maskEntries_ok (mask := []) h3 rfl
    obtain ⟨V1, hV1, hV1s, -⟩ := maskRows_ok (mask := []) h4 rfl
    rw [h3]
    simp only [List.getD_cons_zero, List.range_zero, List.map_nil, hU1, hs1, hV1, hdl, hdr]
    have hUr : U1.reshapeFree (left.map d) [] = .ok ⟨left.map d ++ [0], U1.data⟩ :=
      reshapeFree_ok (by simpa using hm0) (by simp [hU1s, NDArray.maskPositions])
    have hVr : V1.reshapeFree [] ((svdRight inds left).map d) = .error .valueError := by
      unfold NDArray.reshapeFree
      rw [if_pos (.inl (by simpa using hn0))]
    rw [hUr, hVr]

theorem sum_kept [AddCommMonoid R] (big : S → Bool) (s : NDArray S) (N : ℕ) (g : ℕ → R) :
    ∑ t ∈ Finset.range (keptPositions big s N).length, g ((keptPositions big s N).getD t 0) =
      ∑ k ∈ (Finset.range N).filter (fun k => big (s.get [k]) = true), g k := by
  have h1 : ∀ l : List ℕ, ∑ t ∈ Finset.range l.length, g (l.getD t 0) = (l.map g).sum := by
    intro l
    induction l with
    | nil => simp
    | cons x l ih =>
      rw [List.length_cons, Finset.sum_range_succ']
      simp only [List.getD_cons_succ, List.getD_cons_zero, List.map_cons, List.sum_cons, ih]
      exact add_comm _ _
  rw [h1]
  have hn : (keptPositions big s N).Nodup := List.nodup_range.filter _
  rw [← List.sum_toFinset _ hn]
  refine Finset.sum_congr ?_ fun _ _ => rfl
  ext k
  simp [keptPositions]

theorem kept_mem {big : S → Bool} {s : NDArray S} {N t : ℕ} (ht : t < (keptPositions big s N).length) :
    (keptPositions big s N).getD t 0 < N ∧ big (s.get [(keptPositions big s N).getD t 0]) = true := by
  rw [List.getD_eq_getElem _ _ ht]
  have := List.getElem_mem ht
  unfold keptPositions at this
  rw [List.mem_filter, List.mem_range] at this
  exact this

theorem kept_mono {big : S → Bool} {s : NDArray S} {N t t' : ℕ} (ht : t < (keptPositions big s N).length) (h : t' ≤ t) :
    (keptPositions big s N).getD t' 0 ≤ (keptPositions big s N).getD t 0 := by
  have hp : (keptPositions big s N).Pairwise (· < ·) := List.pairwise_lt_range.filter _
  rw [List.getD_eq_getElem _ _ ht, List.getD_eq_getElem _ _ (by omega)]
  rcases Nat.lt_or_eq_of_le h with h | h
  · exact (List.pairwise_iff_getElem.1 hp _ _ _ _ h).le
  · subst h; exact le_rfl

theorem kept_inj {big : S → Bool} {s : NDArray S} {N t t' : ℕ} (ht : t < (keptPositions big s N).length)
    (ht' : t' < (keptPositions big s N).length) :
    (keptPositions big s N).getD t 0 = (keptPositions big s N).getD t' 0 ↔ t = t' := by
  have hn : (keptPositions big s N).Nodup := List.nodup_range.filter _
  rw [List.getD_eq_getElem _ _ ht, List.getD_eq_getElem _ _ ht']
  exact hn.getElem_inj_iff

end Tensors
end TNCO
