import Verif.Lemmas.Svd
import Mathlib.Algebra.Order.BigOperators.Group.Finset

/-! The value of the three tensors of `svd`. -/

namespace TNCO
open scoped ComplexConjugate
variable {ι : Type} [DecidableEq ι]

theorem splitValue_eq {K : Type} [RCLike K] {d : ι → ℕ} {left right : List ι} {x : ι} (hl : x ∉ left) (hr : x ∉ right)
    (U : NDArray K) (s : NDArray ℝ) (V : NDArray K) (r : ℕ) (f : ι → ℕ) :
    splitValue (Function.update d x r) left right x U s V f =
      ∑ t ∈ Finset.range r, U.get (left.map f ++ [t]) * (s.get [t] : K) * V.get (t :: right.map f) := by
  unfold splitValue einsum
  simp only [sumOver, Function.update_self]
  refine Finset.sum_congr rfl fun t _ => ?_
  have h1 : left.map (Function.update f x t) = left.map f :=
    List.map_congr_left fun y hy => Function.update_of_ne (by rintro rfl; exact hl hy) _ _
  have h2 : right.map (Function.update f x t) = right.map f :=
    List.map_congr_left fun y hy => Function.update_of_ne (by rintro rfl; exact hr hy) _ _
  simp [h1, h2, mul_assoc]

/-- A sum over two groups of indices is a sum over a matrix. -/
theorem sum_matrix {R : Type} [AddCommMonoid R] {d : ι → ℕ} {inds left right : List ι} (hp : (left ++ right).Perm inds)
    (hn : (left ++ right).Nodup) {F : (ι → ℕ) → R} (G : ℕ → ℕ → R)
    (h : ∀ g, (∀ y ∈ inds, g y < d y) → F g = G (ravel (left.map d) (left.map g)) (ravel (right.map d) (right.map g))) (f : ι → ℕ) :
    sumOver d inds F f = ∑ i ∈ Finset.range (left.map d).prod, ∑ j ∈ Finset.range (right.map d).prod, G i j := by
  have hnl := (List.nodup_append.1 hn).1
  have hnr := (List.nodup_append.1 hn).2.1
  have hdis : ∀ y ∈ left, y ∉ right := fun y h1 h2 => (List.nodup_append.1 hn).2.2 y h1 y h2 rfl
  rw [← sumOver_perm hp hn F f, sumOver_append, sum_ravel hnl (fun i => ∑ j ∈ Finset.range (right.map d).prod, G i j) f]
  refine sumOver_congr fun g _ hg => ?_
  rw [sum_ravel hnr (fun j => G (ravel (left.map d) (left.map g)) j) g]
  refine sumOver_congr fun g' h1 h2 => ?_
  have e : left.map g' = left.map g := List.map_congr_left fun y hy => h1 y (hdis y hy)
  rw [h g', e]
  intro y hy
  rcases List.mem_append.1 (hp.mem_iff.2 hy) with hy | hy
  · rw [h1 y (hdis y hy)]; exact hg y hy
  · exact h2 y hy

variable {K : Type} [RCLike K]

/-- What `svd` returns when `linalg.svd` returns a decomposition. -/
theorem svdSplit_isSplit {a : NDArray K} {inds left : List ι} {d : ι → ℕ} (hs : a.shape = inds.map d) (hn : inds.Nodup)
    (hl : ∀ x ∈ left, x ∈ inds) (hln : left.Nodup) (h0 : left ≠ []) (hlt : left.length < inds.length) (hpos : ∀ x ∈ inds, 0 < d x)
    {dec : SvdOracle K ℝ} (hdec : ∀ M : NDArray K, IsMatrixOf d a inds left (svdRight inds left) M →
      ∃ U s V, dec M = .ok (U, s, V) ∧ IsSvd (left.map d).prod ((svdRight inds left).map d).prod M U s V)
    (atol : ℝ) {x : ι} (hx : x ∉ inds) :
    ∃ U s V r, svdSplit dec (fun t => decide (atol ≤ t)) a inds left x =
        .ok (.split U (left ++ [x]) s [x] V (x :: svdRight inds left)) ∧
      IsSplit d a inds left (svdRight inds left) x atol r U s V := by
  have hperm := svdRight_perm hn hl hln
  have hnd : (left ++ svdRight inds left).Nodup := hperm.nodup_iff.2 hn
  have hr : ∀ x ∈ svdRight inds left, x ∈ inds := fun x h => (List.mem_filter.1 h).1
  obtain ⟨M, hMs, hMg, hrun⟩ := svdSplit_run (S := ℝ) hs hn hl hln h0 hlt hpos
  set m := (left.map d).prod with hm
  set right := svdRight inds left with hright
  set n := (right.map d).prod with hnn
  obtain ⟨U, s, V, hd, hU, hS, hV, hcol, hrow, hs0, hsort, hprod⟩ := hdec M ⟨hMs, hMg⟩
  obtain ⟨U', s', V', hok, hU', hs', hV', hget⟩ := (hrun dec (fun t => decide (atol ≤ t)) x).2 U s V _ hd hU hS hV
  set N := min m n with hN
  set pos := keptPositions (fun t => decide (atol ≤ t)) s N with hposdef
  have hxl : x ∉ left := fun h => hx (hl x h)
  have hxr : x ∉ right := fun h => hx (hr x h)
  set kept := (Finset.range N).filter (fun k => decide (atol ≤ s.get [k]) = true) with hkept
  set drop := (Finset.range N).filter (fun k => ¬ decide (atol ≤ s.get [k]) = true) with hdrop
  have hval : ∀ f : ι → ℕ, (∀ y ∈ inds, f y < d y) → splitValue (Function.update d x pos.length) left right x U' s' V' f =
      ∑ k ∈ kept, U.get [ravel (left.map d) (left.map f), k] * (s.get [k] : K) * V.get [k, ravel (right.map d) (right.map f)] := by
    intro f hf
    rw [splitValue_eq hxl hxr]
    have := sum_kept (fun t => decide (atol ≤ t)) s N fun k =>
      U.get [ravel (left.map d) (left.map f), k] * (s.get [k] : K) * V.get [k, ravel (right.map d) (right.map f)]
    rw [← hposdef] at this
    rw [hkept, ← this]
    refine Finset.sum_congr rfl fun t ht => ?_
    obtain ⟨h1, h2⟩ := hget t (Finset.mem_range.1 ht)
    rw [h1, (h2 f hf).1, (h2 f hf).2]
  have hfl : ∀ f : ι → ℕ, (∀ y ∈ inds, f y < d y) → ravel (left.map d) (left.map f) < m :=
    fun f hf => ravel_lt (forall2_map fun y hy => hf y (hl y hy))
  have hfr : ∀ f : ι → ℕ, (∀ y ∈ inds, f y < d y) → ravel (right.map d) (right.map f) < n :=
    fun f hf => ravel_lt (forall2_map fun y hy => hf y (hr y hy))
  have haval : ∀ f : ι → ℕ, (∀ y ∈ inds, f y < d y) → a.get (inds.map f) =
      ∑ k ∈ Finset.range N, U.get [ravel (left.map d) (left.map f), k] * (s.get [k] : K) * V.get [k, ravel (right.map d) (right.map f)] := by
    intro f hf
    rw [← hMg f hf, hprod _ (hfl f hf) _ (hfr f hf)]
  have herr : ∀ f : ι → ℕ, (∀ y ∈ inds, f y < d y) →
      a.get (inds.map f) - splitValue (Function.update d x pos.length) left right x U' s' V' f =
      ∑ k ∈ drop, U.get [ravel (left.map d) (left.map f), k] * (s.get [k] : K) * V.get [k, ravel (right.map d) (right.map f)] := by
    intro f hf
    rw [haval f hf, hval f hf, hkept, hdrop, sub_eq_iff_eq_add, add_comm, Finset.sum_filter_add_sum_filter_not]
  have hdropsub : drop ⊆ Finset.range N := Finset.filter_subset _ _
  have hsumerr : ∀ f, sumOver d inds (fun g => ‖a.get (inds.map g) -
      splitValue (Function.update d x pos.length) left right x U' s' V' g‖ ^ 2) f = ∑ k ∈ drop, s.get [k] ^ 2 := by
    intro f
    rw [sum_matrix hperm hnd (fun i j => ‖∑ k ∈ drop, U.get [i, k] * (s.get [k] : K) * V.get [k, j]‖ ^ 2)
      (fun g hg => by rw [herr g hg])]
    exact part_norm (u := fun i k => U.get [i, k]) (v := fun k j => V.get [k, j]) hdropsub hcol hrow _
  have hsuma : ∀ f, sumOver d inds (fun g => ‖a.get (inds.map g)‖ ^ 2) f = ∑ k ∈ Finset.range N, s.get [k] ^ 2 := by
    intro f
    rw [sum_matrix hperm hnd (fun i j => ‖∑ k ∈ Finset.range N, U.get [i, k] * (s.get [k] : K) * V.get [k, j]‖ ^ 2)
      (fun g hg => by rw [haval g hg])]
    exact part_norm (u := fun i k => U.get [i, k]) (v := fun k j => V.get [k, j]) (Finset.Subset.refl _) hcol hrow _
  have hlenkept : pos.length = kept.card := by
    have := sum_kept (fun t => decide (atol ≤ t)) s N fun _ => (1 : ℕ)
    rw [← hposdef, ← hkept] at this
    simpa only [Finset.sum_const, Finset.card_range, smul_eq_mul, mul_one] using this
  have hcards : kept.card + drop.card = N := by
    rw [hkept, hdrop, Finset.card_filter_add_card_filter_not, Finset.card_range]
  refine ⟨U', s', V', pos.length, hok, hU', hs', hV', by omega, ?_, ?_, ?_, ?_, ?_, ?_, ?_, ?_, ?_⟩
  · intro hat
    have hd0 : drop = ∅ := by
      refine Finset.filter_eq_empty_iff.2 fun k hk => ?_
      have := hs0 k (Finset.mem_range.1 hk)
      simpa using hat.trans this
    rw [hd0, Finset.card_empty] at hcards
    omega
  · intro t ht
    have hk := kept_mem ht
    rw [(hget t ht).1]
    exact ⟨hs0 _ hk.1, by simpa using hk.2⟩
  · intro t ht t' ht'
    rw [(hget t ht).1, (hget t' (by omega)).1]
    exact hsort _ (kept_mem ht).1 _ (kept_mono ht ht')
  · intro t ht t' ht' f
    have hk := kept_mem ht
    have hk' := kept_mem ht'
    have := hcol _ hk.1 _ hk'.1
    rw [if_congr (kept_inj ht ht') rfl rfl] at this
    rw [← this, sum_ravel hln (fun i => conj (U.get [i, pos.getD t 0]) * U.get [i, pos.getD t' 0]) f]
    refine sumOver_congr fun g _ hg => ?_
    have e : left.map g = left.map fun y => if y ∈ left then g y else 0 :=
      List.map_congr_left fun y hy => by rw [if_pos hy]
    have hin : ∀ y ∈ inds, (if y ∈ left then g y else 0) < d y := fun y hy => by
      split
      · next h => exact hg y h
      · exact hpos y hy
    rw [e, ((hget t ht).2 _ hin).1, ((hget t' ht').2 _ hin).1]
  · intro t ht t' ht' f
    have hk := kept_mem ht
    have hk' := kept_mem ht'
    have := hrow _ hk.1 _ hk'.1
    rw [if_congr (kept_inj ht ht') rfl rfl] at this
    rw [← this, sum_ravel (List.nodup_append.1 hnd).2.1 (fun j => V.get [pos.getD t 0, j] * conj (V.get [pos.getD t' 0, j])) f]
    refine sumOver_congr fun g _ hg => ?_
    have e : right.map g = right.map fun y => if y ∈ right then g y else 0 :=
      List.map_congr_left fun y hy => by rw [if_pos hy]
    have hin : ∀ y ∈ inds, (if y ∈ right then g y else 0) < d y := fun y hy => by
      split
      · next h => exact hg y h
      · exact hpos y hy
    rw [e, ((hget t ht).2 _ hin).2, ((hget t' ht').2 _ hin).2]
  · intro hat f hf
    rw [herr f hf]
    refine part_entry (u := fun i k => U.get [i, k]) (v := fun k j => V.get [k, j]) (s := fun k => s.get [k]) hdropsub hcol hrow
      ?_ ?_ hat (hfl f hf) (hfr f hf)
    · intro k hk
      exact hs0 k (Finset.mem_range.1 (hdropsub hk))
    · intro k hk
      have := (Finset.mem_filter.1 hk).2
      simp only [decide_eq_true_eq, not_le] at this
      exact this.le
  · intro f
    rw [hsumerr f, hsuma f, eq_sub_iff_add_eq]
    have := sum_kept (fun t => decide (atol ≤ t)) s N fun k => s.get [k] ^ 2
    rw [← hposdef, ← hkept] at this
    have h2 : ∑ t ∈ Finset.range pos.length, s'.get [t] ^ 2 = ∑ k ∈ kept, s.get [k] ^ 2 := by
      rw [← this]
      exact Finset.sum_congr rfl fun t ht => by rw [(hget t (Finset.mem_range.1 ht)).1]
    rw [h2, add_comm]
    exact Finset.sum_filter_add_sum_filter_not _ _ _
  · intro hat f
    rw [hsumerr f]
    have : N - pos.length = drop.card := by omega
    rw [this, ← nsmul_eq_mul]
    refine Finset.sum_le_card_nsmul _ _ _ fun k hk => ?_
    have h1 := hs0 k (Finset.mem_range.1 (hdropsub hk))
    have h2 := (Finset.mem_filter.1 hk).2
    simp only [decide_eq_true_eq, not_le] at h2
    nlinarith
  · intro hr f hf
    have hd0 : drop = ∅ := Finset.card_eq_zero.1 (by omega)
    have := herr f hf
    rw [hd0, Finset.sum_empty, sub_eq_zero] at this
    exact this.symm

end TNCO
