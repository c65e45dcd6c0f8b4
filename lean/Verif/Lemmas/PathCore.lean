import Verif.Lemmas.PathNodes
import Verif.Lemmas.InfMem
import Verif.Spec.Names

/-! From index names per tensor to the core tree. -/

namespace TNCO
open PTree
variable {ι : Type} [DecidableEq ι]

theorem sub_mapP {s t : PTree} (f : ℕ → ℕ) (h : Sub s t) : Sub (s.mapP f) (t.mapP f) := by
  induction h with
  | refl => exact .refl
  | left _ ih => exact .left ih
  | right _ ih => exact .right ih

theorem sub_trans {s t u : PTree} (h : Sub s t) (h' : Sub t u) : Sub s u := by
  induction h' with
  | refl => exact h
  | left _ ih => exact .left ih
  | right _ ih => exact .right ih

theorem sub_plug (K : Ctx) (s : PTree) : Sub s (K.plug s) := by
  induction K generalizing s with
  | top => exact .refl
  | frame o p u K ih =>
    refine sub_trans ?_ (ih (fork o p s u))
    cases o
    · exact .right .refl
    · exact .left .refl

/-- The names at each position are those of the loop, so they are exact. -/
theorem namesExact_of_good {Lf : ℕ → Finset ι} {SL : List ℕ} {out' : Finset ι}
    {I : ℕ → Option (List ι)} {t' : PTree} {σ : ℕ → ℕ} {N : ℕ → Finset ι}
    (hnd : t'.postorder.Nodup)
    (hσ : ∀ p ∈ t'.postorder, ∀ q ∈ t'.postorder, σ p = σ q → p = q)
    (hgood : ∀ s, Sub s (t'.mapP σ) → GoodI Lf SL out' I s)
    (hSL : ((t'.mapP σ).leaves).Perm SL)
    (hN : ∀ p ∈ t'.postorder, ∃ l, I (σ p) = some l ∧ N p = l.toFinset)
    (hL : ∀ p ∈ t'.leaves, N p = Lf (σ p)) : NamesExact N out' t' := by
  intro K s hs x
  have hsub : Sub s t' := hs ▸ sub_plug K s
  obtain ⟨l, hl, hx⟩ := hgood _ (sub_mapP σ hsub)
  have hmem : s.root ∈ t'.postorder := sub_mem_postorder hsub _ s.root_mem
  obtain ⟨l', hl', hNl⟩ := hN _ hmem
  rw [root_mapP, hl', Option.some.injEq] at hl
  subst hl
  rw [hNl, List.mem_toFinset, hx]
  have hlp := K.leaves_plug s
  rw [← hs] at hlp
  have hlnd : t'.leaves.Nodup := by
    have := t'.postorder_perm.nodup_iff.1 hnd
    exact (List.nodup_append'.1 this).1
  have hsl : ∀ p ∈ s.leaves, p ∈ t'.leaves := fun p hp => hlp.mem_iff.2 (by simp [hp])
  have hdisj : ∀ p ∈ s.leaves, p ∉ K.lvs := by
    have := hlp.nodup_iff.1 hlnd
    exact fun p hp hq => (List.nodup_append'.1 this).2.2 hp hq
  have h1 : (∃ p ∈ (s.mapP σ).leaves, x ∈ Lf p) ↔ ∃ p ∈ s.leaves, x ∈ N p := by
    rw [leaves_mapP]
    constructor
    · rintro ⟨q, hq, hxq⟩
      obtain ⟨p, hp, rfl⟩ := List.mem_map.1 hq
      exact ⟨p, hp, by rw [hL p (hsl p hp)]; exact hxq⟩
    · rintro ⟨p, hp, hxp⟩
      exact ⟨σ p, List.mem_map_of_mem hp, by rw [← hL p (hsl p hp)]; exact hxp⟩
  have h2 : (∃ p ∈ SL, p ∉ (s.mapP σ).leaves ∧ x ∈ Lf p) ↔ ∃ p ∈ K.lvs, x ∈ N p := by
    rw [leaves_mapP]
    constructor
    · rintro ⟨q, hq, hqs, hxq⟩
      rw [← hSL.mem_iff, leaves_mapP] at hq
      obtain ⟨p, hp, rfl⟩ := List.mem_map.1 hq
      have hpK : p ∈ K.lvs := by
        rcases List.mem_append.1 (hlp.mem_iff.1 hp) with h' | h'
        · exact absurd (List.mem_map_of_mem h') hqs
        · exact h'
      exact ⟨p, hpK, by rw [hL p hp]; exact hxq⟩
    · rintro ⟨p, hp, hxp⟩
      have hpt : p ∈ t'.leaves := hlp.mem_iff.2 (by simp [hp])
      refine ⟨σ p, ?_, ?_, by rw [← hL p hpt]; exact hxp⟩
      · rw [← hSL.mem_iff, leaves_mapP]; exact List.mem_map_of_mem hpt
      · intro h'
        obtain ⟨q, hq, e⟩ := List.mem_map.1 h'
        have := hσ q (t'.leaves_subset q (hsl q hq)) p (t'.leaves_subset p hpt) e
        subst this
        exact hdisj _ hq hp
  rw [h1, h2]

/-- Numbering the names keeps exactness. -/
theorem indsExact_of_names {N : ℕ → Finset ι} {out : Finset ι} {t : PTree} {order : List ι}
    {inds : ℕ → ISet} (hex : NamesExact N out t)
    (ho : ∀ x ∈ out, x ∈ order) (hNo : ∀ p ∈ t.postorder, ∀ x ∈ N p, x ∈ order)
    (hi : ∀ p ∈ t.postorder, inds p = (N p).image fun x => order.idxOf x) :
    IndsExact inds (out.image fun x => order.idxOf x) t := by
  intro K s hs i
  have hsub : Sub s t := hs ▸ sub_plug K s
  have hlp := K.leaves_plug s
  rw [← hs] at hlp
  have hsl : ∀ p ∈ s.leaves, p ∈ t.postorder := fun p hp =>
    t.leaves_subset p (hlp.mem_iff.2 (by simp [hp]))
  have hkl : ∀ p ∈ K.lvs, p ∈ t.postorder := fun p hp =>
    t.leaves_subset p (hlp.mem_iff.2 (by simp [hp]))
  have hroot : s.root ∈ t.postorder := sub_mem_postorder hsub _ s.root_mem
  have key : ∀ (S : Finset ι), (∀ x ∈ S, x ∈ order) → ∀ x ∈ order,
      (order.idxOf x ∈ S.image (fun x => order.idxOf x) ↔ x ∈ S) := by
    intro S hS x hx
    rw [Finset.mem_image]
    constructor
    · rintro ⟨y, hy, e⟩
      exact (List.idxOf_inj (hS y hy)).1 e ▸ hy
    · exact fun h => ⟨x, h, rfl⟩
  by_cases hx : ∃ x ∈ order, order.idxOf x = i
  · obtain ⟨x, hxo, rfl⟩ := hx
    rw [hi _ hroot, key _ (hNo _ hroot) x hxo, hex K s hs x, key _ ho x hxo]
    have e1 : (∃ p ∈ s.leaves, order.idxOf x ∈ inds p) ↔ ∃ p ∈ s.leaves, x ∈ N p := by
      refine exists_congr fun p => and_congr_right fun hp => ?_
      rw [hi p (hsl p hp), key _ (hNo p (hsl p hp)) x hxo]
    have e2 : (∃ p ∈ K.lvs, order.idxOf x ∈ inds p) ↔ ∃ p ∈ K.lvs, x ∈ N p := by
      refine exists_congr fun p => and_congr_right fun hp => ?_
      rw [hi p (hkl p hp), key _ (hNo p (hkl p hp)) x hxo]
    rw [e1, e2]
  · have no : ∀ p ∈ t.postorder, i ∉ inds p := by
      intro p hp h
      rw [hi p hp, Finset.mem_image] at h
      obtain ⟨x, hxp, e⟩ := h
      exact hx ⟨x, hNo p hp x hxp, e⟩
    constructor
    · intro h; exact absurd h (no _ hroot)
    · rintro ⟨⟨p, hp, h⟩, -⟩; exact absurd h (no p (hsl p hp))

theorem le_foldr_max (l : List ℕ) : ∀ x ∈ l, x ≤ l.foldr max 0 := by
  intro x hx
  induction l with
  | nil => simp at hx
  | cons y l ih =>
    rcases List.mem_cons.1 hx with rfl | hx
    · simp
    · simp [ih hx]

theorem foldr_max_le (l : List ℕ) (b : ℕ) (hb : ∀ x ∈ l, x ≤ b) : l.foldr max 0 ≤ b := by
  induction l with
  | nil => simp
  | cons y l ih => simp [hb y (by simp), ih fun x hx => hb x (by simp [hx])]

theorem le_foldr_max_succ (l : List ℕ) : ∀ x ∈ l, x + 1 ≤ l.foldr (fun x m => max (x + 1) m) 0 := by
  intro x hx
  induction l with
  | nil => simp at hx
  | cons y l ih =>
    rcases List.mem_cons.1 hx with rfl | hx
    · simp
    · have := ih hx; simp only [List.foldr_cons]; omega

theorem foldr_max_succ_le (l : List ℕ) (b : ℕ) (hb : ∀ x ∈ l, x + 1 ≤ b) :
    l.foldr (fun x m => max (x + 1) m) 0 ≤ b := by
  induction l with
  | nil => simp
  | cons y l ih =>
    have := hb y (by simp); have := ih fun x hx => hb x (by simp [hx])
    simp only [List.foldr_cons]; omega

theorem lt_maxInds {inds : List (List ℕ)} {xs : List ℕ} (h : xs ∈ inds) {x : ℕ} (hx : x ∈ xs) :
    x < maxInds inds := by
  have h1 := le_foldr_max_succ xs x hx
  have h2 := le_foldr_max (inds.map fun xs => xs.foldr (fun x m => max (x + 1) m) 0) _
    (List.mem_map_of_mem h)
  unfold maxInds
  omega

/-- The number of bits is the number of index names. -/
theorem maxInds_order (ts : List (List ι)) :
    maxInds (ts.map fun xs => xs.map fun x => (uniqueEverseen ts.flatten).idxOf x) =
      (uniqueEverseen ts.flatten).length := by
  apply le_antisymm
  · unfold maxInds
    refine foldr_max_le _ _ fun m hm => ?_
    simp only [List.map_map, List.mem_map, Function.comp] at hm
    obtain ⟨xs, hxs, rfl⟩ := hm
    refine foldr_max_succ_le _ _ fun i hi => ?_
    obtain ⟨x, hx, rfl⟩ := List.mem_map.1 hi
    have : x ∈ uniqueEverseen ts.flatten :=
      mem_uniqueEverseen.2 (List.mem_flatten.2 ⟨xs, hxs, hx⟩)
    exact List.idxOf_lt_length_of_mem this
  · by_contra hlt
    push Not at hlt
    set order := uniqueEverseen ts.flatten with ho
    set m := maxInds (ts.map fun xs => xs.map fun x => order.idxOf x)
    have hx : order[m] ∈ order := List.getElem_mem hlt
    obtain ⟨xs, hxs, hx'⟩ := List.mem_flatten.1 (mem_uniqueEverseen.1 hx)
    have := lt_maxInds (inds := ts.map fun xs => xs.map fun x => order.idxOf x)
      (List.mem_map_of_mem hxs) (List.mem_map_of_mem hx')
    have hnd : order.Nodup := uniqueEverseen_nodup _
    rw [hnd.idxOf_getElem m hlt] at this
    exact lt_irrefl _ this

theorem dims_ok_collapse (l : List ℕ) (n : ℕ) (hl : l.length = n) :
    ((Dims.vec l).collapse.ok n = true) ↔ ∀ d ∈ l, d ≠ 0 := by
  cases l with
  | nil => simp [Dims.collapse, Dims.ok] at *; exact hl
  | cons d l =>
    simp only [Dims.collapse]
    by_cases h : (l.all fun x => x == d) = true
    · rw [if_pos h]
      simp only [Dims.ok, bne_iff_ne, ne_eq, List.mem_cons, forall_eq_or_imp]
      simp only [List.all_eq_true, beq_iff_eq] at h
      constructor
      · intro h'; exact ⟨h', fun x hx => h x hx ▸ h'⟩
      · exact fun h' => h'.1
    · rw [if_neg h]
      simp only [Dims.ok, Bool.and_eq_true, beq_iff_eq, List.all_eq_true, bne_iff_ne, ne_eq]
      exact and_iff_right hl

theorem dims_get_collapse (l : List ℕ) (i : ℕ) (h : i < l.length) :
    (Dims.vec l).collapse.get i = l[i] := by
  cases l with
  | nil => simp at h
  | cons d l =>
    simp only [Dims.collapse]
    by_cases h' : (l.all fun x => x == d) = true
    · rw [if_pos h']
      simp only [List.all_eq_true, beq_iff_eq] at h'
      cases i with
      | zero => rfl
      | succ i =>
        simp only [Dims.get, List.getElem_cons_succ]
        exact (h' _ (List.getElem_mem _)).symm
    · rw [if_neg h']
      exact List.getD_eq_getElem _ _ h

end TNCO
