import Verif.Lemmas.Held
import Verif.Spec.Muls
import Mathlib.Algebra.BigOperators.Group.Finset.Basic

/-! Counting the multiplications of `contract`. -/

namespace TNCO
variable {ι R : Type} [DecidableEq ι] [CommSemiring R]

theorem prod_map_toFinset {l : List ι} (h : l.Nodup) (d : ι → ℕ) : (l.map d).prod = ∏ x ∈ l.toFinset, d x := by
  rw [List.prod_toFinset d h]

theorem tensordotMuls_eq {ax ay : NDArray R} {xs ys hyper : List ι} {d : ι → ℕ}
    (sx : ax.shape = xs.map d) (sy : ay.shape = ys.map d) (hx : xs.Nodup) (hy : ys.Nodup) (hh : ∀ x ∈ hyper, x ∈ xs ∧ x ∈ ys) :
    tensordotMuls ax xs ay ys hyper = ∏ x ∈ xs.toFinset ∪ ys.toFinset, d x := by
  have mH : ∀ x, x ∈ uniqueEverseen hyper ↔ x ∈ hyper := fun x => mem_uniqueEverseen
  have nH := uniqueEverseen_nodup hyper
  have nX : (xs.filter (· ∉ ys)).Nodup := hx.filter _
  have nY : (ys.filter (· ∉ xs)).Nodup := hy.filter _
  have nS : (xs.filter fun x => x ∈ ys ∧ x ∉ hyper).Nodup := hx.filter _
  have n1 : (uniqueEverseen hyper ++ xs.filter (· ∉ ys) ++ xs.filter fun x => x ∈ ys ∧ x ∉ hyper).Nodup := by
    refine List.Nodup.append (List.Nodup.append nH nX ?_) nS ?_
    · intro x h1 h2
      simp only [List.mem_filter, decide_eq_true_eq] at h2
      exact h2.2 (hh x ((mH x).1 h1)).2
    · intro x h1 h2
      simp only [List.mem_filter, decide_eq_true_eq] at h2
      rcases List.mem_append.1 h1 with h | h
      · exact h2.2.2 ((mH x).1 h)
      · simp only [List.mem_filter, decide_eq_true_eq] at h; exact h.2 h2.2.1
  have p1 : (uniqueEverseen hyper ++ xs.filter (· ∉ ys) ++ xs.filter fun x => x ∈ ys ∧ x ∉ hyper).Perm xs := by
    refine perm_of_mem n1 hx fun x => ?_
    simp only [List.mem_append, mH, List.mem_filter, decide_eq_true_eq]
    constructor
    · rintro ((h | h) | h)
      · exact (hh x h).1
      · exact h.1
      · exact h.1
    · intro h; tauto
  have p2 : (uniqueEverseen hyper ++ (xs.filter fun x => x ∈ ys ∧ x ∉ hyper) ++ ys.filter (· ∉ xs)).Perm ys := by
    refine perm_of_mem ?_ hy fun x => ?_
    · refine List.Nodup.append (List.Nodup.append nH nS ?_) nY ?_
      · intro x h1 h2
        simp only [List.mem_filter, decide_eq_true_eq] at h2
        exact h2.2.2 ((mH x).1 h1)
      · intro x h1 h2
        simp only [List.mem_filter, decide_eq_true_eq] at h2
        rcases List.mem_append.1 h1 with h | h
        · exact h2.2 (hh x ((mH x).1 h)).1
        · exact h2.2 (List.mem_filter.1 h).1
    · simp only [List.mem_append, mH, List.mem_filter, decide_eq_true_eq]
      constructor
      · rintro ((h | h) | h)
        · exact (hh x h).2
        · exact h.2.1
        · exact h.1
      · intro h; tauto
  have eX : (OFS.make xs).iter = xs := uniqueEverseen_of_nodup hx
  have eY : (OFS.make ys).iter = ys := uniqueEverseen_of_nodup hy
  have hd : ∀ x, x ∈ xs ∨ x ∈ ys → dictLast (xs.zip ax.shape ++ ys.zip ay.shape) x = some (d x) := by
    intro x hx'
    rw [sx, sy]
    refine dictLast_eq ?_ ?_
    · intro p hp
      rcases List.mem_append.1 hp with h | h
      · rw [List.zip_map_right, List.zip_eq_zipWith, List.zipWith_self] at h
        simp only [List.map_map, List.mem_map] at h
        obtain ⟨a, -, rfl⟩ := h; rfl
      · rw [List.zip_map_right, List.zip_eq_zipWith, List.zipWith_self] at h
        simp only [List.map_map, List.mem_map] at h
        obtain ⟨a, -, rfl⟩ := h; rfl
    · rw [List.map_append, List.map_fst_zip (by simp), List.map_fst_zip (by simp)]
      exact List.mem_append.2 hx'
  obtain ⟨mx, a1, a2, -⟩ := toMatrix_spec (dims := dictLast (xs.zip ax.shape ++ ys.zip ay.shape)) sx hx p1 fun x h => hd x (Or.inl h)
  obtain ⟨my, b1, b2, -⟩ := toMatrix_spec (dims := dictLast (xs.zip ax.shape ++ ys.zip ay.shape)) sy hy p2 fun x h => hd x (Or.inr h)
  unfold tensordotMuls
  rw [dotPlan_ok hx hy hh]
  simp only [eX, eY, a1, b1, NDArray.matmulMuls, a2, b2]
  rw [← List.prod_append, ← List.prod_append, ← List.prod_append, ← List.map_append, ← List.map_append, ← List.map_append]
  rw [prod_map_toFinset]
  · refine Finset.prod_congr ?_ fun _ _ => rfl
    ext x
    simp only [List.mem_toFinset, List.mem_append, Finset.mem_union, mH, List.mem_filter, decide_eq_true_eq]
    have := hh x
    tauto
  · refine List.Nodup.append n1 nY ?_
    intro x h1 h2
    rw [p1.mem_iff] at h1
    simp only [List.mem_filter, decide_eq_true_eq] at h2
    exact h2.2 h1

/-- The multiplications of the loop, by the indices of the terms. -/
theorem loopMuls_eq {enum : Finset ι → List ι} (he : EnumOk enum) {d : ι → ℕ} {out : Finset ι} {tsInds : List (List ι)}
    (path : List (ℕ × ℕ)) {hc : ι → ℤ} {L : List ((NDArray R × List ι) × Term)} {F : List Term}
    (h : CInv d hc (L.map Prod.fst)) (hI : ∀ e ∈ L, ∀ x, x ∈ e.1.2 ↔ x ∈ termInds tsInds out e.2)
    (hT : ((L.map Prod.snd).flatMap Term.tensors).Perm (List.range tsInds.length))
    (hok : replay (L.map Prod.snd) path = some F) :
    (loopMuls enum out hc (L.map Prod.fst) path : ℤ) =
      ((trace (L.map Prod.snd) path).map (pairCost (nameCost d ∅ 0) tsInds out ∅)).sum := by
  induction path generalizing hc L with
  | nil => rfl
  | cons s path ih =>
    obtain ⟨x, y⟩ := s
    by_cases hxy : x = y
    · simp [replay, hxy] at hok
    · rw [replay_cons hxy, popPair_map] at hok
      rw [Linear.trace_cons hxy, popPair_map]
      unfold loopMuls
      rw [if_neg hxy, popPair_map]
      cases hp : popPair L x y with
      | none => rw [hp] at hok; simp at hok
      | some r =>
        obtain ⟨⟨⟨ax, xs⟩, ta⟩, ⟨⟨ay, ys⟩, tb⟩, rest⟩ := r
        have hperm := popPair_perm hp
        have hc1 : CInv d hc ((ax, xs) :: (ay, ys) :: rest.map Prod.fst) := h.perm (hperm.map Prod.fst)
        obtain ⟨c1, az, zs, c2, c3, c4, -, -, -⟩ := contract_step (out := out) he hc1
        rw [hp] at hok
        simp only [Option.map_some, Option.bind_some, c2] at hok ⊢
        have hT1 : ((ta :: tb :: rest.map Prod.snd).flatMap Term.tensors).Perm (List.range tsInds.length) :=
          ((hperm.map Prod.snd).flatMap_right _).symm.trans hT
        have ha := hI _ (hperm.mem_iff.2 (by simp : ((ax, xs), ta) ∈ _))
        have hb := hI _ (hperm.mem_iff.2 (by simp : ((ay, ys), tb) ∈ _))
        have hz : ∀ x, x ∈ zs ↔ x ∈ termInds tsInds out (.pair ta tb) := by
          intro w
          rw [step_inds he hc1 c3, mem_termInds_pair hT1, ha, hb]
          have : (∀ t ∈ rest.map Prod.fst, w ∉ t.2) ↔ ∀ t ∈ rest.map Prod.snd, w ∉ termInds tsInds out t := by
            simp only [List.mem_map, forall_exists_index, and_imp, forall_apply_eq_imp_iff₂]
            refine forall₂_congr fun e hm => ?_
            rw [hI e (hperm.mem_iff.2 (by simp [hm]))]
          rw [this]
        have := ih (L := rest ++ [((az, zs), .pair ta tb)]) (hc := lowerCount hc xs ys) (by simpa using c4) (by
          intro e hm
          rcases List.mem_append.1 hm with hm | hm
          · exact hI e (hperm.mem_iff.2 (by simp [hm]))
          · rw [List.mem_singleton] at hm; subst hm; exact hz) (by
          refine .trans ?_ hT1
          simp only [List.map_append, List.map_cons, List.map_nil, List.flatMap_append, List.flatMap_cons, List.flatMap_nil, List.append_nil,
            Term.tensors]
          exact List.perm_append_comm.trans (by simp)) (by simpa using hok)
        simp only [List.map_append, List.map_cons, List.map_nil] at this
        rw [List.map_cons, List.sum_cons, ← this, Nat.cast_add]
        congr 1
        rw [tensordotMuls_eq (hc1.shape (ax, xs) (by simp)) (hc1.shape (ay, ys) (by simp)) (hc1.nodup (ax, xs) (by simp))
          (hc1.nodup (ay, ys) (by simp)) (fun w hw => by
            rw [(he _).2] at hw
            unfold keptInds at hw
            simp only [Finset.mem_union, Finset.mem_filter, Finset.mem_inter, List.mem_toFinset] at hw
            rcases hw with hw | hw
            · exact hw.1
            · exact hw.2)]
        simp only [pairCost, nameCost, if_true, Finset.union_empty]
        have ea : xs.toFinset = termInds tsInds out ta := Finset.ext fun w => by rw [List.mem_toFinset]; exact ha w
        have eb : ys.toFinset = termInds tsInds out tb := Finset.ext fun w => by rw [List.mem_toFinset]; exact hb w
        rw [ea, eb]

end TNCO
