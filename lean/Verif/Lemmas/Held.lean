import Verif.Props.Contract
import Verif.Spec.Slice
import Verif.Spec.PathCost
import Verif.Lemmas.Trace

/-! The arrays `contract` holds have the indices that the cost of a path counts. -/

namespace TNCO
variable {ι R : Type} [DecidableEq ι] [CommSemiring R]

theorem mem_termInds {tsInds : List (List ι)} {out : Finset ι} {t : Term} {x : ι} :
    x ∈ termInds tsInds out t ↔ (∃ p ∈ t.tensors, x ∈ tsInds.getD p []) ∧ Survives tsInds out t.tensors x := by
  unfold termInds
  simp

/-- The indices of the contraction of two of the terms which cover a network. -/
theorem mem_termInds_pair {tsInds : List (List ι)} {out : Finset ι} {a b : Term} {rest : List Term}
    (hp : ((a :: b :: rest).flatMap Term.tensors).Perm (List.range tsInds.length)) (x : ι) :
    x ∈ termInds tsInds out (.pair a b) ↔ (x ∈ termInds tsInds out a ∨ x ∈ termInds tsInds out b) ∧
      ¬ (x ∈ termInds tsInds out a ∧ x ∈ termInds tsInds out b ∧ (∀ t ∈ rest, x ∉ termInds tsInds out t) ∧ x ∉ out) := by
  have hn := hp.nodup_iff.2 List.nodup_range
  have hm : ∀ k, (k ∈ a.tensors ∨ k ∈ b.tensors ∨ ∃ t ∈ rest, k ∈ t.tensors) ↔ k < tsInds.length := by
    intro k
    rw [← List.mem_range, ← hp.mem_iff]
    simp
  simp only [List.flatMap_cons, List.nodup_append, List.mem_append, List.mem_flatMap] at hn
  obtain ⟨-, ⟨-, -, hbr⟩, hab⟩ := hn
  have dab : ∀ k, k ∈ a.tensors → k ∉ b.tensors := fun k h1 h2 => hab k h1 k (Or.inl h2) rfl
  have dar : ∀ k, k ∈ a.tensors → ∀ t ∈ rest, k ∉ t.tensors := fun k h1 t ht h2 => hab k h1 k (Or.inr ⟨t, ht, h2⟩) rfl
  have dbr : ∀ k, k ∈ b.tensors → ∀ t ∈ rest, k ∉ t.tensors := fun k h1 t ht h2 => hbr k h1 k ⟨t, ht, h2⟩ rfl
  have la : ∀ k ∈ a.tensors, k < tsInds.length := fun k h => (hm k).1 (Or.inl h)
  have lb : ∀ k ∈ b.tensors, k < tsInds.length := fun k h => (hm k).1 (Or.inr (Or.inl h))
  simp only [mem_termInds, Term.tensors, List.mem_append, not_and, not_not, not_forall]
  constructor
  · rintro ⟨⟨p, hpm, hpx⟩, hs⟩
    have sa : (∃ p ∈ a.tensors, x ∈ tsInds.getD p []) → Survives tsInds out a.tensors x := by
      rintro -
      rcases hs with hs | ⟨q, hq, hqm, hqx⟩ | hs
      · exact Or.inl hs
      · exact Or.inr (Or.inl ⟨q, hq, fun h => hqm (List.mem_append_left _ h), hqx⟩)
      · exact Or.inr (Or.inr hs)
    have sb : (∃ p ∈ b.tensors, x ∈ tsInds.getD p []) → Survives tsInds out b.tensors x := by
      rintro -
      rcases hs with hs | ⟨q, hq, hqm, hqx⟩ | hs
      · exact Or.inl hs
      · exact Or.inr (Or.inl ⟨q, hq, fun h => hqm (List.mem_append_right _ h), hqx⟩)
      · exact Or.inr (Or.inr hs)
    refine ⟨?_, ?_⟩
    · rcases hpm with hpm | hpm
      · exact Or.inl ⟨⟨p, hpm, hpx⟩, sa ⟨p, hpm, hpx⟩⟩
      · exact Or.inr ⟨⟨p, hpm, hpx⟩, sb ⟨p, hpm, hpx⟩⟩
    · rintro ⟨⟨pa, ha, hax⟩, -⟩ ⟨⟨pb, hb, hbx⟩, -⟩ hr
      rcases hs with hs | ⟨q, hq, hqm, hqx⟩ | hs
      · exact hs
      · rcases (hm q).2 hq with h1 | h1 | ⟨t, ht, h1⟩
        · exact absurd (List.mem_append_left _ h1) hqm
        · exact absurd (List.mem_append_right _ h1) hqm
        · exact absurd (Or.inr (Or.inl ⟨pa, la pa ha, dar pa ha t ht, hax⟩)) (hr t ht ⟨q, h1, hqx⟩)
      · have := hs pa (la pa ha) pb (lb pb hb) ⟨hax, hbx⟩
        exact absurd (this ▸ hb) (dab pa ha)
  · rintro ⟨h1, h2⟩
    have key : ∀ {c e : Term}, (∀ k, k ∈ c.tensors → k ∉ e.tensors) → (∀ k ∈ c.tensors, k < tsInds.length) →
        (∀ k ∈ e.tensors, k < tsInds.length) →
        ((∃ p ∈ c.tensors, x ∈ tsInds.getD p []) ∧ Survives tsInds out c.tensors x) →
        (((∃ p ∈ c.tensors, x ∈ tsInds.getD p []) ∧ Survives tsInds out c.tensors x) →
          ((∃ p ∈ e.tensors, x ∈ tsInds.getD p []) ∧ Survives tsInds out e.tensors x) →
          (∀ t ∈ rest, (∃ p ∈ t.tensors, x ∈ tsInds.getD p []) → ¬ Survives tsInds out t.tensors x) → x ∈ out) →
        (∀ k, (k ∈ c.tensors ∨ k ∈ e.tensors ∨ ∃ t ∈ rest, k ∈ t.tensors) ↔ k < tsInds.length) →
        (∀ k, k ∈ c.tensors → ∀ t ∈ rest, k ∉ t.tensors) → (∀ k, k ∈ e.tensors → ∀ t ∈ rest, k ∉ t.tensors) →
        x ∈ out ∨ (∃ q < tsInds.length, (q ∉ c.tensors ∧ q ∉ e.tensors) ∧ x ∈ tsInds.getD q []) ∨
          ∀ p < tsInds.length, ∀ q < tsInds.length, x ∈ tsInds.getD p [] ∧ x ∈ tsInds.getD q [] → p = q := by
      rintro c e dce lc le ⟨⟨p, hpm, hpx⟩, hs⟩ h2 hm dcr der
      rcases hs with hs | ⟨q, hq, hqm, hqx⟩ | hs
      · exact Or.inl hs
      · by_cases hqe : q ∈ e.tensors
        · by_cases hr : ∀ t ∈ rest, (∃ p ∈ t.tensors, x ∈ tsInds.getD p []) → ¬ Survives tsInds out t.tensors x
          · exact Or.inl (h2 ⟨⟨p, hpm, hpx⟩, Or.inr (Or.inl ⟨q, hq, hqm, hqx⟩)⟩
              ⟨⟨q, hqe, hqx⟩, Or.inr (Or.inl ⟨p, lc p hpm, dce p hpm, hpx⟩)⟩ hr)
          · push Not at hr
            obtain ⟨t, ht, ⟨r, hrm, hrx⟩, -⟩ := hr
            exact Or.inr (Or.inl ⟨r, (hm r).1 (Or.inr (Or.inr ⟨t, ht, hrm⟩)), ⟨fun h => dcr r h t ht hrm, fun h => der r h t ht hrm⟩, hrx⟩)
        · exact Or.inr (Or.inl ⟨q, hq, ⟨hqm, hqe⟩, hqx⟩)
      · exact Or.inr (Or.inr hs)
    have h2' : ((∃ p ∈ a.tensors, x ∈ tsInds.getD p []) ∧ Survives tsInds out a.tensors x) →
          ((∃ p ∈ b.tensors, x ∈ tsInds.getD p []) ∧ Survives tsInds out b.tensors x) →
          (∀ t ∈ rest, (∃ p ∈ t.tensors, x ∈ tsInds.getD p []) → ¬ Survives tsInds out t.tensors x) → x ∈ out :=
      fun u v w => h2 u v w
    constructor
    · rcases h1 with ⟨⟨p, hpm, hpx⟩, -⟩ | ⟨⟨p, hpm, hpx⟩, -⟩
      · exact ⟨p, Or.inl hpm, hpx⟩
      · exact ⟨p, Or.inr hpm, hpx⟩
    · unfold Survives
      simp only [List.mem_append, not_or]
      rcases h1 with h1 | h1
      · exact key dab la lb h1 h2' hm dar dbr
      · rcases key (c := b) (e := a) (fun k u v => dab k v u) lb la h1 (fun u v w => h2' v u w)
          (fun k => by rw [← hm k]; tauto) dbr dar with h | ⟨q, hq, ⟨q1, q2⟩, hqx⟩ | h
        · exact Or.inl h
        · exact Or.inr (Or.inl ⟨q, hq, ⟨q2, q1⟩, hqx⟩)
        · exact Or.inr (Or.inr h)

/-- The indices of the result of a step. -/
theorem step_inds {enum : Finset ι → List ι} (he : EnumOk enum) {d : ι → ℕ} {hc : ι → ℤ} {out : Finset ι}
    {ax ay : NDArray R} {xs ys zs : List ι} {rest : List (NDArray R × List ι)}
    (h : CInv d hc ((ax, xs) :: (ay, ys) :: rest))
    (hz : tensordotInds xs ys (enum (keptInds hc out xs ys)) = .ok zs) (x : ι) :
    x ∈ zs ↔ (x ∈ xs ∨ x ∈ ys) ∧ ¬ (x ∈ xs ∧ x ∈ ys ∧ (∀ t ∈ rest, x ∉ t.2) ∧ x ∉ out) := by
  have nx : xs.Nodup := h.nodup (ax, xs) (by simp)
  have ny : ys.Nodup := h.nodup (ay, ys) (by simp)
  have hheld : heldL ((ax, xs) :: (ay, ys) :: rest) = xs ++ (ys ++ heldL rest) := by simp [heldL]
  have hr : x ∈ heldL rest ↔ ∃ t ∈ rest, x ∈ t.2 := by
    unfold heldL
    rw [List.mem_flatten]
    constructor
    · rintro ⟨l, hl, hx⟩
      obtain ⟨t, ht, rfl⟩ := List.mem_map.1 hl
      exact ⟨t, ht, hx⟩
    · rintro ⟨t, ht, hx⟩
      exact ⟨t.2, List.mem_map_of_mem ht, hx⟩
  have hk : ∀ x, x ∈ enum (keptInds hc out xs ys) ↔ x ∈ xs ∧ x ∈ ys ∧ (x ∈ heldL rest ∨ x ∈ out) := by
    intro x
    rw [(he _).2]
    unfold keptInds
    simp only [Finset.mem_union, Finset.mem_filter, Finset.mem_inter, List.mem_toFinset]
    have hsh : x ∈ xs → x ∈ ys → hc x = 1 + ((heldL rest).count x : ℤ) := by
      intro h1 h2
      rw [h.count x (by rw [hheld]; simp [h1]), hheld, List.count_append, List.count_append, count_of_nodup nx, count_of_nodup ny,
        if_pos h1, if_pos h2]
      push_cast; omega
    have hcp : x ∈ heldL rest ↔ 0 < (heldL rest).count x := List.count_pos_iff.symm
    constructor
    · rintro (⟨⟨h1, h2⟩, h3⟩ | ⟨h1, h2, h3⟩)
      · refine ⟨h1, h2, Or.inl ?_⟩
        rw [hsh h1 h2] at h3
        exact hcp.2 (by omega)
      · exact ⟨h2, h3, Or.inr h1⟩
    · rintro ⟨h1, h2, h3 | h3⟩
      · refine Or.inl ⟨⟨h1, h2⟩, ?_⟩
        rw [hsh h1 h2]
        have := hcp.1 h3
        omega
      · exact Or.inr ⟨h3, h1, h2⟩
  rw [C32_order xs ys _ nx ny (fun y hy => ⟨((hk y).1 hy).1, ((hk y).1 hy).2.1⟩) (he _).1] at hz
  cases hz
  simp only [List.mem_append, hk, List.mem_filter, decide_eq_true_eq, hr]
  have hnr : (∀ t ∈ rest, x ∉ t.2) ↔ ¬ ∃ t ∈ rest, x ∈ t.2 := by push Not; rfl
  rw [hnr]
  generalize (∃ t ∈ rest, x ∈ t.2) = r
  by_cases h1 : x ∈ xs <;> by_cases h2 : x ∈ ys <;> by_cases h3 : x ∈ out <;> by_cases h4 : r <;> simp [h1, h2, h3, h4]

/-- The loop of `contract`: every array has the indices of its term. -/
theorem held_loop {enum : Finset ι → List ι} (he : EnumOk enum) {d : ι → ℕ} {out : Finset ι} {tsInds : List (List ι)}
    (path : List (ℕ × ℕ)) {hc : ι → ℤ} {L : List ((NDArray R × List ι) × Term)} {ts' : List (NDArray R × List ι)}
    (h : CInv d hc (L.map Prod.fst)) (hI : ∀ e ∈ L, ∀ x, x ∈ e.1.2 ↔ x ∈ termInds tsInds out e.2)
    (hT : ((L.map Prod.snd).flatMap Term.tensors).Perm (List.range tsInds.length))
    (hok : contractLoop enum out hc (L.map Prod.fst) path = .ok ts') :
    ∃ L' : List ((NDArray R × List ι) × Term), ts' = L'.map Prod.fst ∧ replay (L.map Prod.snd) path = some (L'.map Prod.snd) ∧
      (∀ e ∈ L', ∀ x, x ∈ e.1.2 ↔ x ∈ termInds tsInds out e.2) := by
  induction path generalizing hc L with
  | nil =>
    simp only [contractLoop, Except.ok.injEq] at hok
    exact ⟨L, hok.symm, rfl, hI⟩
  | cons s path ih =>
    obtain ⟨x, y⟩ := s
    by_cases hxy : x = y
    · simp [contractLoop, hxy] at hok
    · rw [replay_cons hxy]
      unfold contractLoop at hok
      rw [if_neg hxy, popPair_map] at hok
      rw [popPair_map]
      cases hp : popPair L x y with
      | none => rw [hp] at hok; simp at hok
      | some r =>
        obtain ⟨⟨⟨ax, xs⟩, ta⟩, ⟨⟨ay, ys⟩, tb⟩, rest⟩ := r
        have hperm := popPair_perm hp
        have hc1 : CInv d hc ((ax, xs) :: (ay, ys) :: rest.map Prod.fst) := h.perm (hperm.map Prod.fst)
        obtain ⟨c1, az, zs, c2, c3, c4, -, -, -⟩ := contract_step (out := out) he hc1
        rw [hp] at hok
        simp only [Option.map_some, c1, c2, Bool.not_true, Bool.false_eq_true, if_false] at hok
        have hT1 : ((ta :: tb :: rest.map Prod.snd).flatMap Term.tensors).Perm (List.range tsInds.length) :=
          ((hperm.map Prod.snd).flatMap_right _).symm.trans hT
        have hz : ∀ x, x ∈ zs ↔ x ∈ termInds tsInds out (.pair ta tb) := by
          intro w
          rw [step_inds he hc1 c3, mem_termInds_pair hT1, hI _ (hperm.mem_iff.2 (by simp : ((ax, xs), ta) ∈ _)),
            hI _ (hperm.mem_iff.2 (by simp : ((ay, ys), tb) ∈ _))]
          have : (∀ t ∈ rest.map Prod.fst, w ∉ t.2) ↔ ∀ t ∈ rest.map Prod.snd, w ∉ termInds tsInds out t := by
            simp only [List.mem_map, forall_exists_index, and_imp, forall_apply_eq_imp_iff₂]
            refine forall₂_congr fun e hm => ?_
            rw [hI e (hperm.mem_iff.2 (by simp [hm]))]
          rw [this]
        have := ih (L := rest ++ [((az, zs), .pair ta tb)]) (hc := lowerCount hc xs ys) (by simpa using c4) (by
          intro e hm
          rcases List.mem_append.1 hm with hm | hm
          · exact hI e (hperm.mem_iff.2 (by simp [hm]))
          · rw [List.mem_singleton] at hm; subst hm; exact hz) (by
          refine .trans ?_ hT1
          simp only [List.map_append, List.map_cons, List.map_nil, List.flatMap_append, List.flatMap_cons, List.flatMap_nil, List.append_nil,
            Term.tensors]
          exact List.perm_append_comm.trans (by simp)) (by simpa using hok)
        simpa using this

end TNCO
