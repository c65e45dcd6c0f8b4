import Verif.Lemmas.RandomTensors
import Verif.Lemmas.Unique
import Mathlib.Order.Interval.Finset.Nat
import Mathlib.Algebra.Order.BigOperators.Group.Finset

/-! One connected component of the random networks. -/

namespace TNCO
variable {σ : Type} {g : GenRng σ} {enum : Finset ℕ → List ℕ}

/-- In how many tensors index `x` of a component is. -/
def degOf (nInds k nOut x : ℕ) : ℕ := if x < nInds - nOut then k else if x < nInds - nOut + nPlain k nOut then 1 else k - 1

/-- A component, with its indices numbered from 0. -/
structure CompOk (n nInds k nOut : ℕ) (c : List (List ℕ) × Finset ℕ) : Prop where
  length : c.1.length = n
  nodup : ∀ t ∈ c.1, t.Nodup
  nonempty : ∀ t ∈ c.1, t ≠ []
  lt : ∀ t ∈ c.1, ∀ x ∈ t, x < nInds
  deg : ∀ x < nInds, degree c.1 x = degOf nInds k nOut x
  outs : ∀ x, x ∈ c.2 ↔ x < nInds ∧ nInds - nOut ≤ x
  conn : 2 ≤ k → ∀ x < nInds, ∀ y < nInds, LinkedInds c.1 x y

theorem nPlain_add (k nOut : ℕ) : nPlain k nOut + nHyper k nOut = nOut := by
  unfold nPlain nHyper
  split <;> omega

theorem degOf_pos {nInds k nOut x : ℕ} (hk : 1 ≤ k) (hx : x < nInds) (ho : nOut ≤ nInds) : 0 < degOf nInds k nOut x := by
  unfold degOf
  have := nPlain_add k nOut
  split
  · omega
  · split
    · omega
    · have : nHyper k nOut ≠ 0 := by omega
      unfold nHyper at this
      split at this <;> omega

/-- The rows of an attempt. -/
theorem rows_ok {n nInds k nOut : ℕ} (hkn : k ≤ n) {G : Grow} (hG : GrowOk n k G) (hl : G.inds.length = n + 1 - k) (ho : n + 1 - k + nOut ≤ nInds)
    {r1 r2 r3 : List (List Owner)} (h1 : r1.length = nInds - (n + 1 - k) - nOut) (h1r : ∀ r ∈ r1, RowOk n k r ∧ none ∉ r)
    (h2 : r2.length = nPlain k nOut) (h2r : ∀ r ∈ r2, RowOk n 1 r ∧ none ∈ r)
    (h3 : r3.length = nHyper k nOut) (h3r : ∀ r ∈ r3, RowOk n (k - 1) r ∧ none ∈ r) :
    RowsOk n k (nInds - nOut) (degOf nInds k nOut) (G.inds ++ r1 ++ r2 ++ r3) := by
  have hu := hG.used
  have hfull : G.used = Finset.range n := by
    apply Finset.eq_of_subset_of_card_le hG.sub
    rw [Finset.card_range]; omega
  refine ⟨?_, ?_, ?_⟩
  · intro x row hx
    have hadd := nPlain_add k nOut
    have hlen : (G.inds ++ r1).length = nInds - nOut := by rw [List.length_append]; omega
    have hlen2 : (G.inds ++ r1 ++ r2).length = nInds - nOut + nPlain k nOut := by rw [List.length_append]; omega
    rcases Nat.lt_or_ge x (G.inds ++ r1 ++ r2).length with hx2 | hx2
    · rw [List.getElem?_append_left hx2] at hx
      rcases Nat.lt_or_ge x (G.inds ++ r1).length with hx1 | hx1
      · rw [List.getElem?_append_left hx1] at hx
        have hr : RowOk n k row ∧ none ∉ row := by
          rcases List.mem_append.1 (List.mem_of_getElem? hx) with h | h
          · exact hG.rows row h
          · exact h1r row h
        have e : degOf nInds k nOut x = k := by unfold degOf; rw [if_pos (by omega)]
        rw [e]
        exact ⟨hr.1, fun h => absurd h hr.2, fun h => by omega⟩
      · rw [List.getElem?_append_right hx1] at hx
        have hr := h2r row (List.mem_of_getElem? hx)
        have e : degOf nInds k nOut x = 1 := by unfold degOf; rw [if_neg (by omega), if_pos (by omega)]
        rw [e]
        exact ⟨hr.1, fun _ => by omega, fun _ => hr.2⟩
    · rw [List.getElem?_append_right hx2] at hx
      have hr := h3r row (List.mem_of_getElem? hx)
      have e : degOf nInds k nOut x = k - 1 := by unfold degOf; rw [if_neg (by omega), if_neg (by omega)]
      rw [e]
      exact ⟨hr.1, fun _ => by omega, fun _ => hr.2⟩
  · intro t ht
    obtain ⟨r, hr, hm⟩ := (hG.mem t).1 (hfull ▸ Finset.mem_range.2 ht)
    exact ⟨r, by simp [hr], hm⟩
  · intro hk t ht t' ht'
    exact RowConn.mono (fun r hr => by simp [hr]) (hG.conn hk t (hfull ▸ Finset.mem_range.2 ht) t' (hfull ▸ Finset.mem_range.2 ht'))

theorem forall₂_perm_countP {ts us : List (List ℕ)} (h : List.Forall₂ List.Perm ts us) (x : ℕ) : degree ts x = degree us x := by
  induction h with
  | nil => rfl
  | cons hp _ ih =>
    unfold degree at ih ⊢
    rw [List.countP_cons, List.countP_cons, ih]
    simp only [hp.mem_iff]

theorem forall₂_perm_left {ts us : List (List ℕ)} (h : List.Forall₂ List.Perm ts us) : ∀ t ∈ ts, ∃ u ∈ us, t.Perm u := by
  induction h with
  | nil => simp
  | cons hp _ ih =>
    intro t ht
    rcases List.mem_cons.1 ht with rfl | ht
    · exact ⟨_, by simp, hp⟩
    · obtain ⟨u, hu, h'⟩ := ih t ht
      exact ⟨u, by simp [hu], h'⟩

theorem forall₂_perm_right {ts us : List (List ℕ)} (h : List.Forall₂ List.Perm ts us) : ∀ u ∈ us, ∃ t ∈ ts, t.Perm u := by
  induction h with
  | nil => simp
  | cons hp _ ih =>
    intro t ht
    rcases List.mem_cons.1 ht with rfl | ht
    · exact ⟨_, by simp, hp⟩
    · obtain ⟨u, hu, h'⟩ := ih t ht
      exact ⟨u, by simp [hu], h'⟩

/-- The tensors made of the rows. -/
theorem comp_of_rows {n nInds k nOut : ℕ} (hk : 1 ≤ k) (ho : nOut ≤ nInds) {rows : List (List Owner)} (hlen : rows.length = nInds)
    (h : RowsOk n k (nInds - nOut) (degOf nInds k nOut) rows) :
    ((dget (byOwner rows) none).getD []).length = nOut ∧
    ∀ ts, List.Forall₂ List.Perm ts ((dpop (byOwner rows) none).map Prod.snd) → CompOk n nInds k nOut (ts, ((dget (byOwner rows) none).getD []).toFinset) := by
  have hnd : ∀ r ∈ rows, r.Nodup := by
    intro r hr
    obtain ⟨x, hx⟩ := List.mem_iff_getElem?.1 hr
    exact (h.row x r hx).1.nodup
  obtain ⟨hD, hk1, hk2, hk3⟩ := byOwner_spec hnd
  have hrow : ∀ x < nInds, ∃ row, rows[x]? = some row := fun x hx => ⟨_, List.getElem?_eq_getElem (hlen ▸ hx)⟩
  have hout : ∀ x, x ∈ (dget (byOwner rows) none).getD [] ↔ x < nInds ∧ nInds - nOut ≤ x := by
    intro x
    rw [hk3]
    constructor
    · rintro ⟨row, hr, hm⟩
      exact ⟨hlen ▸ (List.getElem?_eq_some_iff.1 hr).1, ((h.row x row hr).2).1 hm⟩
    · rintro ⟨hx, hx'⟩
      obtain ⟨row, hr⟩ := hrow x hx
      exact ⟨row, hr, ((h.row x row hr).2).2 hx'⟩
  refine ⟨?_, ?_⟩
  · rw [← List.toFinset_card_of_nodup (hk2 none)]
    have : ((dget (byOwner rows) none).getD []).toFinset = Finset.Ico (nInds - nOut) nInds := by
      ext x
      rw [List.mem_toFinset, hout, Finset.mem_Ico]
      exact and_comm
    rw [this, Nat.card_Ico]
    omega
  intro ts hts
  have hD' := dpop_nodup hD none
  have hkeys : ((dpop (byOwner rows) none).map Prod.fst).Perm ((List.range n).map some) := by
    refine (List.perm_ext_iff_of_nodup hD' (List.nodup_range.map (Option.some_injective _))).2 fun t => ?_
    rw [dpop_keys, List.mem_filter, hk1, List.mem_map]
    simp only [ne_eq, decide_not, Bool.not_eq_eq_eq_not, Bool.not_true, decide_eq_false_iff_not, List.mem_range]
    constructor
    · rintro ⟨⟨r, hr, hm⟩, hne⟩
      obtain ⟨x, hx⟩ := List.mem_iff_getElem?.1 hr
      cases t with
      | none => exact absurd rfl hne
      | some t => exact ⟨t, (h.row x r hx).1.lt t hm, rfl⟩
    · rintro ⟨t, ht, rfl⟩
      exact ⟨h.cover t ht, by simp⟩
  have hent : ∀ e ∈ dpop (byOwner rows) none, e.1 ≠ none ∧ e.2 = (dget (byOwner rows) e.1).getD [] := by
    intro e hm
    have h1 := dget_of_mem hD' (k := e.1) (v := e.2) hm
    rw [dget_dpop] at h1
    split at h1
    · exact absurd h1 (by simp)
    · rename_i hne
      exact ⟨hne, by rw [h1]; rfl⟩
  -- every tensor of the list
  have hmem : ∀ t ∈ ts, ∃ u, u < n ∧ t.Perm ((dget (byOwner rows) (some u)).getD []) := by
    intro t ht
    obtain ⟨v, hv, hp⟩ := forall₂_perm_left hts t ht
    obtain ⟨e, he, rfl⟩ := List.mem_map.1 hv
    have h1 : e.1 ∈ (List.range n).map some := hkeys.mem_iff.1 (List.mem_map_of_mem he)
    obtain ⟨u, hu, e1⟩ := List.mem_map.1 h1
    refine ⟨u, List.mem_range.1 hu, ?_⟩
    rw [e1, ← (hent e he).2]
    exact hp
  have hmem' : ∀ u < n, ∃ t ∈ ts, t.Perm ((dget (byOwner rows) (some u)).getD []) := by
    intro u hu
    have h1 : some u ∈ (dpop (byOwner rows) none).map Prod.fst := hkeys.mem_iff.2 (List.mem_map_of_mem (List.mem_range.2 hu))
    obtain ⟨e, he, e1⟩ := List.mem_map.1 h1
    obtain ⟨t, ht, hp⟩ := forall₂_perm_right hts e.2 (List.mem_map_of_mem he)
    refine ⟨t, ht, ?_⟩
    rw [← e1, ← (hent e he).2]
    exact hp
  have hdeg : ∀ x < nInds, degree ts x = degOf nInds k nOut x := by
    intro x hx
    obtain ⟨row, hr⟩ := hrow x hx
    obtain ⟨hro, -⟩ := h.row x row hr
    rw [forall₂_perm_countP hts, ← hro.size]
    unfold degree
    rw [List.countP_map]
    have e1 : List.countP ((fun t => decide (x ∈ t)) ∘ Prod.snd) (dpop (byOwner rows) none)
        = List.countP ((fun t => decide (t ∈ row)) ∘ Prod.fst) (dpop (byOwner rows) none) := by
      apply List.countP_congr
      intro e he
      simp only [Function.comp, decide_eq_true_eq]
      rw [(hent e he).2, hk3]
      constructor
      · rintro ⟨row', hr', hm⟩
        rw [hr] at hr'
        cases hr'
        exact hm
      · exact fun hm => ⟨row, hr, hm⟩
    rw [e1, ← List.countP_map, hkeys.countP_eq, List.countP_eq_length_filter]
    apply List.Perm.length_eq
    refine (List.perm_ext_iff_of_nodup ((List.nodup_range.map (Option.some_injective _)).filter _) (hro.nodup.filter _)).2 fun t => ?_
    rw [List.mem_filter, List.mem_filter, List.mem_map, decide_eq_true_eq]
    constructor
    · rintro ⟨⟨u, -, rfl⟩, hm⟩
      exact ⟨hm, rfl⟩
    · rintro ⟨hm, hs⟩
      cases t with
      | none => simp at hs
      | some t => exact ⟨⟨t, List.mem_range.2 (hro.lt t hm), rfl⟩, hm⟩
  refine ⟨?_, ?_, ?_, ?_, hdeg, ?_, ?_⟩
  · show ts.length = n
    rw [hts.length_eq, List.length_map, ← List.length_map (f := Prod.fst), hkeys.length_eq, List.length_map, List.length_range]
  · intro t ht
    obtain ⟨u, -, hp⟩ := hmem t ht
    exact hp.nodup_iff.2 (hk2 _)
  · intro t ht
    obtain ⟨u, hu, hp⟩ := hmem t ht
    obtain ⟨r, hr, hm⟩ := h.cover u hu
    obtain ⟨x, hx⟩ := List.mem_iff_getElem?.1 hr
    have : x ∈ t := hp.mem_iff.2 ((hk3 _ _).2 ⟨r, hx, hm⟩)
    exact List.ne_nil_of_mem this
  · intro t ht x hx
    obtain ⟨u, hu, hp⟩ := hmem t ht
    obtain ⟨r, hr, -⟩ := (hk3 _ _).1 (hp.mem_iff.1 hx)
    exact hlen ▸ (List.getElem?_eq_some_iff.1 hr).1
  · intro x
    show x ∈ ((dget (byOwner rows) none).getD []).toFinset ↔ _
    rw [List.mem_toFinset, hout]
  · intro h2 x hx y hy
    have hone : ∀ x < nInds, ∃ u < n, x ∈ (dget (byOwner rows) (some u)).getD [] := by
      intro x hx
      have := degOf_pos hk hx ho
      rw [← hdeg x hx] at this
      obtain ⟨t, ht, hm⟩ := List.countP_pos_iff.1 this
      obtain ⟨u, hu, hp⟩ := hmem t ht
      exact ⟨u, hu, hp.mem_iff.1 (by simpa using hm)⟩
    have htouch : ∀ u < n, ∀ x y, x ∈ (dget (byOwner rows) (some u)).getD [] → y ∈ (dget (byOwner rows) (some u)).getD [] → LinkedInds ts x y := by
      intro u hu x y hx hy
      obtain ⟨t, ht, hp⟩ := hmem' u hu
      exact .single ⟨t, ht, hp.mem_iff.2 hx, hp.mem_iff.2 hy⟩
    obtain ⟨u, hu, hxu⟩ := hone x hx
    obtain ⟨v, hv, hyv⟩ := hone y hy
    have hc := h.conn h2 u hu v hv
    clear hv
    induction hc generalizing y with
    | refl => exact htouch u hu x y hxu hyv
    | tail _ hab ih =>
      obtain ⟨r, hr, h3, h4⟩ := hab
      obtain ⟨z, hz⟩ := List.mem_iff_getElem?.1 hr
      have hzl : z < nInds := hlen ▸ (List.getElem?_eq_some_iff.1 hz).1
      refine (ih z hzl ((hk3 _ _).2 ⟨r, hz, h3⟩)).trans ?_
      exact htouch _ ((h.row z r hz).1.lt _ h4) z y ((hk3 _ _).2 ⟨r, hz, h4⟩) hyv

/-- An attempt gives a component, whatever the generator. -/
theorem attempt_ok (hg : g.Ok) (he : EnumOk enum) {n nInds k nOut : ℕ} (hk : 1 ≤ k) (hkn : k ≤ n) (ho : n + 1 - k + nOut ≤ nInds) (s : σ) :
    ∃ c s', attempt g enum n nInds k nOut s = .ok (c, s') ∧ CompOk n nInds k nOut c := by
  obtain ⟨G0, s0, a1, a2, a3⟩ := growInit_ok hg he hkn s
  have hu0 := a2.used
  obtain ⟨G, s1, b1, b2, b3⟩ := growLoop_ok hg he hk (n - k) a2 (by omega) (by omega) s0
  have hu := b2.used
  obtain ⟨r1, s2, c1, c2, c3⟩ := innerRows_ok hg hkn ((nInds : ℤ) - G.inds.length - nOut).toNat s1
  obtain ⟨r2, s3, d1, d2, d3⟩ := outRows_ok hg (by omega : 0 < n) (nPlain k nOut) s2
  obtain ⟨r3, s4, e1, e2, e3⟩ := hyperRows_ok hg hkn hk (nHyper k nOut) s3
  have hadd := nPlain_add k nOut
  have hrows := rows_ok hkn b2 (by omega) ho (by omega) c3 d2 d3 e2 e3
  have hlen : (G.inds ++ r1 ++ r2 ++ r3).length = nInds := by
    simp only [List.length_append]
    omega
  obtain ⟨f1, f2⟩ := comp_of_rows hk (by omega) hlen hrows
  obtain ⟨ts, s5, p1, p2⟩ := permuteAll_ok hg ((dpop (byOwner (G.inds ++ r1 ++ r2 ++ r3)) none).map Prod.snd) s4
  have hfull : G.used = Finset.range n := by
    apply Finset.eq_of_subset_of_card_le b2.sub
    rw [Finset.card_range]; omega
  refine ⟨_, s5, ?_, f2 ts p2⟩
  have as1 : pyAssert (G.used = Finset.range n ∧ G.avail = ∅ ∧ G.inds.flatten.toFinset = (Finset.range n).image some) = .ok () := by
    unfold pyAssert
    rw [if_pos]
    refine ⟨hfull, by rw [b2.avail, hfull, Finset.sdiff_self], ?_⟩
    ext o
    rw [List.mem_toFinset, List.mem_flatten, Finset.mem_image]
    constructor
    · rintro ⟨r, hr, hm⟩
      cases o with
      | none => exact absurd hm (b2.rows r hr).2
      | some t => exact ⟨t, hfull ▸ (b2.mem t).2 ⟨r, hr, hm⟩, rfl⟩
    · rintro ⟨t, ht, rfl⟩
      exact (b2.mem t).1 (hfull ▸ ht)
  have as2 : pyAssert ((G.inds.length : ℤ) = (n : ℤ) + 1 - k) = .ok () := by
    unfold pyAssert
    rw [if_pos (by omega)]
  have as3 : pyAssert ((G.inds ++ r1 ++ r2 ++ r3).length = nInds) = .ok () := by
    unfold pyAssert
    rw [if_pos hlen]
  have as4 : pyAssert (((dget (byOwner (G.inds ++ r1 ++ r2 ++ r3)) none).getD []).length = nOut) = .ok () := by
    unfold pyAssert
    rw [if_pos f1]
  simp only [attempt, a1, b1, bind, Except.bind, as1, as2, c1, d1, e1, as3, as4, p1]

end TNCO
