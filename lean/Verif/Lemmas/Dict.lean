import Verif.Model.Dict

/-! Lookups in dictionaries. -/

namespace TNCO
variable {κ ν : Type} [DecidableEq κ]

theorem dget_cons (e : κ × ν) (D : List (κ × ν)) (k : κ) : dget (e :: D) k = if e.1 = k then some e.2 else dget D k := by
  unfold dget
  rw [List.find?_cons]
  by_cases h : e.1 = k <;> simp [h]

theorem dget_none {D : List (κ × ν)} {k : κ} : dget D k = none ↔ k ∉ D.map Prod.fst := by
  induction D with
  | nil => simp [dget]
  | cons e D ih =>
    rw [dget_cons]
    by_cases h : e.1 = k
    · simp [h]
    · rw [if_neg h, ih]
      simp only [List.map_cons, List.mem_cons, not_or]
      exact ⟨fun h' => ⟨fun e => h e.symm, h'⟩, fun h' => h'.2⟩

theorem dget_append (D D' : List (κ × ν)) (k : κ) : dget (D ++ D') k = (dget D k).or (dget D' k) := by
  induction D with
  | nil => rfl
  | cons e D ih => rw [List.cons_append, dget_cons, dget_cons, ih]; split <;> rfl

theorem dget_mem {D : List (κ × ν)} {k : κ} {v : ν} (h : dget D k = some v) : (k, v) ∈ D := by
  induction D with
  | nil => simp [dget] at h
  | cons e D ih =>
    rw [dget_cons] at h
    split at h
    · rename_i he
      have : e = (k, v) := Prod.ext he (Option.some.inj h)
      rw [this]; exact List.mem_cons_self
    · exact List.mem_cons_of_mem _ (ih h)

theorem dget_of_mem {D : List (κ × ν)} (hn : (D.map Prod.fst).Nodup) {k : κ} {v : ν} (h : (k, v) ∈ D) : dget D k = some v := by
  induction D with
  | nil => simp at h
  | cons e D ih =>
    rw [List.map_cons, List.nodup_cons] at hn
    rw [dget_cons]
    rcases List.mem_cons.1 h with rfl | h
    · rw [if_pos rfl]
    · rw [if_neg, ih hn.2 h]
      rintro rfl
      exact hn.1 (List.mem_map.2 ⟨_, h, rfl⟩)

theorem dset_keys (D : List (κ × ν)) (k : κ) (v : ν) :
    (dset D k v).map Prod.fst = if k ∈ D.map Prod.fst then D.map Prod.fst else D.map Prod.fst ++ [k] := by
  unfold dset
  split
  · rw [List.map_map]
    refine List.map_congr_left fun e _ => ?_
    simp only [Function.comp_apply]
    split <;> rfl
  · simp

theorem dset_nodup {D : List (κ × ν)} (h : (D.map Prod.fst).Nodup) (k : κ) (v : ν) : ((dset D k v).map Prod.fst).Nodup := by
  rw [dset_keys]
  split
  · exact h
  · rename_i hk
    rw [List.nodup_append]
    exact ⟨h, by simp, fun x hx y hy => by rw [List.mem_singleton.1 hy]; rintro rfl; exact hk hx⟩

theorem dget_dset (D : List (κ × ν)) (k : κ) (v : ν) (k' : κ) : dget (dset D k v) k' = if k' = k then some v else dget D k' := by
  unfold dset
  by_cases hk : k ∈ D.map Prod.fst
  · rw [if_pos hk]
    induction D with
    | nil => simp at hk
    | cons e D ih =>
      rw [List.map_cons, dget_cons, dget_cons]
      by_cases he : e.1 = k
      · simp only [if_pos he]
        by_cases h : k' = k
        · rw [if_pos h, if_pos (he.trans h.symm)]
        · rw [if_neg h, if_neg (fun h' => h (h'.symm.trans he)), if_neg (fun h' => h (h'.symm.trans he))]
          by_cases hk2 : k ∈ D.map Prod.fst
          · rw [ih hk2, if_neg h]
          · congr 1
            conv_rhs => rw [← List.map_id D]
            refine List.map_congr_left fun x hx => ?_
            rw [if_neg]; rfl
            rintro rfl
            exact hk2 (List.mem_map.2 ⟨x, hx, rfl⟩)
      · simp only [if_neg he]
        have hk2 : k ∈ D.map Prod.fst := by
          rcases List.mem_cons.1 hk with h | h
          · exact absurd h.symm he
          · exact h
        rw [ih hk2]
        by_cases h : k' = k
        · rw [if_pos h, if_pos h, if_neg (fun h' => he (h'.trans h))]
        · rw [if_neg h, if_neg h]
  · rw [if_neg hk, dget_append, dget_cons]
    by_cases h : k' = k
    · rw [if_pos h, if_pos h.symm, h, dget_none.2 hk]; rfl
    · rw [if_neg h, if_neg (fun h' => h h'.symm)]
      cases dget D k' <;> rfl

theorem dget_dpop (D : List (κ × ν)) (k k' : κ) : dget (dpop D k) k' = if k' = k then none else dget D k' := by
  unfold dpop
  induction D with
  | nil => simp [dget]
  | cons e D ih =>
    rw [List.filter_cons]
    by_cases he : e.1 = k
    · rw [if_neg (by simpa using he), ih, dget_cons]
      by_cases h : k' = k
      · rw [if_pos h, if_pos h]
      · rw [if_neg h, if_neg h, if_neg (fun h' => h (h'.symm.trans he))]
    · rw [if_pos (by simpa using he), dget_cons, ih, dget_cons]
      by_cases h : k' = k
      · rw [if_pos h, if_pos h, if_neg (fun h' => he (h'.trans h))]
      · rw [if_neg h, if_neg h]

theorem dpop_keys (D : List (κ × ν)) (k : κ) : (dpop D k).map Prod.fst = (D.map Prod.fst).filter (· ≠ k) := by
  unfold dpop
  rw [List.filter_map]
  rfl

theorem dpop_nodup {D : List (κ × ν)} (h : (D.map Prod.fst).Nodup) (k : κ) : ((dpop D k).map Prod.fst).Nodup := by
  rw [dpop_keys]; exact h.filter _

/-- The value set last counts. -/
theorem dget_dupdate (D l : List (κ × ν)) (k : κ) : dget (dupdate D l) k = (dget l.reverse k).or (dget D k) := by
  unfold dupdate
  induction l generalizing D with
  | nil => rfl
  | cons e l ih =>
    rw [List.foldl_cons, ih, dget_dset, List.reverse_cons, dget_append, dget_cons]
    cases dget l.reverse k with
    | some v => rfl
    | none =>
      simp only [Option.none_or]
      by_cases h : k = e.1
      · rw [if_pos h, if_pos h.symm]; rfl
      · rw [if_neg h, if_neg (fun h' => h h'.symm)]; rfl

theorem dupdate_nodup {D : List (κ × ν)} (h : (D.map Prod.fst).Nodup) (l : List (κ × ν)) : ((dupdate D l).map Prod.fst).Nodup := by
  unfold dupdate
  induction l generalizing D with
  | nil => exact h
  | cons e l ih => exact ih (dset_nodup h _ _)

/-- Setting several keys to one value. -/
theorem dget_dupdate_const (D : List (κ × ν)) (l : List κ) (v : ν) (k : κ) :
    dget (dupdate D (l.map fun x => (x, v))) k = if k ∈ l then some v else dget D k := by
  induction l generalizing D with
  | nil => simp [dupdate]
  | cons a l ih =>
    have : dupdate D ((a :: l).map fun x => (x, v)) = dupdate (dset D a v) (l.map fun x => (x, v)) := rfl
    rw [this, ih, dget_dset]
    by_cases h : k ∈ l
    · rw [if_pos h, if_pos (by simp [h])]
    · rw [if_neg h]
      by_cases h2 : k = a
      · rw [if_pos h2, if_pos (by simp [h2])]
      · rw [if_neg h2, if_neg (by simp [h, h2])]

end TNCO
