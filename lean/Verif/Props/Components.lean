import Verif.Model.Components
import Verif.Lemmas.Dict
import Verif.Lemmas.Unique
import Mathlib.Logic.Relation
import Mathlib.Data.Finset.Basic

/-! # C49: connected components -/

namespace TNCO
variable {I : Type} [DecidableEq I]

/-- Two indices of a common tensor. -/
def Touch (ts : List (List I)) (x y : I) : Prop := ∃ t ∈ ts, x ∈ t ∧ y ∈ t

/-- Indices connected through tensors. -/
def LinkedInds (ts : List (List I)) : I → I → Prop := Relation.ReflTransGen (Touch ts)

/-- Tensors `i` and `j` share an index. -/
def Adjacent (ts : List (List I)) (i j : ℕ) : Prop := ∃ s t x, ts[i]? = some s ∧ ts[j]? = some t ∧ x ∈ s ∧ x ∈ t

/-- Tensors connected through shared indices. -/
def ConnectedPos (ts : List (List I)) : ℕ → ℕ → Prop := Relation.ReflTransGen (Adjacent ts)

theorem LinkedInds.symm {ts : List (List I)} {x y : I} (h : LinkedInds ts x y) : LinkedInds ts y x := by
  induction h with
  | refl => exact .refl
  | tail _ hab ih =>
    obtain ⟨t, ht, h1, h2⟩ := hab
    exact Relation.ReflTransGen.head ⟨t, ht, h2, h1⟩ ih

theorem LinkedInds.mono {ts us : List (List I)} (hs : ∀ t ∈ ts, t ∈ us) {x y : I} (h : LinkedInds ts x y) : LinkedInds us x y := by
  induction h with
  | refl => exact .refl
  | tail _ hab ih =>
    obtain ⟨t, ht, h1⟩ := hab
    exact ih.tail ⟨t, hs t ht, h1⟩

/-- Indices of connected tensors are linked, and the other way round. -/
theorem connected_iff_linked (ts : List (List I)) {i j : ℕ} {s t : List I} {x y : I} (hi : ts[i]? = some s) (hj : ts[j]? = some t)
    (hx : x ∈ s) (hy : y ∈ t) : ConnectedPos ts i j ↔ LinkedInds ts x y := by
  have one : ∀ {u : List I} {a b : I}, u ∈ ts → a ∈ u → b ∈ u → LinkedInds ts a b := fun hu ha hb => Relation.ReflTransGen.single ⟨_, hu, ha, hb⟩
  constructor
  · intro h
    induction h generalizing t y with
    | refl =>
      rw [hi] at hj; cases hj
      exact one (List.mem_of_getElem? hi) hx hy
    | tail _ hab ih =>
      obtain ⟨u, v, z, h1, h2, h3, h4⟩ := hab
      rw [hj] at h2; cases h2
      exact (ih h1 h3).trans (one (List.mem_of_getElem? hj) h4 hy)
  · intro h
    induction h generalizing j t with
    | refl => exact Relation.ReflTransGen.single ⟨s, t, x, hi, hj, hx, hy⟩
    | tail _ hab ih =>
      obtain ⟨u, hu, h1, h2⟩ := hab
      obtain ⟨k, hk⟩ := List.mem_iff_getElem?.1 hu
      exact (ih hk h1).tail ⟨u, t, _, hk, hj, h2, hy⟩

/-- The colors of the indices are those of the components. -/
structure IndexColors.Inv (st : IndexColors I) (ts : List (List I)) : Prop where
  seen : ∀ x, (∃ c, dget st.index2color x = some c) ↔ ∃ t ∈ ts, x ∈ t
  same : ∀ x y c d, dget st.index2color x = some c → dget st.index2color y = some d → (c = d ↔ LinkedInds ts x y)
  set : ∀ c S, dget st.color2index c = some S → ∀ x, x ∈ S ↔ dget st.index2color x = some c
  known : ∀ x c, dget st.index2color x = some c → ∃ S, dget st.color2index c = some S
  nodup : (st.index2color.map Prod.fst).Nodup

theorem mem_tensorColors {st : IndexColors I} {inds : List I} {c : ℕ} : c ∈ tensorColors st inds ↔ ∃ x ∈ inds, dget st.index2color x = some c := by
  unfold tensorColors
  rw [mem_uniqueEverseen, List.mem_filterMap]

theorem mem_mergedInds {st : IndexColors I} {ts : List (List I)} (h : st.Inv ts) {inds : List I} {x : I} :
    x ∈ mergedInds st inds ↔ x ∈ inds ∨ ∃ c ∈ tensorColors st inds, dget st.index2color x = some c := by
  have key : ∀ (cs : List ℕ) (s : Finset I), (∀ c ∈ cs, ∃ S, dget st.color2index c = some S) →
      (x ∈ cs.foldl (fun s c => s ∪ (dget st.color2index c).getD ∅) s ↔ x ∈ s ∨ ∃ c ∈ cs, dget st.index2color x = some c) := by
    intro cs
    induction cs with
    | nil => intro s _; simp
    | cons c cs ih =>
      intro s hc
      rw [List.foldl_cons, ih _ fun c h => hc c (List.mem_cons_of_mem _ h)]
      obtain ⟨S, hS⟩ := hc c List.mem_cons_self
      rw [hS, Option.getD_some, Finset.mem_union, h.set c S hS x]
      simp [or_assoc]
  unfold mergedInds
  rw [key, List.mem_toFinset]
  intro c hc
  obtain ⟨y, _, hy⟩ := mem_tensorColors.1 hc
  exact h.known y c hy

theorem newColor_spec (st : IndexColors I) (inds : List I) :
    newColor st inds ∈ tensorColors st inds ∨ tensorColors st inds = [] ∧ dget st.color2index (newColor st inds) = none := by
  unfold newColor
  cases hc : tensorColors st inds with
  | cons c cs =>
    refine .inl ?_
    dsimp only
    have : ∀ (cs : List ℕ) (c : ℕ), cs.foldl min c ∈ c :: cs := by
      intro cs
      induction cs with
      | nil => simp
      | cons d cs ih =>
        intro c
        have := ih (min c d)
        rw [List.foldl_cons]
        rcases List.mem_cons.1 this with h | h
        · rw [h]
          rcases min_choice c d with e | e <;> rw [e] <;> simp
        · simp [h]
    exact this cs c
  | nil =>
    refine .inr ⟨rfl, ?_⟩
    dsimp only
    rw [dget_none]
    have : ∀ (l : List ℕ) (a : ℕ), a ≤ l.foldl max a ∧ ∀ x ∈ l, x ≤ l.foldl max a := by
      intro l
      induction l with
      | nil => simp
      | cons b l ih =>
        intro a
        rw [List.foldl_cons]
        have := ih (max a b)
        refine ⟨le_trans (le_max_left _ _) this.1, fun x hx => ?_⟩
        rcases List.mem_cons.1 hx with rfl | hx
        · exact le_trans (le_max_right _ _) this.1
        · exact this.2 x hx
    intro hm
    obtain ⟨e, he, h⟩ := List.mem_map.1 hm
    have := (this (st.color2index.map fun e => e.1 + 1) 0).2 (e.1 + 1) (List.mem_map_of_mem (f := fun e : ℕ × Finset I => e.1 + 1) he)
    omega

theorem dget_foldl_dpop {κ ν : Type} [DecidableEq κ] (ks : List κ) (D : List (κ × ν)) (k : κ) :
    dget (ks.foldl dpop D) k = if k ∈ ks then none else dget D k := by
  induction ks generalizing D with
  | nil => simp
  | cons a ks ih =>
    rw [List.foldl_cons, ih, dget_dpop]
    by_cases h1 : k = a
    · simp [h1]
    · by_cases h2 : k ∈ ks <;> simp [h1, h2]

/-- One step of the loop. -/
theorem IndexColors.Inv.step {enum : Finset I → List I} (he : EnumOk enum) {st : IndexColors I} {ts : List (List I)} (h : st.Inv ts) {inds : List I} (hne : inds ≠ []) :
    (colorStep enum st inds).Inv (ts ++ [inds]) := by
  set color := newColor st inds with hcolor
  have hall : ∀ x, x ∈ mergedInds st inds ↔ x ∈ inds ∨ ∃ c ∈ tensorColors st inds, dget st.index2color x = some c := fun x => mem_mergedInds h
  have hi : ∀ x, dget (colorStep enum st inds).index2color x = if x ∈ mergedInds st inds then some color else dget st.index2color x := by
    intro x
    unfold colorStep
    dsimp only
    rw [dget_dupdate_const]
    simp only [(he _).2 x, ← hcolor]
  have hc : ∀ c, dget (colorStep enum st inds).color2index c =
      if c = color then some (mergedInds st inds) else if c ∈ tensorColors st inds then none else dget st.color2index c := by
    intro c
    unfold colorStep
    dsimp only
    rw [dget_dset, dget_foldl_dpop]
  -- an index outside the new set does not have the new color
  have hfresh : ∀ x, x ∉ mergedInds st inds → dget st.index2color x ≠ some color := by
    intro x hx hd
    rcases newColor_spec st inds with h1 | ⟨_, h1⟩
    · exact hx ((hall x).2 (.inr ⟨color, h1, hd⟩))
    · obtain ⟨S, hS⟩ := h.known x color hd
      rw [← hcolor, hS] at h1; cases h1
  have hsub : ∀ t ∈ ts, t ∈ ts ++ [inds] := fun t ht => List.mem_append_left _ ht
  have hlink : ∀ x ∈ mergedInds st inds, ∃ z ∈ inds, LinkedInds (ts ++ [inds]) x z := by
    intro x hx
    rcases (hall x).1 hx with h1 | ⟨c, h1, h2⟩
    · exact ⟨x, h1, .refl⟩
    · obtain ⟨z, hz, h3⟩ := mem_tensorColors.1 h1
      exact ⟨z, hz, LinkedInds.mono hsub ((h.same x z c c h2 h3).1 rfl)⟩
  refine ⟨fun x => ?_, fun x y c d hx hy => ?_, fun c S hS x => ?_, fun x c hx => ?_, ?_⟩
  · rw [hi]
    split
    · next hx =>
      refine ⟨fun _ => ?_, fun _ => ⟨_, rfl⟩⟩
      rcases (hall x).1 hx with h1 | ⟨c, _, h2⟩
      · exact ⟨inds, by simp, h1⟩
      · obtain ⟨t, ht, h3⟩ := (h.seen x).1 ⟨c, h2⟩
        exact ⟨t, hsub t ht, h3⟩
    · next hx =>
      rw [h.seen x]
      constructor
      · rintro ⟨t, ht, h3⟩; exact ⟨t, hsub t ht, h3⟩
      · rintro ⟨t, ht, h3⟩
        rcases List.mem_append.1 ht with ht | ht
        · exact ⟨t, ht, h3⟩
        · rw [List.mem_singleton.1 ht] at h3
          exact absurd ((hall x).2 (.inl h3)) hx
  · constructor
    · rintro rfl
      rw [hi] at hx hy
      split at hx
      · next h1 =>
        cases hx
        split at hy
        · next h2 =>
          obtain ⟨z, hz, l1⟩ := hlink x h1
          obtain ⟨w, hw, l2⟩ := hlink y h2
          exact l1.trans (Relation.ReflTransGen.head ⟨inds, by simp, hz, hw⟩ l2.symm)
        · next h2 => exact absurd hy (hfresh y h2)
      · next h1 =>
        split at hy
        · cases hy; exact absurd hx (hfresh x h1)
        · exact LinkedInds.mono hsub ((h.same x y c c hx hy).1 rfl)
    · intro hl
      have key : ∀ z, LinkedInds (ts ++ [inds]) x z → dget (colorStep enum st inds).index2color z = some c := by
        intro z hz
        induction hz with
        | refl => exact hx
        | tail _ hab ih =>
          next a b _ =>
          obtain ⟨t, ht, ha, hb⟩ := hab
          rw [hi] at ih ⊢
          rcases List.mem_append.1 ht with ht | ht
          · obtain ⟨ca, hca⟩ := (h.seen a).2 ⟨t, ht, ha⟩
            obtain ⟨cb, hcb⟩ := (h.seen b).2 ⟨t, ht, hb⟩
            have hab : LinkedInds ts a b := Relation.ReflTransGen.single ⟨t, ht, ha, hb⟩
            have e : ca = cb := (h.same a b ca cb hca hcb).2 hab
            subst e
            have iff : a ∈ mergedInds st inds ↔ b ∈ mergedInds st inds := by
              rw [hall, hall]
              constructor
              · rintro (h1 | ⟨c', h1, h2⟩)
                · exact .inr ⟨ca, mem_tensorColors.2 ⟨a, h1, hca⟩, hcb⟩
                · rw [hca] at h2; cases h2; exact .inr ⟨_, h1, hcb⟩
              · rintro (h1 | ⟨c', h1, h2⟩)
                · exact .inr ⟨ca, mem_tensorColors.2 ⟨b, h1, hcb⟩, hca⟩
                · rw [hcb] at h2; cases h2; exact .inr ⟨_, h1, hca⟩
            by_cases h1 : a ∈ mergedInds st inds
            · rw [if_pos h1] at ih; rw [if_pos (iff.1 h1)]; exact ih
            · rw [if_neg h1, hca] at ih; rw [if_neg (fun h => h1 (iff.2 h)), hcb]; exact ih
          · rw [List.mem_singleton.1 ht] at ha hb
            rw [if_pos ((hall a).2 (.inl ha))] at ih
            rw [if_pos ((hall b).2 (.inl hb))]; exact ih
      have := key y hl
      rw [hy] at this
      exact (Option.some.inj this).symm
  · rw [hc] at hS
    rw [hi]
    split at hS
    · next e =>
      cases hS
      by_cases hx : x ∈ mergedInds st inds
      · rw [if_pos hx, e]; simp [hx]
      · rw [if_neg hx]
        refine ⟨fun h => absurd h hx, fun h1 => ?_⟩
        rw [e] at h1
        exact absurd h1 (hfresh x hx)
    · next e =>
      split at hS
      · cases hS
      · next hn =>
        rw [h.set c S hS x]
        by_cases hx : x ∈ mergedInds st inds
        · rw [if_pos hx]
          constructor
          · intro h1
            exfalso
            rcases (hall x).1 hx with h2 | ⟨c', h2, h3⟩
            · exact hn (mem_tensorColors.2 ⟨x, h2, h1⟩)
            · rw [h1] at h3; cases h3; exact hn h2
          · intro h1; exact absurd (Option.some.inj h1).symm e
        · rw [if_neg hx]
  · rw [hi] at hx
    rw [hc]
    split at hx
    · cases hx; rw [if_pos rfl]; exact ⟨_, rfl⟩
    · next h1 =>
      split
      · exact ⟨_, rfl⟩
      · split
        · next h2 => exact absurd ((hall x).2 (.inr ⟨c, h2, hx⟩)) h1
        · exact h.known x c hx
  · exact dupdate_nodup h.nodup _

theorem IndexColors.Inv.foldl {enum : Finset I → List I} (he : EnumOk enum) (us : List (List I)) (hne : ∀ t ∈ us, t ≠ []) :
    ∀ (st : IndexColors I) (ts : List (List I)), st.Inv ts → (us.foldl (colorStep enum) st).Inv (ts ++ us) := by
  induction us with
  | nil => intro st ts h; simpa using h
  | cons u us ih =>
    intro st ts h
    have := ih (fun t ht => hne t (List.mem_cons_of_mem _ ht)) _ _ (h.step he (hne u List.mem_cons_self))
    rw [List.append_assoc, List.singleton_append] at this
    exact this

/-- The positions of a color. -/
def colorPos (cc : List ℕ) (c : ℕ) : List ℕ := (List.range cc.length).filter fun k => cc[k]? = some c

theorem mem_colorPos {cc : List ℕ} {c k : ℕ} : k ∈ colorPos cc c ↔ cc[k]? = some c := by
  unfold colorPos
  rw [List.mem_filter, List.mem_range, decide_eq_true_eq]
  exact ⟨fun h => h.2, fun h => ⟨(List.getElem?_eq_some_iff.1 h).1, h⟩⟩

theorem colorPos_snoc (cc : List ℕ) (c d : ℕ) : colorPos (cc ++ [d]) c = colorPos cc c ++ if d = c then [cc.length] else [] := by
  unfold colorPos
  rw [List.length_append, List.length_singleton, List.range_succ, List.filter_append]
  congr 1
  · refine List.filter_congr fun k hk => ?_
    rw [List.getElem?_append_left (List.mem_range.1 hk)]
  · simp [List.filter_cons]

/-- The groups are the positions of the colors. -/
theorem groupFrom_spec (cs : List ℕ) : ∀ (pre : List ℕ) (d : List (ℕ × List ℕ)), (d.map Prod.fst).Nodup →
    (∀ c, dget d c = if colorPos pre c = [] then none else some (colorPos pre c)) →
    ((groupFrom pre.length d cs).map Prod.fst).Nodup ∧
      ∀ c, dget (groupFrom pre.length d cs) c = if colorPos (pre ++ cs) c = [] then none else some (colorPos (pre ++ cs) c) := by
  induction cs with
  | nil => intro pre d hn h; simpa [groupFrom] using ⟨hn, h⟩
  | cons a cs ih =>
    intro pre d hn h
    have := ih (pre ++ [a]) (dset d a ((dget d a).getD [] ++ [pre.length])) (dset_nodup hn _ _) (fun c => by
      rw [dget_dset, colorPos_snoc]
      by_cases e : c = a
      · subst e
        rw [if_pos rfl, if_pos rfl, h c]
        by_cases hp : colorPos pre c = []
        · simp [hp]
        · simp [hp]
      · have e' : ¬ a = c := fun h => e h.symm
        simp only [if_neg e, if_neg e', List.append_nil, h c])
    rw [List.length_append, List.length_singleton, List.append_assoc, List.singleton_append] at this
    exact this

/-- What a list of classes should be: a partition of the positions into the connected components, each in ascending order. -/
structure IsComponents (ts : List (List I)) (cs : List (List ℕ)) : Prop where
  partition : cs.flatten.Perm (List.range ts.length)
  nonempty : ∀ c ∈ cs, c ≠ []
  sorted : ∀ c ∈ cs, c.Pairwise (· < ·)
  connected : ∀ c ∈ cs, ∀ i ∈ c, ∀ j, j < ts.length → (j ∈ c ↔ ConnectedPos ts i j)

/-- C49: for the tensors that have indices, the result is the list of their connected components; the assertions never fail. -/
theorem C49_components_partial {enum : Finset I → List I} (he : EnumOk enum) (ts : List (List I)) :
    ∃ cs, connectedComponents enum ts = .ok cs ∧ IsComponents (ts.filter fun t => t ≠ []) cs := by
  have hus : (ts.filter fun inds => inds.length ≠ 0) = ts.filter fun t => t ≠ [] := by
    refine List.filter_congr fun t _ => ?_
    simp
  unfold connectedComponents
  rw [hus]
  have hne : ∀ t ∈ ts.filter fun t => t ≠ [], t ≠ [] := fun t ht => by simpa using (List.mem_filter.1 ht).2
  generalize (ts.filter fun t => t ≠ []) = us at hne
  dsimp only
  split
  · next h0 =>
    have := List.length_eq_zero_iff.1 h0
    subst this
    exact ⟨[], rfl, by simp, by simp, by simp, by simp⟩
  · next h0 =>
    have inv := IndexColors.Inv.foldl he us hne ⟨[], []⟩ [] ⟨by simp [dget], by simp [dget], by simp [dget], by simp [dget], by simp⟩
    rw [List.nil_append] at inv
    generalize us.foldl (colorStep enum) ⟨[], []⟩ = st at inv
    -- the color of a tensor
    have hcol : ∀ t ∈ us, ∃ c, ∀ x ∈ t, dget st.index2color x = some c := by
      intro t ht
      cases t with
      | nil => exact absurd rfl (hne [] ht)
      | cons a t =>
        obtain ⟨c, hc⟩ := (inv.seen a).2 ⟨_, ht, List.mem_cons_self⟩
        refine ⟨c, fun x hx => ?_⟩
        obtain ⟨d, hd⟩ := (inv.seen x).2 ⟨_, ht, hx⟩
        rw [hd, (inv.same a x c d hc hd).2 (Relation.ReflTransGen.single ⟨_, ht, List.mem_cons_self, hx⟩)]
    have hchk : colorsChecked st us = true := by
      unfold colorsChecked
      rw [Bool.and_eq_true]
      constructor
      · rw [decide_eq_true_eq]
        have hone : ∀ t ∈ us, (uniqueEverseen (t.map (dget st.index2color))).length = 1 := by
          intro t ht
          obtain ⟨c, hc⟩ := hcol t ht
          have hmem : ∀ y, y ∈ uniqueEverseen (t.map (dget st.index2color)) ↔ y = some c := by
            intro y
            rw [mem_uniqueEverseen, List.mem_map]
            constructor
            · rintro ⟨x, hx, rfl⟩; exact hc x hx
            · rintro rfl
              cases t with
              | nil => exact absurd rfl (hne [] ht)
              | cons a t => exact ⟨a, List.mem_cons_self, hc a List.mem_cons_self⟩
          have hp : (uniqueEverseen (t.map (dget st.index2color))).Perm [some c] :=
            (List.perm_ext_iff_of_nodup (uniqueEverseen_nodup _) (List.nodup_singleton _)).2 (by simpa using hmem)
          rw [hp.length_eq]; rfl
        have hp : (uniqueEverseen (us.map fun inds => (uniqueEverseen (inds.map (dget st.index2color))).length)).Perm [1] := by
          refine (List.perm_ext_iff_of_nodup (uniqueEverseen_nodup _) (List.nodup_singleton _)).2 fun y => ?_
          rw [mem_uniqueEverseen, List.mem_map, List.mem_singleton]
          constructor
          · rintro ⟨t, ht, rfl⟩; exact hone t ht
          · rintro rfl
            cases us with
            | nil => exact absurd rfl h0
            | cons t us => exact ⟨t, List.mem_cons_self, hone t List.mem_cons_self⟩
        exact List.perm_singleton.1 hp
      · have hkeys : ∀ x, x ∈ st.index2color.map Prod.fst ↔ x ∈ uniqueEverseen us.flatten := by
          intro x
          rw [mem_uniqueEverseen, List.mem_flatten, ← inv.seen x]
          cases hd : dget st.index2color x with
          | none => simpa using dget_none.1 hd
          | some c => simpa using ⟨c, dget_mem hd⟩
        rw [List.all_eq_true]
        intro x hx
        rw [decide_eq_true_eq, List.count_append]
        have h1 : x ∈ uniqueEverseen us.flatten := by
          rcases List.mem_append.1 hx with h | h
          · exact h
          · exact (hkeys x).1 h
        rw [List.count_eq_one_of_mem (uniqueEverseen_nodup _) h1, List.count_eq_one_of_mem inv.nodup ((hkeys x).2 h1)]
    rw [if_neg (by simp [hchk])]
    obtain ⟨cc, hcc, hlen, hget⟩ : ∃ cc : List ℕ, (us.mapM fun inds => inds.head?.bind (dget st.index2color)) = some cc ∧ cc.length = us.length ∧
        ∀ (i : ℕ) t c, us[i]? = some t → (cc[i]? = some c ↔ ∀ x ∈ t, dget st.index2color x = some c) := by
      clear hchk inv h0
      induction us with
      | nil => exact ⟨[], rfl, rfl, by simp⟩
      | cons t us ih =>
        obtain ⟨cc, h1, h2, h3⟩ := ih (fun t ht => hne t (List.mem_cons_of_mem _ ht)) fun t ht => hcol t (List.mem_cons_of_mem _ ht)
        obtain ⟨c, hc⟩ := hcol t List.mem_cons_self
        have hh : t.head?.bind (dget st.index2color) = some c := by
          cases t with
          | nil => exact absurd rfl (hne [] List.mem_cons_self)
          | cons a t => exact hc a List.mem_cons_self
        refine ⟨c :: cc, by rw [List.mapM_cons, hh, h1]; rfl, by simp [h2], fun i t' c' hi => ?_⟩
        cases i with
        | zero =>
          cases hi
          simp only [List.getElem?_cons_zero, Option.some.injEq]
          constructor
          · rintro rfl; exact hc
          · intro h
            cases t with
            | nil => exact absurd rfl (hne [] List.mem_cons_self)
            | cons a t =>
              have := h a List.mem_cons_self
              rw [hc a List.mem_cons_self] at this
              exact Option.some.inj this
        | succ i => exact h3 i t' c' hi
    rw [hcc]
    have hg := groupFrom_spec cc [] [] (by simp) (by simp [dget, colorPos])
    rw [List.length_nil, List.nil_append] at hg
    refine ⟨_, rfl, ?_⟩
    generalize groupFrom 0 [] cc = d at hg
    have hval : ∀ e ∈ d, e.2 = colorPos cc e.1 ∧ colorPos cc e.1 ≠ [] := by
      rintro ⟨c, l⟩ hm
      have := dget_of_mem hg.1 hm
      rw [hg.2 c] at this
      split at this
      · cases this
      · next h => cases this; exact ⟨rfl, h⟩
    refine ⟨?_, fun c hc => ?_, fun c hc => ?_, fun c hc i hi j hj => ?_⟩
    · refine (List.perm_ext_iff_of_nodup ?_ List.nodup_range).2 fun k => ?_
      · rw [List.nodup_flatten]
        constructor
        · intro l hl
          obtain ⟨e, he, rfl⟩ := List.mem_map.1 hl
          rw [(hval e he).1]
          exact List.nodup_range.filter _
        · rw [List.pairwise_map]
          have h1 : d.Pairwise fun a b => a.1 ≠ b.1 := by
            have := hg.1
            rwa [List.Nodup, List.pairwise_map] at this
          refine h1.imp_of_mem fun {a b} ha hb hab => ?_
          rw [(hval a ha).1, (hval b hb).1]
          intro k h1 h2
          rw [mem_colorPos] at h1 h2
          rw [h1] at h2
          exact hab (Option.some.inj h2)
      · rw [List.mem_flatten, List.mem_range]
        constructor
        · rintro ⟨l, hl, hk⟩
          obtain ⟨e, he, rfl⟩ := List.mem_map.1 hl
          rw [(hval e he).1, mem_colorPos] at hk
          rw [← hlen]
          exact (List.getElem?_eq_some_iff.1 hk).1
        · intro hk
          rw [← hlen] at hk
          have hm : k ∈ colorPos cc cc[k] := mem_colorPos.2 (List.getElem?_eq_getElem hk)
          have := hg.2 cc[k]
          rw [if_neg (List.ne_nil_of_mem hm)] at this
          exact ⟨_, List.mem_map_of_mem (f := Prod.snd) (dget_mem this), hm⟩
    · obtain ⟨e, he, rfl⟩ := List.mem_map.1 hc
      rw [(hval e he).1]; exact (hval e he).2
    · obtain ⟨e, he, rfl⟩ := List.mem_map.1 hc
      rw [(hval e he).1]
      exact List.Pairwise.filter _ List.pairwise_lt_range
    · obtain ⟨e, he, rfl⟩ := List.mem_map.1 hc
      rw [(hval e he).1, mem_colorPos] at hi ⊢
      have hi' : i < us.length := by rw [← hlen]; exact (List.getElem?_eq_some_iff.1 hi).1
      have ei := List.getElem?_eq_getElem hi'
      have ej := List.getElem?_eq_getElem hj
      rw [hget j _ _ ej]
      rw [hget i _ _ ei] at hi
      obtain ⟨x, hx⟩ := List.exists_mem_of_ne_nil _ (hne _ (List.getElem_mem hi'))
      obtain ⟨y, hy⟩ := List.exists_mem_of_ne_nil _ (hne _ (List.getElem_mem hj))
      rw [connected_iff_linked us ei ej hx hy]
      constructor
      · intro h; exact (inv.same x y _ _ (hi x hx) (h y hy)).1 rfl
      · intro h z hz
        have hl : LinkedInds us x z := h.tail ⟨_, List.getElem_mem hj, hy, hz⟩
        obtain ⟨c, hc⟩ := (inv.seen z).2 ⟨_, List.getElem_mem hj, hz⟩
        rw [hc, (inv.same x z _ c (hi x hx) hc).2 hl]

/-- C49: if all the tensors have indices, the result is the list of connected components of the network. -/
theorem C49_no_scalars {enum : Finset I → List I} (he : EnumOk enum) (ts : List (List I)) (hne : ∀ t ∈ ts, t ≠ []) :
    ∃ cs, connectedComponents enum ts = .ok cs ∧ IsComponents ts cs := by
  obtain ⟨cs, h1, h2⟩ := C49_components_partial he ts
  refine ⟨cs, h1, ?_⟩
  have : (ts.filter fun t => t ≠ []) = ts := List.filter_eq_self.2 fun t ht => by simpa using hne t ht
  rwa [this] at h2

/-- C49 fails if a tensor has no indices: it is left out and the following positions are shifted. -/
theorem C49_violated (enum : Finset ℕ → List ℕ) (he : EnumOk enum) : ∃ cs, connectedComponents enum [[], [0], [1]] = .ok cs ∧ ¬ IsComponents [[], [0], [1]] cs ∧
    (∃ c ∈ cs, 0 ∈ c) ∧ ∀ c ∈ cs, 2 ∉ c := by
  obtain ⟨cs, h1, h2⟩ := C49_components_partial he [[], [0], [1]]
  have hp := h2.partition
  have hl : (([[], [0], [1]] : List (List ℕ)).filter fun t => t ≠ []).length = 2 := by decide
  rw [hl] at hp
  refine ⟨cs, h1, fun h => ?_, ?_, fun c hc h => ?_⟩
  · have := hp.length_eq
    rw [h.partition.length_eq] at this
    simp at this
  · have : 0 ∈ cs.flatten := hp.mem_iff.2 (by decide)
    simpa using this
  · have : 2 ∈ cs.flatten := List.mem_flatten.2 ⟨c, hc, h⟩
    have := hp.mem_iff.1 this
    simp at this

/-! The hypotheses are met, and the result is as in the documentation. -/

/-- A set of numbers below 10 in ascending order. -/
def enum10 (s : Finset (Fin 10)) : List (Fin 10) := (List.finRange 10).filter (· ∈ s)

example : EnumOk enum10 := fun s => ⟨(List.nodup_finRange 10).filter _, fun x => by simp [enum10]⟩

example : connectedComponents enum10 [[0, 1], [2, 3], [4, 5], [1, 4]] = .ok [[0, 2, 3], [1]] := by decide +kernel

end TNCO
