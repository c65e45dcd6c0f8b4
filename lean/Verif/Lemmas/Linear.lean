import Verif.Lemmas.PathOut

/-! Contractions of labelled tensors, and their translation to positions in a list. -/

namespace TNCO
namespace Linear
variable {α : Type} [DecidableEq α]

/-- Replace two labels by a new one. -/
def stepL (L : List α) (x y z : α) : List α := (L.erase x).erase y ++ [z]

/-- Every contraction finds its operands and makes a fresh label. -/
def Ok : List α → List (α × α × α) → Prop
  | _, [] => True
  | L, (x, y, z) :: c => x ∈ L ∧ y ∈ L ∧ x ≠ y ∧ z ∉ L ∧ Ok (stepL L x y z) c

def final : List α → List (α × α × α) → List α
  | L, [] => L
  | L, (x, y, z) :: c => final (stepL L x y z) c

/-- Labels used but not made by the contractions. -/
def Input : List (α × α × α) → α → Prop
  | [], _ => False
  | (x, y, z) :: c, a => a = x ∨ a = y ∨ (a ≠ z ∧ Input c a)

def made (c : List (α × α × α)) : List α := c.map fun t => t.2.2

def used : List (α × α × α) → List α
  | [] => []
  | (x, y, _) :: c => x :: y :: used c

/-- The bracketings that labels stand for after the contractions. -/
def vals (τ : α → Term) : List (α × α × α) → α → Term
  | [] => τ
  | (x, y, z) :: c => vals (Function.update τ z (.pair (τ x) (τ y))) c

def prods (τ : α → Term) : List (α × α × α) → List Term
  | [] => []
  | (x, y, z) :: c => .pair (τ x) (τ y) :: prods (Function.update τ z (.pair (τ x) (τ y))) c

/-- The positions of the operands. -/
def lin : List α → List (α × α × α) → List (ℕ × ℕ)
  | _, [] => []
  | L, (x, y, z) :: c =>
    (min (L.idxOf x) (L.idxOf y), max (L.idxOf x) (L.idxOf y)) :: lin (stepL L x y z) c

theorem mem_stepL {L : List α} (hn : L.Nodup) {x y z a : α} :
    a ∈ stepL L x y z ↔ (a ∈ L ∧ a ≠ x ∧ a ≠ y) ∨ a = z := by
  unfold stepL
  rw [List.mem_append, (hn.erase x).mem_erase_iff, hn.mem_erase_iff, List.mem_singleton]
  tauto

theorem nodup_stepL {L : List α} (hn : L.Nodup) {x y z : α} (hz : z ∉ L) : (stepL L x y z).Nodup := by
  unfold stepL
  rw [List.nodup_append]
  refine ⟨(hn.erase x).erase y, List.nodup_singleton _, ?_⟩
  intro a ha b hb
  rw [List.mem_singleton] at hb
  subst hb
  rintro rfl
  exact hz (List.mem_of_mem_erase (List.mem_of_mem_erase ha))

theorem length_stepL {L : List α} {x y z : α} (hx : x ∈ L) (hy : y ∈ L) (hxy : x ≠ y) :
    (stepL L x y z).length + 1 = L.length := by
  have h1 : y ∈ L.erase x := (List.mem_erase_of_ne hxy.symm).2 hy
  unfold stepL
  rw [List.length_append, List.length_erase_of_mem h1, List.length_erase_of_mem hx, List.length_singleton]
  have := List.length_pos_of_mem h1
  rw [List.length_erase_of_mem hx] at this
  omega

theorem stepL_perm {L L' : List α} (h : L.Perm L') (x y z : α) : (stepL L x y z).Perm (stepL L' x y z) :=
  (((h.erase x).erase y)).append_right _

theorem Ok.perm {c : List (α × α × α)} {L L' : List α} (h : L.Perm L') (hk : Ok L c) : Ok L' c := by
  induction c generalizing L L' with
  | nil => trivial
  | cons t c ih =>
    obtain ⟨x, y, z⟩ := t
    obtain ⟨h1, h2, h3, h4, h5⟩ := hk
    exact ⟨h.mem_iff.1 h1, h.mem_iff.1 h2, h3, fun hz => h4 (h.mem_iff.2 hz), ih (stepL_perm h x y z) h5⟩

theorem final_perm {c : List (α × α × α)} {L L' : List α} (h : L.Perm L') : (final L c).Perm (final L' c) := by
  induction c generalizing L L' with
  | nil => exact h
  | cons t c ih => exact ih (stepL_perm h _ _ _)

theorem Ok.append {c d : List (α × α × α)} {L : List α} : Ok L (c ++ d) ↔ Ok L c ∧ Ok (final L c) d := by
  induction c generalizing L with
  | nil => simp [Ok, final]
  | cons t c ih =>
    obtain ⟨x, y, z⟩ := t
    simp only [List.cons_append, Ok, final, ih]
    tauto

theorem final_append (c d : List (α × α × α)) (L : List α) : final L (c ++ d) = final (final L c) d := by
  induction c generalizing L with
  | nil => rfl
  | cons t c ih => exact ih _

theorem vals_append (c d : List (α × α × α)) (τ : α → Term) : vals τ (c ++ d) = vals (vals τ c) d := by
  induction c generalizing τ with
  | nil => rfl
  | cons t c ih => exact ih _

theorem prods_append (c d : List (α × α × α)) (τ : α → Term) :
    prods τ (c ++ d) = prods τ c ++ prods (vals τ c) d := by
  induction c generalizing τ with
  | nil => rfl
  | cons t c ih => simp [prods, vals, ih]

theorem lin_append (c d : List (α × α × α)) (L : List α) : lin L (c ++ d) = lin L c ++ lin (final L c) d := by
  induction c generalizing L with
  | nil => rfl
  | cons t c ih => simp [lin, final, ih]

theorem lin_length (c : List (α × α × α)) (L : List α) : (lin L c).length = c.length := by
  induction c generalizing L with
  | nil => rfl
  | cons t c ih => simp [lin, ih]

theorem Ok.nodup_final {c : List (α × α × α)} {L : List α} (hn : L.Nodup) (h : Ok L c) : (final L c).Nodup := by
  induction c generalizing L with
  | nil => exact hn
  | cons t c ih =>
    obtain ⟨x, y, z⟩ := t
    exact ih (nodup_stepL hn h.2.2.2.1) h.2.2.2.2

theorem Ok.length_final {c : List (α × α × α)} {L : List α} (h : Ok L c) :
    (final L c).length + c.length = L.length := by
  induction c generalizing L with
  | nil => rfl
  | cons t c ih =>
    obtain ⟨x, y, z⟩ := t
    have h1 := ih h.2.2.2.2
    have h2 := length_stepL (z := z) h.1 h.2.1 h.2.2.1
    simp only [final, List.length_cons]; omega

theorem Ok.input {c : List (α × α × α)} {L : List α} (hn : L.Nodup) (h : Ok L c) {a : α} (ha : Input c a) :
    a ∈ L := by
  induction c generalizing L with
  | nil => cases ha
  | cons t c ih =>
    obtain ⟨x, y, z⟩ := t
    obtain ⟨h1, h2, h3, h4, h5⟩ := h
    rcases ha with rfl | rfl | ⟨hz, ha⟩
    · exact h1
    · exact h2
    · rcases (mem_stepL hn).1 (ih (nodup_stepL hn h4) h5 ha) with h | h
      · exact h.1
      · exact absurd h hz

/-- The labels made are new. -/
def Fresh (L : List α) (c : List (α × α × α)) : Prop := (made c).Nodup ∧ ∀ z ∈ made c, z ∉ L

theorem Fresh.step {L : List α} (hn : L.Nodup) {x y z : α} {c} (h : Fresh L ((x, y, z) :: c)) :
    z ∉ L ∧ Fresh (stepL L x y z) c := by
  obtain ⟨h1, h2⟩ := h
  simp only [made, List.map_cons, List.nodup_cons, List.mem_cons] at h1 h2
  refine ⟨h2 z (Or.inl rfl), h1.2, fun w hw hm => ?_⟩
  rcases (mem_stepL hn).1 hm with h | rfl
  · exact h2 w (Or.inr hw) h.1
  · exact h1.1 hw

theorem Ok.transfer {c : List (α × α × α)} {L L' : List α} (hn : L.Nodup) (h : Ok L c) (hf : Fresh L c)
    (hn' : L'.Nodup) (hf' : Fresh L' c) (hi : ∀ a, Input c a → a ∈ L') : Ok L' c := by
  induction c generalizing L L' with
  | nil => trivial
  | cons t c ih =>
    obtain ⟨x, y, z⟩ := t
    obtain ⟨h1, h2, h3, h4, h5⟩ := h
    obtain ⟨g1, g2⟩ := hf.step hn
    obtain ⟨g1', g2'⟩ := hf'.step hn'
    refine ⟨hi _ (Or.inl rfl), hi _ (Or.inr (Or.inl rfl)), h3, g1', ?_⟩
    refine ih (nodup_stepL hn h4) h5 g2 (nodup_stepL hn' g1') g2' fun a ha => ?_
    rw [mem_stepL hn']
    rcases (mem_stepL hn).1 (Ok.input (nodup_stepL hn h4) h5 ha) with h | h
    · refine Or.inl ⟨hi a (Or.inr (Or.inr ⟨?_, ha⟩)), h.2⟩
      rintro rfl; exact g1 h.1
    · exact Or.inr h

theorem mem_used_of_input {c : List (α × α × α)} {a : α} (h : Input c a) : a ∈ used c := by
  induction c with
  | nil => cases h
  | cons t c ih =>
    obtain ⟨x, y, z⟩ := t
    rcases h with rfl | rfl | h
    · simp [used]
    · simp [used]
    · simp [used, ih h.2]

theorem input_or_made {c : List (α × α × α)} {a : α} (h : a ∈ used c) : Input c a ∨ a ∈ made c := by
  induction c with
  | nil => cases h
  | cons t c ih =>
    obtain ⟨x, y, z⟩ := t
    simp only [used, List.mem_cons] at h
    simp only [Input, made, List.map_cons, List.mem_cons]
    rcases h with rfl | rfl | h
    · tauto
    · tauto
    · by_cases hz : a = z
      · tauto
      · rcases ih h with h | h
        · tauto
        · right; right; exact h

theorem mem_final {c : List (α × α × α)} {L : List α} (hn : L.Nodup) (h : Ok L c) (hf : Fresh L c) {a : α} :
    a ∈ final L c ↔ (a ∈ L ∨ a ∈ made c) ∧ a ∉ used c := by
  induction c generalizing L with
  | nil => simp [final, made, used]
  | cons t c ih =>
    obtain ⟨x, y, z⟩ := t
    obtain ⟨h1, h2, h3, h4, h5⟩ := h
    obtain ⟨g1, g2⟩ := hf.step hn
    have hx : x ≠ z := by rintro rfl; exact h4 h1
    have hy : y ≠ z := by rintro rfl; exact h4 h2
    have hxm : x ∉ made c := fun hm => hf.2 x (by simp only [made, List.map_cons, List.mem_cons]; exact Or.inr hm) h1
    have hym : y ∉ made c := fun hm => hf.2 y (by simp only [made, List.map_cons, List.mem_cons]; exact Or.inr hm) h2
    rw [final, ih (nodup_stepL hn h4) h5 g2, mem_stepL hn]
    simp only [used, List.mem_cons, not_or]
    have e : a ∈ made ((x, y, z) :: c) ↔ a = z ∨ a ∈ made c := by simp [made]
    rw [e]
    constructor
    · rintro ⟨(⟨ha, hax, hay⟩ | rfl) | ha, hu⟩
      · exact ⟨Or.inl ha, hax, hay, hu⟩
      · exact ⟨Or.inr (Or.inl rfl), hx.symm, hy.symm, hu⟩
      · exact ⟨Or.inr (Or.inr ha), fun e => hxm (e ▸ ha), fun e => hym (e ▸ ha), hu⟩
    · rintro ⟨ha, hax, hay, hu⟩
      exact ⟨by tauto, hu⟩

/-- Removing two positions is removing two labels. -/
theorem eraseIdx_pair {L : List α} (hn : L.Nodup) {x y : α} (hx : x ∈ L) (hy : y ∈ L) (hxy : x ≠ y) :
    (L.eraseIdx (max (L.idxOf x) (L.idxOf y))).eraseIdx (min (L.idxOf x) (L.idxOf y)) = (L.erase x).erase y := by
  have hi := List.idxOf_lt_length_of_mem hx
  have hj := List.idxOf_lt_length_of_mem hy
  have key : ∀ {u v : α} (hu : u ∈ L) (hv : v ∈ L) (_ : L.idxOf u < L.idxOf v),
      (L.eraseIdx (L.idxOf v)).eraseIdx (L.idxOf u) = (L.erase v).erase u := by
    intro u v hu hv hlt
    have hju := List.idxOf_lt_length_of_mem hv
    have e1 : L.eraseIdx (L.idxOf v) = L.erase v := by
      have := List.Nodup.erase_getElem hn (L.idxOf v) hju
      rw [List.getElem_idxOf] at this
      exact this.symm
    have hlen : L.idxOf u < (L.eraseIdx (L.idxOf v)).length := by
      rw [List.length_eraseIdx]; split <;> omega
    have e2 : (L.eraseIdx (L.idxOf v))[L.idxOf u]'hlen = u := by
      rw [List.getElem_eraseIdx]
      simp [hlt]
    have hn2 : (L.eraseIdx (L.idxOf v)).Nodup := hn.eraseIdx _
    have := List.Nodup.erase_getElem hn2 (L.idxOf u) hlen
    rw [e2] at this
    rw [← this, e1]
  have hne : L.idxOf x ≠ L.idxOf y := by
    intro e
    apply hxy
    have h1 := List.getElem_idxOf hi
    have h2 := List.getElem_idxOf hj
    rw [← h1, ← h2]; simp only [e]
  rcases lt_or_gt_of_ne hne with h | h
  · rw [max_eq_right h.le, min_eq_left h.le, key hx hy h, List.erase_comm]
  · rw [max_eq_left h.le, min_eq_right h.le, key hy hx h]

theorem idxOf_ne {L : List α} {x y : α} (hx : x ∈ L) (hy : y ∈ L) (hxy : x ≠ y) : L.idxOf x ≠ L.idxOf y := by
  intro e
  apply hxy
  have h1 := List.getElem_idxOf (List.idxOf_lt_length_of_mem hx)
  have h2 := List.getElem_idxOf (List.idxOf_lt_length_of_mem hy)
  rw [← h1, ← h2]; simp only [e]

theorem popPair_idxOf {L : List α} (hn : L.Nodup) {x y : α} (hx : x ∈ L) (hy : y ∈ L) (hxy : x ≠ y) :
    ∃ a b, popPair L (L.idxOf x) (L.idxOf y) = some (a, b, (L.erase x).erase y) ∧
      (a = x ∧ b = y ∨ a = y ∧ b = x) := by
  have hi := List.idxOf_lt_length_of_mem hx
  have hj := List.idxOf_lt_length_of_mem hy
  have hne := idxOf_ne hx hy hxy
  rw [popPair_of_lt hi hj hne, eraseIdx_pair hn hx hy hxy]
  refine ⟨_, _, rfl, ?_⟩
  rcases lt_or_gt_of_ne hne with h | h
  · left; simp [min_eq_left h.le, max_eq_right h.le]
  · right; simp [min_eq_right h.le, max_eq_left h.le]

theorem popPair_comm {β : Type} (L : List β) (x y : ℕ) : popPair L (min x y) (max x y) = popPair L x y := by
  unfold popPair
  rw [show max (min x y) (max x y) = max x y by omega, show min (min x y) (max x y) = min x y by omega]

theorem trace_cons {ts : List Term} {x y : ℕ} (hxy : x ≠ y) (path : List (ℕ × ℕ)) :
    trace ts ((x, y) :: path) = match popPair ts x y with
      | some r => .pair r.1 r.2.1 :: trace (r.2.2 ++ [.pair r.1 r.2.1]) path
      | none => [] := by
  have hlt : min x y < max x y := by omega
  simp only [trace, popPair, List.getElem?_eraseIdx_of_lt hlt]
  cases h1 : ts[max x y]? with
  | none => cases ts[min x y]? <;> rfl
  | some b => cases ts[min x y]? <;> rfl

/-- Following the positions performs the contractions, up to the order of operands. -/
theorem lin_spec {c : List (α × α × α)} {L : List α} (hn : L.Nodup) (h : Ok L c) (τ σ : α → Term)
    (hs : ∀ a ∈ L, (σ a).Same (τ a)) :
    ∃ σ' : α → Term, replay (L.map σ) (lin L c) = some ((final L c).map σ') ∧
      (∀ a ∈ final L c, (σ' a).Same (vals τ c a)) ∧
      List.Forall₂ Term.Same (trace (L.map σ) (lin L c)) (prods τ c) := by
  induction c generalizing L τ σ with
  | nil => exact ⟨σ, rfl, hs, .nil⟩
  | cons t c ih =>
    obtain ⟨x, y, z⟩ := t
    obtain ⟨h1, h2, h3, h4, h5⟩ := h
    obtain ⟨a, b, hp, hab⟩ := popPair_idxOf hn h1 h2 h3
    have hp' : popPair (L.map σ) (min (L.idxOf x) (L.idxOf y)) (max (L.idxOf x) (L.idxOf y)) =
        some (σ a, σ b, ((L.erase x).erase y).map σ) := by
      rw [popPair_comm, popPair_map, hp]; rfl
    have hne := idxOf_ne h1 h2 h3
    have hne' : min (L.idxOf x) (L.idxOf y) ≠ max (L.idxOf x) (L.idxOf y) := by omega
    have hu : (Term.pair (σ a) (σ b)).Same (.pair (τ x) (τ y)) := by
      rcases hab with ⟨rfl, rfl⟩ | ⟨rfl, rfl⟩
      · exact .pair (hs _ h1) (hs _ h2)
      · exact .swap (hs _ h2) (hs _ h1)
    obtain ⟨σ', e1, e2, e3⟩ := ih (nodup_stepL hn h4) h5 (Function.update τ z (.pair (τ x) (τ y)))
      (Function.update σ z (.pair (σ a) (σ b))) (by
        intro w hw
        by_cases hwz : w = z
        · subst hwz; simpa using hu
        · rw [Function.update_of_ne hwz, Function.update_of_ne hwz]
          rcases (mem_stepL hn).1 hw with h | h
          · exact hs w h.1
          · exact absurd h hwz)
    have em : (stepL L x y z).map (Function.update σ z (.pair (σ a) (σ b))) =
        ((L.erase x).erase y).map σ ++ [.pair (σ a) (σ b)] := by
      unfold stepL
      rw [List.map_append, List.map_singleton, Function.update_self]
      congr 1
      refine List.map_congr_left fun w hw => Function.update_of_ne ?_ _ _
      rintro rfl
      exact h4 (List.mem_of_mem_erase (List.mem_of_mem_erase hw))
    rw [em] at e1 e3
    refine ⟨σ', ?_, e2, ?_⟩
    · rw [lin, replay_cons hne', hp']; exact e1
    · rw [lin, trace_cons hne', hp']
      exact .cons hu e3

theorem prods_tensors {c : List (α × α × α)} (τ : α → Term) (k : ℕ) :
    (∃ t ∈ prods τ c, k ∈ t.tensors) ↔ ∃ a, Input c a ∧ k ∈ (τ a).tensors := by
  induction c generalizing τ with
  | nil => simp [prods, Input]
  | cons t c ih =>
    obtain ⟨x, y, z⟩ := t
    simp only [prods, List.exists_mem_cons_iff, ih, Input, Term.tensors, List.mem_append]
    constructor
    · rintro ((h | h) | ⟨a, ha, hk⟩)
      · exact ⟨x, Or.inl rfl, h⟩
      · exact ⟨y, Or.inr (Or.inl rfl), h⟩
      · by_cases haz : a = z
        · subst haz
          rw [Function.update_self, Term.tensors, List.mem_append] at hk
          rcases hk with h | h
          · exact ⟨x, Or.inl rfl, h⟩
          · exact ⟨y, Or.inr (Or.inl rfl), h⟩
        · rw [Function.update_of_ne haz] at hk
          exact ⟨a, Or.inr (Or.inr ⟨haz, ha⟩), hk⟩
    · rintro ⟨a, rfl | rfl | ⟨haz, ha⟩, hk⟩
      · exact Or.inl (Or.inl hk)
      · exact Or.inl (Or.inr hk)
      · exact Or.inr ⟨a, ha, by rwa [Function.update_of_ne haz]⟩

end Linear
end TNCO
