import Verif.Model.OrderedFrozenSet
import Mathlib.Data.List.Nodup
import Mathlib.Tactic.Tauto

/-! Helper lemmas on `unique_everseen`. -/

namespace TNCO
variable {α : Type} [DecidableEq α]

theorem uniqueLoop_mem (l seen : List α) (x : α) : x ∈ uniqueLoop seen l ↔ x ∈ l ∧ x ∉ seen := by
  induction l generalizing seen with
  | nil => simp [uniqueLoop]
  | cons y l ih =>
    unfold uniqueLoop
    split
    · next h =>
      rw [ih]
      constructor
      · rintro ⟨a, b⟩; exact ⟨by simp [a], b⟩
      · rintro ⟨a, b⟩
        rcases List.mem_cons.1 a with rfl | a
        · exact absurd h b
        · exact ⟨a, b⟩
    · next h =>
      simp only [List.mem_cons, ih]
      by_cases hx : x = y
      · subst hx; simp [h]
      · simp [hx]

theorem uniqueLoop_nodup (l seen : List α) : (uniqueLoop seen l).Nodup := by
  induction l generalizing seen with
  | nil => simp [uniqueLoop]
  | cons y l ih =>
    unfold uniqueLoop
    split
    · exact ih _
    · exact List.nodup_cons.2 ⟨fun h => by have := (uniqueLoop_mem _ _ _).1 h; simp at this, ih _⟩

theorem uniqueLoop_of_disjoint (l seen : List α) (h : l.Nodup) (hd : ∀ x ∈ l, x ∉ seen) : uniqueLoop seen l = l := by
  induction l generalizing seen with
  | nil => rfl
  | cons y l ih =>
    unfold uniqueLoop
    rw [if_neg (hd y (by simp)), ih (y :: seen) h.of_cons]
    intro x hx
    simp only [List.mem_cons, not_or]
    exact ⟨fun e => by subst e; exact (List.nodup_cons.1 h).1 hx, hd x (by simp [hx])⟩

theorem uniqueEverseen_of_nodup {l : List α} (h : l.Nodup) : uniqueEverseen l = l :=
  uniqueLoop_of_disjoint l [] h (by simp)

theorem uniqueLoop_append (a b seen : List α) :
    uniqueLoop seen (a ++ b) = uniqueLoop seen a ++ uniqueLoop (a ++ seen) b := by
  induction a generalizing seen with
  | nil => rfl
  | cons x a ih =>
    have hcongr : ∀ (l s s' : List α), (∀ y, y ∈ s ↔ y ∈ s') → uniqueLoop s l = uniqueLoop s' l := by
      intro l
      induction l with
      | nil => intros; rfl
      | cons z l ih2 =>
        intro s s' h
        unfold uniqueLoop
        by_cases hz : z ∈ s
        · rw [if_pos hz, if_pos ((h z).1 hz), ih2 s s' h]
        · rw [if_neg hz, if_neg fun h' => hz ((h z).2 h'), ih2 (z :: s) (z :: s') (by simp [h])]
    simp only [List.cons_append, uniqueLoop]
    split
    · next h =>
      rw [ih]
      congr 1
      refine hcongr _ _ _ fun y => ?_
      simp only [List.mem_append, List.mem_cons]
      constructor
      · rintro (a | a) <;> simp [a]
      · rintro (rfl | a | a)
        · exact Or.inr h
        · exact Or.inl a
        · exact Or.inr a
    · rw [ih, List.cons_append]
      congr 2
      refine hcongr _ _ _ fun y => ?_
      simp only [List.mem_append, List.mem_cons]
      tauto

theorem mem_uniqueEverseen {l : List α} {x : α} : x ∈ uniqueEverseen l ↔ x ∈ l := by
  unfold uniqueEverseen; rw [uniqueLoop_mem]; simp

theorem uniqueEverseen_nodup (l : List α) : (uniqueEverseen l).Nodup := uniqueLoop_nodup _ _

end TNCO
