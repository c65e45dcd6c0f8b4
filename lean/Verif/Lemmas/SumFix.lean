import Verif.Lemmas.SumClass

/-! Sums over the values of indices: renaming, exchanging, and a fixed base. -/

namespace TNCO
variable {ι κ R : Type} [DecidableEq ι] [DecidableEq κ]

/-- `g` on the indices in `l`, `f` elsewhere. -/
def over (l : List ι) (g f : ι → ℕ) : ι → ℕ := fun x => if x ∈ l then g x else f x

theorem over_mem {l : List ι} {g f : ι → ℕ} {x : ι} (h : x ∈ l) : over l g f x = g x := if_pos h
theorem over_not {l : List ι} {g f : ι → ℕ} {x : ι} (h : x ∉ l) : over l g f x = f x := if_neg h

/-- Renaming the indices summed over. -/
theorem sumOver_map [AddCommMonoid R] {d : κ → ℕ} {e : ι → κ} (he : Function.Injective e) {l : List ι} {F : (κ → ℕ) → R} {Φ : (ι → ℕ) → R}
    {f : κ → ℕ} (h : ∀ k, (∀ y, y ∉ l.map e → k y = f y) → (∀ x ∈ l, k (e x) < d (e x)) → F k = Φ fun x => k (e x)) :
    sumOver d (l.map e) F f = sumOver (fun x => d (e x)) l Φ fun x => f (e x) := by
  induction l generalizing f with
  | nil => exact h f (fun _ _ => rfl) (by simp)
  | cons x l ih =>
    rw [List.map_cons]
    unfold sumOver
    refine Finset.sum_congr rfl fun i hi => ?_
    rw [ih]
    · congr 1
      funext y
      by_cases hy : y = x
      · subst hy; rw [Function.update_self, Function.update_self]
      · rw [Function.update_of_ne hy, Function.update_of_ne fun h => hy (he h)]
    · intro k h1 h2
      refine h k ?_ ?_
      · intro y hy
        rw [List.map_cons, List.mem_cons, not_or] at hy
        rw [h1 y hy.2, Function.update_of_ne hy.1]
      · intro y hy
        by_cases hyl : y ∈ l
        · exact h2 y hyl
        · rcases List.mem_cons.1 hy with rfl | hy
          · rw [h1 (e y) fun hm => hyl (by obtain ⟨z, hz, hze⟩ := List.mem_map.1 hm; exact he hze ▸ hz), Function.update_self]
            exact Finset.mem_range.1 hi
          · exact absurd hy hyl

/-- Two independent sums can be exchanged. -/
theorem sumOver_comm2 [AddCommMonoid R] {d : ι → ℕ} {d' : κ → ℕ} (l : List ι) (m : List κ) (F : (ι → ℕ) → (κ → ℕ) → R) (a : ι → ℕ) (b : κ → ℕ) :
    sumOver d l (fun g => sumOver d' m (fun h => F g h) b) a = sumOver d' m (fun h => sumOver d l (fun g => F g h) a) b := by
  have key : ∀ (n : ℕ) (G : ℕ → (κ → ℕ) → R) (b : κ → ℕ),
      ∑ i ∈ Finset.range n, sumOver d' m (G i) b = sumOver d' m (fun h => ∑ i ∈ Finset.range n, G i h) b := by
    intro n G b
    induction m generalizing b with
    | nil => rfl
    | cons y m ih =>
      simp only [sumOver]
      rw [Finset.sum_comm]
      exact Finset.sum_congr rfl fun j _ => ih _
  induction l generalizing a with
  | nil => rfl
  | cons x l ih =>
    simp only [sumOver]
    simp only [ih]
    rw [key]

/-- A sum with any other base. -/
theorem sumOver_base [AddCommMonoid R] {d : ι → ℕ} (l : List ι) (F : (ι → ℕ) → R) (f b : ι → ℕ) :
    sumOver d l F f = sumOver d l (fun g => F (over l g f)) b := by
  refine sumOver_congr_base fun g g' h1 _ h3 => ?_
  congr 1
  funext x
  by_cases hx : x ∈ l
  · rw [over_mem hx, (h3 x hx).2]
  · rw [over_not hx, h1 x hx]

/-- A sum over two disjoint groups, as two independent sums. -/
theorem sumOver_append_fix [AddCommMonoid R] {d : ι → ℕ} (l m : List ι) (F : (ι → ℕ) → R) (b : ι → ℕ) :
    sumOver d (l ++ m) F b = sumOver d l (fun s => sumOver d m (fun u => F (over m u s)) b) b := by
  rw [sumOver_append]
  exact sumOver_congr fun s _ _ => sumOver_base m F s b

theorem sumOver_mul_right [CommSemiring R] {d : ι → ℕ} {l : List ι} (Q P : (ι → ℕ) → R) {f : ι → ℕ}
    (h : ∀ g, (∀ x, x ∉ l → g x = f x) → P g = P f) :
    sumOver d l (fun g => Q g * P g) f = sumOver d l Q f * P f := by
  rw [mul_comm, ← sumOver_mul_left P Q h]
  exact sumOver_congr fun g _ _ => mul_comm _ _

/-- The sum picks one assignment. -/
theorem sumOver_pick [AddCommMonoid R] {d : ι → ℕ} {l : List ι} (hn : l.Nodup) (F : (ι → ℕ) → R) (f v : ι → ℕ) (hv : ∀ x ∈ l, v x < d x) :
    sumOver d l (fun g => if ∀ x ∈ l, g x = v x then F g else 0) f = F (over l v f) := by
  induction l generalizing f with
  | nil =>
    have : over [] v f = f := funext fun x => over_not (by simp)
    simp [sumOver, this]
  | cons x l ih =>
    rw [List.nodup_cons] at hn
    unfold sumOver
    rw [Finset.sum_eq_single (v x)]
    · rw [sumOver_congr (F' := fun g => if ∀ y ∈ l, g y = v y then F g else 0), ih hn.2 _ fun y hy => hv y (by simp [hy])]
      · congr 1
        funext y
        unfold over
        by_cases hy : y ∈ l
        · rw [if_pos hy, if_pos (by simp [hy])]
        · rw [if_neg hy]
          by_cases hyx : y = x
          · subst hyx; simp
          · rw [Function.update_of_ne hyx, if_neg (by simp [hy, hyx])]
      · intro g h1 _
        have e : g x = v x := by rw [h1 x hn.1, Function.update_self]
        have : (∀ y ∈ x :: l, g y = v y) ↔ ∀ y ∈ l, g y = v y := by
          simp [e]
        simp only [this]
    · intro i _ hi
      refine sumOver_zero fun g h1 _ => ?_
      rw [if_neg]
      intro h
      have := h x (by simp)
      rw [h1 x hn.1, Function.update_self] at this
      exact hi this
    · intro h
      exact absurd (Finset.mem_range.2 (hv x (by simp))) h

end TNCO
