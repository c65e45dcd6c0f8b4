import Verif.Lemmas.Wires
import Verif.Lemmas.Simplify

/-! Which indices of the tensor of a unitary gate can be merged. -/

namespace TNCO
variable {Q K ι : Type} [DecidableEq Q] [DecidableEq ι] [Field K] [StarRing K]

theorem row_entry {g : Gate Q K} (hg : IsGate g) (hu : IsUnitary g) {x x' : Q → ℕ} (hx : BitVals x) (hx' : BitVals x') :
    sumOver (fun _ => 2) g.2 (fun y => entry g x y * star (entry g x' y)) (fun _ => 0) = if ∀ q ∈ g.2, x q = x' q then 1 else 0 := by
  have := unitary_rows hu (binVal_lt (l := g.2) fun q _ => hx q) (binVal_lt (l := g.2) fun q _ => hx' q)
  rw [sum_binVal hg.nodup _ fun _ => 0] at this
  rw [show (sumOver (fun _ => 2) g.2 (fun y => entry g x y * star (entry g x' y)) fun _ => 0) = _ from this]
  have : binVal (g.2.map x) = binVal (g.2.map x') ↔ ∀ q ∈ g.2, x q = x' q :=
    ⟨fun e q hq => binVal_inj (fun q _ => hx q) (fun q _ => hx' q) e q hq, fun e => by rw [List.map_congr_left e]⟩
  simp only [this]

theorem zero_bits : BitVals (fun _ : Q => 0) := fun _ => by norm_num

theorem row_ne_zero {g : Gate Q K} (hg : IsGate g) (hu : IsUnitary g) {x : Q → ℕ} (hx : BitVals x) : ∃ y, BitVals y ∧ entry g x y ≠ 0 := by
  by_contra hno
  have := row_entry hg hu hx hx
  rw [if_pos fun _ _ => rfl, sumOver_zero] at this
  · exact zero_ne_one this
  · intro y h1 h2
    by_contra hne
    exact hno ⟨y, bits_of zero_bits h1 h2, fun e => hne (by rw [e, zero_mul])⟩

theorem col_ne_zero {g : Gate Q K} (hg : IsGate g) (hu : IsUnitary g) {y : Q → ℕ} (hy : BitVals y) : ∃ x, BitVals x ∧ entry g x y ≠ 0 := by
  by_contra hno
  have := unitary_entry hg hu hy hy
  rw [if_pos fun _ _ => rfl, sumOver_zero] at this
  · exact zero_ne_one this
  · intro x h1 h2
    by_contra hne
    exact hno ⟨x, bits_of zero_bits h1 h2, fun e => hne (by rw [e, mul_zero])⟩

theorem row_inj {g : Gate Q K} (hg : IsGate g) (hu : IsUnitary g) {x x' : Q → ℕ} (hx : BitVals x) (hx' : BitVals x')
    (h : ∀ y, BitVals y → entry g x y = entry g x' y) : ∀ q ∈ g.2, x q = x' q := by
  by_contra hno
  have h1 := row_entry hg hu hx' hx'
  have h2 := row_entry hg hu hx hx'
  rw [if_pos fun _ _ => rfl] at h1
  rw [if_neg hno, ← sumOver_congr fun y a b => by rw [h y (bits_of zero_bits a b)], h1] at h2
  exact one_ne_zero h2

theorem col_inj {g : Gate Q K} (hg : IsGate g) (hu : IsUnitary g) {y y' : Q → ℕ} (hy : BitVals y) (hy' : BitVals y')
    (h : ∀ x, BitVals x → entry g x y = entry g x y') : ∀ q ∈ g.2, y q = y' q := by
  by_contra hno
  have h1 := unitary_entry hg hu hy' hy'
  have h2 := unitary_entry hg hu hy hy'
  rw [if_pos fun _ _ => rfl] at h1
  rw [if_neg hno, ← sumOver_congr fun x a b => by rw [h x (bits_of zero_bits a b)], h1] at h2
  exact one_ne_zero h2

theorem merged_nil (f : ι → ℕ) : Merged ([] : List (ι × Finset ι)) f := fun x xs h => by simp [dget] at h

/-- An index that is merged with no other one can be changed. -/
theorem merged_update {R : Type} [CommRing R] {d : ι → ℕ} {a a' : NDArray R} {inds inds' : List ι} {H : List (ι × Finset ι)}
    (D : Decomposed d a inds [] a' inds' H) {x : ι} (hx : ∀ z ∈ inds, (∀ f, Merged H f → f x = f z) → z = x) (f : ι → ℕ) (v : ℕ) :
    Merged H (Function.update f x v) ↔ Merged H f := by
  have key : ∀ k ks, dget H k = some ks → ∀ y ∈ ks, (k = x ∨ y = x) → y = k := by
    intro k ks hk y hy h
    have hyi : y ∈ inds := by
      rcases D.inds_of' k ks hk y hy with ⟨_, _, h, -⟩ | h
      · simp [dget] at h
      · exact h
    have hki : k ∈ inds := by
      rcases D.inds_of k ks hk with ⟨_, _, h, -⟩ | h
      · simp [dget] at h
      · exact h
    rcases h with rfl | rfl
    · exact hx y hyi fun f hf => (hf _ ks hk y hy).symm
    · exact (hx k hki fun f hf => hf _ ks hk _ hy).symm
  have step : ∀ f : ι → ℕ, ∀ v, Merged H f → Merged H (Function.update f x v) := by
    intro f v h k ks hk y hy
    by_cases hc : k = x ∨ y = x
    · rw [key k ks hk y hy hc]
    · rw [not_or] at hc
      rw [Function.update_of_ne hc.1, Function.update_of_ne hc.2]
      exact h k ks hk y hy
  refine ⟨fun h => ?_, step f v⟩
  have := step _ (f x) h
  rwa [Function.update_idem, Function.update_eq_self] at this

/-- Values of outputs and inputs. -/
theorem exists_glue {l : List Q} {o i : Q → ι} (hn : (l.map o ++ l.map i).Nodup) {x y : Q → ℕ} (hx : BitVals x) (hy : BitVals y) :
    ∃ f : ι → ℕ, (∀ z, f z < 2) ∧ (∀ q ∈ l, f (o q) = x q) ∧ ∀ q ∈ l, f (i q) = y q := by
  classical
  have ho : ∀ q ∈ l, ∀ q' ∈ l, o q = o q' → q = q' := fun q hq q' hq' h => List.inj_on_of_nodup_map (List.nodup_append.1 hn).1 hq hq' h
  have hi : ∀ q ∈ l, ∀ q' ∈ l, i q = i q' → q = q' := fun q hq q' hq' h => List.inj_on_of_nodup_map (List.nodup_append.1 hn).2.1 hq hq' h
  have hd : ∀ q ∈ l, ∀ q' ∈ l, o q ≠ i q' := fun q hq q' hq' =>
    (List.nodup_append.1 hn).2.2 _ (List.mem_map.2 ⟨q, hq, rfl⟩) _ (List.mem_map.2 ⟨q', hq', rfl⟩)
  refine ⟨fun z => if h : ∃ q ∈ l, o q = z then x h.choose else if h : ∃ q ∈ l, i q = z then y h.choose else 0, ?_, ?_, ?_⟩
  · intro z
    simp only
    split
    · exact hx _
    · split
      · exact hy _
      · norm_num
  · intro q hq
    have h : ∃ q' ∈ l, o q' = o q := ⟨q, hq, rfl⟩
    simp only [dif_pos h]
    rw [ho _ h.choose_spec.1 q hq h.choose_spec.2]
  · intro q hq
    have h : ∃ q' ∈ l, i q' = i q := ⟨q, hq, rfl⟩
    have h0 : ¬ ∃ q' ∈ l, o q' = i q := fun ⟨q', h1, h2⟩ => hd q' h1 q hq h2
    simp only [dif_neg h0, dif_pos h]
    rw [hi _ h.choose_spec.1 q hq h.choose_spec.2]

section
variable {g : Gate Q K} (hg : IsGate g) (hu : IsUnitary g) {o i : Q → ι} (hn : (g.2.map o ++ g.2.map i).Nodup) {a a' : NDArray K}
  {inds' : List ι} {H : List (ι × Finset ι)} (ha : ∀ f : ι → ℕ, a.get ((g.2.map o ++ g.2.map i).map f) = entry g (fun q => f (o q)) fun q => f (i q))
  (D : Decomposed (fun _ => 2) a (g.2.map o ++ g.2.map i) [] a' inds' H)
include hg hu hn ha D

theorem gate_uout {x y : ι} (hx : x ∈ g.2.map o) (hy : y ∈ g.2.map o) (h : ∀ f, Merged H f → f x = f y) : x = y := by
  obtain ⟨q1, h1, rfl⟩ := List.mem_map.1 hx
  obtain ⟨q2, h2, rfl⟩ := List.mem_map.1 hy
  by_contra hne
  have hq : q1 ≠ q2 := fun e => hne (by rw [e])
  have hb : BitVals fun q : Q => if q = q2 then 1 else 0 := fun q => by simp only; split <;> norm_num
  obtain ⟨b, hbb, hz⟩ := row_ne_zero hg hu hb
  obtain ⟨f, f1, f2, f3⟩ := exists_glue hn hb hbb
  apply hz
  rw [← entry_congr f2 f3, ← ha]
  refine (D.value f (fun z _ => f1 z) (merged_nil f)).2 fun hm => ?_
  have := h f hm
  rw [f2 q1 h1, f2 q2 h2, if_neg hq, if_pos rfl] at this
  exact zero_ne_one this

theorem gate_uin {x y : ι} (hx : x ∈ g.2.map i) (hy : y ∈ g.2.map i) (h : ∀ f, Merged H f → f x = f y) : x = y := by
  obtain ⟨q1, h1, rfl⟩ := List.mem_map.1 hx
  obtain ⟨q2, h2, rfl⟩ := List.mem_map.1 hy
  by_contra hne
  have hq : q1 ≠ q2 := fun e => hne (by rw [e])
  have hb : BitVals fun q : Q => if q = q2 then 1 else 0 := fun q => by simp only; split <;> norm_num
  obtain ⟨b, hbb, hz⟩ := col_ne_zero hg hu hb
  obtain ⟨f, f1, f2, f3⟩ := exists_glue hn hbb hb
  apply hz
  rw [← entry_congr f2 f3, ← ha]
  refine (D.value f (fun z _ => f1 z) (merged_nil f)).2 fun hm => ?_
  have := h f hm
  rw [f3 q1 h1, f3 q2 h2, if_neg hq, if_pos rfl] at this
  exact zero_ne_one this

theorem entry_update (h0 : inds' = []) {x : ι} (hx : ∀ z ∈ g.2.map o ++ g.2.map i, (∀ f, Merged H f → f x = f z) → z = x) {f : ι → ℕ}
    (hf : ∀ z, f z < 2) {v : ℕ} (hv : v < 2) :
    entry g (fun q => Function.update f x v (o q)) (fun q => Function.update f x v (i q)) = entry g (fun q => f (o q)) fun q => f (i q) := by
  rw [← ha, ← ha]
  have hf' : ∀ z, Function.update f x v z < 2 := by
    intro z
    by_cases hz : z = x
    · rw [hz, Function.update_self]; exact hv
    · rw [Function.update_of_ne hz]; exact hf z
  have hm := merged_update D hx f v
  obtain ⟨a1, a2⟩ := D.value f (fun z _ => hf z) (merged_nil f)
  obtain ⟨b1, b2⟩ := D.value _ (fun z _ => hf' z) (merged_nil (Function.update f x v))
  by_cases h : Merged H f
  · rw [a1 h, b1 (hm.2 h), h0]; rfl
  · rw [a2 h, b2 fun h' => h (hm.1 h')]

theorem gate_scalIn (h0 : inds' = []) {x : ι} (hx : x ∈ g.2.map i) : ∃ y ∈ g.2.map o, ∀ f, Merged H f → f x = f y := by
  by_contra hno
  have hfree : ∀ z ∈ g.2.map o ++ g.2.map i, (∀ f, Merged H f → f x = f z) → z = x := by
    intro z hz hf
    rcases List.mem_append.1 hz with hz | hz
    · exact absurd ⟨z, hz, hf⟩ hno
    · exact (gate_uin hg hu hn ha D hx hz hf).symm
  obtain ⟨q0, hq0, rfl⟩ := List.mem_map.1 hx
  have hi : ∀ q ∈ g.2, ∀ q' ∈ g.2, i q = i q' → q = q' := fun q hq q' hq' h => List.inj_on_of_nodup_map (List.nodup_append.1 hn).2.1 hq hq' h
  have hd : ∀ q ∈ g.2, ∀ q' ∈ g.2, o q ≠ i q' := fun q hq q' hq' =>
    (List.nodup_append.1 hn).2.2 _ (List.mem_map.2 ⟨q, hq, rfl⟩) _ (List.mem_map.2 ⟨q', hq', rfl⟩)
  have hb : BitVals fun q : Q => if q = q0 then 1 else 0 := fun q => by simp only; split <;> norm_num
  have := col_inj hg hu (zero_bits (Q := Q)) hb (fun x hx => ?_) q0 hq0
  · simp at this
  obtain ⟨f, f1, f2, f3⟩ := exists_glue hn hx zero_bits
  have e := entry_update hg hu hn ha D h0 hfree f1 (v := 1) (by norm_num)
  rw [entry_congr f2 f3] at e
  rw [← e]
  refine entry_congr (fun q hq => ?_) fun q hq => ?_
  · rw [Function.update_of_ne (hd q hq q0 hq0), f2 q hq]
  · by_cases h : q = q0
    · rw [h, Function.update_self, if_pos rfl]
    · rw [Function.update_of_ne fun e => h (hi q hq q0 hq0 e), f3 q hq, if_neg h]

theorem gate_scalOut (h0 : inds' = []) {x : ι} (hx : x ∈ g.2.map o) : ∃ y ∈ g.2.map i, ∀ f, Merged H f → f y = f x := by
  by_contra hno
  have hfree : ∀ z ∈ g.2.map o ++ g.2.map i, (∀ f, Merged H f → f x = f z) → z = x := by
    intro z hz hf
    rcases List.mem_append.1 hz with hz | hz
    · exact (gate_uout hg hu hn ha D hx hz hf).symm
    · exact absurd ⟨z, hz, fun f h => (hf f h).symm⟩ hno
  obtain ⟨q0, hq0, rfl⟩ := List.mem_map.1 hx
  have ho : ∀ q ∈ g.2, ∀ q' ∈ g.2, o q = o q' → q = q' := fun q hq q' hq' h => List.inj_on_of_nodup_map (List.nodup_append.1 hn).1 hq hq' h
  have hd : ∀ q ∈ g.2, ∀ q' ∈ g.2, o q ≠ i q' := fun q hq q' hq' =>
    (List.nodup_append.1 hn).2.2 _ (List.mem_map.2 ⟨q, hq, rfl⟩) _ (List.mem_map.2 ⟨q', hq', rfl⟩)
  have hb : BitVals fun q : Q => if q = q0 then 1 else 0 := fun q => by simp only; split <;> norm_num
  have := row_inj hg hu (zero_bits (Q := Q)) hb (fun y hy => ?_) q0 hq0
  · simp at this
  obtain ⟨f, f1, f2, f3⟩ := exists_glue hn zero_bits hy
  have e := entry_update hg hu hn ha D h0 hfree f1 (v := 1) (by norm_num)
  rw [entry_congr f2 f3] at e
  rw [← e]
  refine entry_congr (fun q hq => ?_) fun q hq => ?_
  · by_cases h : q = q0
    · rw [h, Function.update_self, if_pos rfl]
    · rw [Function.update_of_ne fun e => h (ho q hq q0 hq0 e), f2 q hq, if_neg h]
  · rw [Function.update_of_ne (hd q0 hq0 q hq).symm, f3 q hq]

end
end TNCO
