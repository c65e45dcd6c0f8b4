import Verif.Lemmas.Balance

/-! Helper lemmas: an integer below `M` gives a fair coin if `M` is even, and a uniform leaf if the number of leaves divides it. -/

namespace TNCO
open MeasureTheory

variable {σ τ : Type} {m : CostModel ℝ} {prob : ℝ → ℝ → ℝ}

theorem sum_mod (f : ℕ → ENNReal) (L : ℕ) : ∀ k : ℕ,
    ∑ n ∈ Finset.range (L * k), f (n % L) = (k : ENNReal) * ∑ q ∈ Finset.range L, f q
  | 0 => by simp
  | k + 1 => by
    rw [Nat.mul_succ, Finset.sum_range_add, sum_mod f L k]
    have : ∑ x ∈ Finset.range L, f ((L * k + x) % L) = ∑ q ∈ Finset.range L, f q := by
      refine Finset.sum_congr rfl fun x hx => ?_
      rw [Nat.mul_add_mod, Nat.mod_eq_of_lt (Finset.mem_range.1 hx)]
    rw [this]; push_cast; ring

theorem mean_mod (f : ℕ → ENNReal) {L M : ℕ} (h : L ∣ M) (hM : 0 < M) :
    (M : ENNReal)⁻¹ * ∑ n ∈ Finset.range M, f (n % L) = (L : ENNReal)⁻¹ * ∑ q ∈ Finset.range L, f q := by
  obtain ⟨k, rfl⟩ := h
  have hk : (k : ENNReal) ≠ 0 := by
    rintro h0
    have : k = 0 := by exact_mod_cast h0
    simp [this] at hM
  rw [sum_mod, Nat.cast_mul, ENNReal.mul_inv (Or.inr (ENNReal.natCast_ne_top _)) (Or.inl (ENNReal.natCast_ne_top _)),
    mul_assoc, ← mul_assoc (k : ENNReal)⁻¹, ENNReal.inv_mul_cancel hk (ENNReal.natCast_ne_top _), one_mul]

theorem mean_two (f : ℕ → ENNReal) {M : ℕ} (h : 2 ∣ M) (hM : 0 < M) :
    (M : ENNReal)⁻¹ * ∑ n ∈ Finset.range M, f (n % 2) = 2⁻¹ * f 0 + 2⁻¹ * f 1 := by
  rw [mean_mod f h hM]
  simp [Finset.sum_range_succ, mul_add]

/-- Only the parity of the integer matters. -/
theorem once_parity (w : Walk σ ℝ) (n : ℕ) (u : ℝ) (s : τ) :
    (Walk.once drawPrng m prob (w.withPrng (n, u))).withPrng s =
      (Walk.once drawPrng m prob (w.withPrng (n % 2, u))).withPrng s := by
  have key : ∀ n' : ℕ, n' % 2 = n % 2 →
      (getCtreeNN (P := ℝ) drawPrng w.o.ctree w.o.disableShared (n', u) w.posB) =
        ((getCtreeNN (P := ℝ) drawPrng w.o.ctree w.o.disableShared (n, u) w.posB).1, (n', u)) := by
    intro n' hn'
    unfold getCtreeNN drawPrng
    simp only [hn']
    repeat' split
    all_goals first | rfl | simp_all
  have hb : ∀ (n' : ℕ) (a c d e : ℕ),
      (Walk.body drawPrng m prob (w.withPrng (n', u)) a c d e).withPrng s =
        (Walk.body drawPrng m prob (w.withPrng (n, u)) a c d e).withPrng s := by
    intro n' a c d e
    unfold Walk.body drawPrng Walk.withPrng
    dsimp only
    split <;> rfl
  have h1 := key n rfl
  have h2 := key (n % 2) (Nat.mod_mod n 2)
  unfold Walk.once
  have e1 : getCtreeNN drawPrng (w.withPrng (n, u)).o.ctree (w.withPrng (n, u)).o.disableShared (w.withPrng (n, u)).o.prng
      (w.withPrng (n, u)).posB = getCtreeNN drawPrng w.o.ctree w.o.disableShared (n, u) w.posB := rfl
  have e2 : getCtreeNN drawPrng (w.withPrng (n % 2, u)).o.ctree (w.withPrng (n % 2, u)).o.disableShared
      (w.withPrng (n % 2, u)).o.prng (w.withPrng (n % 2, u)).posB =
        getCtreeNN drawPrng w.o.ctree w.o.disableShared (n % 2, u) w.posB := rfl
  rw [e1, e2, h2, h1]
  generalize (getCtreeNN (P := ℝ) drawPrng w.o.ctree w.o.disableShared (n, u) w.posB).1 = r
  cases r with
  | none => rfl
  | some r =>
    obtain ⟨a, c, d, e⟩ := r
    exact (hb (n % 2) a c d e).symm

theorem stepTree_parity (w : Walk σ ℝ) (n : ℕ) (u : ℝ) : w.stepTree m prob n u = w.stepTree m prob (n % 2) u :=
  congrArg (fun v : Walk Unit ℝ => v.o.ctree) (once_parity w n u ())

theorem stepChance_half {M : ℕ} (h : 2 ∣ M) (hM : 0 < M) (w : Walk σ ℝ) (T : CTree) :
    w.stepChance M m prob T = w.stepHalf m prob T := by
  unfold Walk.stepChance Walk.stepHalf
  rw [← mean_two (fun n => volume {u : ℝ | u ∈ Set.Ico 0 1 ∧ w.stepTree m prob n u = T}) h hM]
  congr 1
  refine Finset.sum_congr rfl fun n _ => ?_
  congr 1
  ext u
  simp only [Set.mem_ofPred_eq, stepTree_parity w n u]

theorem endHalf_prng : ∀ (k : ℕ) {w w' : Walk (ℕ × ℝ) ℝ} (T : CTree), w.withPrng () = w'.withPrng () →
    Walk.endHalf m prob k w T = Walk.endHalf m prob k w' T
  | 0, w, w', T, h => by
    have : w.o.ctree = w'.o.ctree := congrArg (fun v : Walk Unit ℝ => v.o.ctree) h
    unfold Walk.endHalf
    rw [this]
  | k + 1, w, w', T, h => by
    have : ∀ x : ℕ × ℝ, w.withPrng x = w'.withPrng x := fun x => congrArg (fun v : Walk Unit ℝ => v.withPrng x) h
    simp only [Walk.endHalf, this]

theorem endChance_half {M : ℕ} (h : 2 ∣ M) (hM : 0 < M) : ∀ (k : ℕ) (w : Walk (ℕ × ℝ) ℝ) (T : CTree),
    Walk.endChance M m prob k w T = Walk.endHalf m prob k w T
  | 0, w, T => rfl
  | k + 1, w, T => by
    unfold Walk.endChance Walk.endHalf
    rw [← mean_two (fun n => ∫⁻ u in Set.Ico (0 : ℝ) 1,
      Walk.endHalf m prob k (Walk.once drawPrng m prob (w.withPrng (n, u))) T) h hM]
    congr 1
    refine Finset.sum_congr rfl fun n _ => ?_
    congr 1
    funext u
    rw [endChance_half h hM k]
    exact endHalf_prng k T (once_parity w n u ())

theorem leafChance_half {M : ℕ} (h : 2 ∣ M) (hM : 0 < M) (o : InfOpt σ ℝ) (T : CTree) (q : ℕ) :
    o.leafChance M m prob T q = o.leafHalf m prob T q := by
  unfold InfOpt.leafChance InfOpt.leafHalf
  cases (o.ctree.tree.nodes q).parent with
  | none => rfl
  | some p => exact endChance_half h hM _ _ _

theorem updateChance_half {M : ℕ} (h : 2 ∣ M) (hM : 0 < M) (o : InfOpt σ ℝ) (hn : o.ctree.tree.nLeaves ∣ M) (T : CTree) :
    o.updateChance M m prob T = o.updateHalf m prob T := by
  unfold InfOpt.updateChance InfOpt.updateHalf
  rw [← mean_mod (fun q => o.leafHalf m prob T q) hn hM]
  congr 1
  exact Finset.sum_congr rfl fun n _ => leafChance_half h hM o T _

end TNCO
