import Verif.Lemmas.ReachStep

/-! Helper lemmas: expected values over updates. -/

namespace TNCO
open PTree MeasureTheory

variable {σ τ : Type}

/-! ### Averages -/

theorem avg_const {M : ℕ} (hM : 0 < M) (x : ENNReal) : (M : ENNReal)⁻¹ * ∑ _n ∈ Finset.range M, x = x := by
  rw [Finset.sum_const, Finset.card_range, nsmul_eq_mul, ← mul_assoc, ENNReal.inv_mul_cancel, one_mul]
  · exact Nat.cast_ne_zero.2 hM.ne'
  · exact ENNReal.natCast_ne_top M

theorem avg_affine {M : ℕ} (hM : 0 < M) (a b : ENNReal) (g : ℕ → ENNReal) :
    (M : ENNReal)⁻¹ * ∑ n ∈ Finset.range M, (a + b * g n) = a + b * ((M : ENNReal)⁻¹ * ∑ n ∈ Finset.range M, g n) := by
  rw [Finset.sum_add_distrib, mul_add, avg_const hM, ← Finset.mul_sum]
  ring

theorem avg_mono {M : ℕ} {g g' : ℕ → ENNReal} (h : ∀ n < M, g n ≤ g' n) :
    (M : ENNReal)⁻¹ * ∑ n ∈ Finset.range M, g n ≤ (M : ENNReal)⁻¹ * ∑ n ∈ Finset.range M, g' n :=
  mul_le_mul_right (Finset.sum_le_sum fun n hn => h n (Finset.mem_range.1 hn)) _

theorem avg_ge {M n : ℕ} {g : ℕ → ENNReal} (hn : n < M) : (M : ENNReal)⁻¹ * g n ≤ (M : ENNReal)⁻¹ * ∑ n ∈ Finset.range M, g n :=
  mul_le_mul_right (Finset.single_le_sum (f := g) (fun _ _ => zero_le) (Finset.mem_range.2 hn)) _

theorem integral_affine (a : ENNReal) {b : ENNReal} (hb : b ≠ ⊤) (g : ℝ → ENNReal) :
    ∫⁻ u in Set.Ico (0 : ℝ) 1, (a + b * g u) = a + b * ∫⁻ u in Set.Ico (0 : ℝ) 1, g u := by
  rw [lintegral_add_left measurable_const, ico_vol, lintegral_const_mul' _ _ hb]

theorem integral_ge {p : ℝ} (hp : p ≤ 1) {g : ℝ → ENNReal} {x : ENNReal}
    (h : ∀ u ∈ Set.Ico (0 : ℝ) 1, u ≤ p → x ≤ g u) : ENNReal.ofReal p * x ≤ ∫⁻ u in Set.Ico (0 : ℝ) 1, g u := by
  have h1 : ∫⁻ _ in Set.Ico (0 : ℝ) p, x ≤ ∫⁻ u in Set.Ico (0 : ℝ) p, g u :=
    setLIntegral_mono' measurableSet_Ico fun u hu => h u ⟨hu.1, hu.2.trans_le hp⟩ hu.2.le
  have h2 : ∫⁻ u in Set.Ico (0 : ℝ) p, g u ≤ ∫⁻ u in Set.Ico (0 : ℝ) 1, g u :=
    lintegral_mono_set fun u hu => ⟨hu.1, hu.2.trans_le hp⟩
  rw [setLIntegral_const, Real.volume_Ico, sub_zero, mul_comm] at h1
  exact h1.trans h2

/-! ### Affine functions -/

section affine
variable {M : ℕ} {m : CostModel ℝ} {a b : ENNReal}

theorem Walk.mean_affine (hM : 0 < M) (hb : b ≠ ⊤) (prob : ℝ → ℝ → ℝ) (f : InfOpt Unit ℝ → ENNReal) (k : ℕ)
    (w : Walk (ℕ × ℝ) ℝ) : Walk.mean M m prob (fun o => a + b * f o) k w = a + b * Walk.mean M m prob f k w := by
  induction k generalizing w with
  | zero => rfl
  | succ k ih =>
    simp only [Walk.mean, ih, integral_affine a hb]
    rw [avg_affine hM]

theorem InfOpt.mean_affine (hM : 0 < M) (hb : b ≠ ⊤) (prob : ℝ → ℝ → ℝ) (f : InfOpt Unit ℝ → ENNReal) (o : InfOpt Unit ℝ) :
    o.mean M m prob (fun o => a + b * f o) = a + b * o.mean M m prob f := by
  have : ∀ q, o.leafMean M m prob (fun o => a + b * f o) q = a + b * o.leafMean M m prob f q := by
    intro q
    unfold InfOpt.leafMean
    split
    · rfl
    · exact Walk.mean_affine hM hb _ _ _ _
  unfold InfOpt.mean
  simp only [this]
  rw [avg_affine hM]

theorem InfOpt.means_affine (hM : 0 < M) (hb : b ≠ ⊤) (f : InfOpt Unit ℝ → ENNReal) (probs : List (ℝ → ℝ → ℝ))
    (o : InfOpt Unit ℝ) : InfOpt.means M m (fun o => a + b * f o) probs o = a + b * InfOpt.means M m f probs o := by
  induction probs generalizing o with
  | nil => rfl
  | cons p ps ih =>
    simp only [InfOpt.means]
    rw [funext ih]
    exact InfOpt.mean_affine hM hb _ _ _

theorem InfOpt.means_append (f : InfOpt Unit ℝ → ENNReal) (ps qs : List (ℝ → ℝ → ℝ)) (o : InfOpt Unit ℝ) :
    InfOpt.means M m f (ps ++ qs) o = InfOpt.means M m (InfOpt.means M m f qs) ps o := by
  induction ps generalizing o with
  | nil => rfl
  | cons p ps ih =>
    simp only [List.cons_append, InfOpt.means]
    rw [funext ih]

end affine

/-! ### Invariants -/

variable {m : CostModel ℝ} {out : ISet} {dis : Bool} {lf : ℕ → ISet} {N : ℕ} {M : ℕ}

/-- What is known after an update. -/
def After (m : CostModel ℝ) (out : ISet) (dis : Bool) (lf : ℕ → ISet) (N : ℕ) (o : InfOpt Unit ℝ) (t : PTree) : Prop :=
  Live m out dis lf N o t ∧ o.minTotal ≤ o.totalCost

theorem updateMin_le (o : InfOpt σ ℝ) : o.updateMin.minTotal ≤ o.minTotal := by
  unfold InfOpt.updateMin
  split
  · next h => exact h.le
  · exact le_refl _

theorem updateMin_good (o : InfOpt σ ℝ) : o.updateMin.minTotal ≤ o.updateMin.totalCost := by
  unfold InfOpt.updateMin
  split
  · exact le_refl _
  · next h => exact not_lt.1 h

theorem updateMin_prng (w : Walk σ ℝ) (x : τ) : ((w.withPrng x).o.updateMin.withPrng ()) = w.o.updateMin.withPrng () := by
  have e : (w.withPrng x).o.totalCost = w.o.totalCost := rfl
  unfold InfOpt.updateMin
  rw [e]
  change (if w.o.totalCost < w.o.minTotal then _ else _ : InfOpt τ ℝ).withPrng () = _
  split <;> rfl

theorem LiveAt.after {w : Walk σ ℝ} {s : PTree} (h : LiveAt m out dis lf N w .top s) :
    After m out dis lf N (w.o.updateMin.withPrng ()) s := by
  obtain ⟨hO, -⟩ := oinv_of_winv h.inv
  refine ⟨?_, updateMin_good w.o⟩
  unfold InfOpt.updateMin
  split
  · exact ⟨⟨hO.wf, hO.root, hO.nodes, hO.leaf, hO.part, hO.tail, hO.total, hO.sem, hO.shr, hO.dis⟩, h.dis, h.size, h.leafs⟩
  · exact ⟨⟨hO.wf, hO.root, hO.nodes, hO.leaf, hO.part, hO.tail, hO.total, hO.sem, hO.shr, hO.dis⟩, h.dis, h.size, h.leafs⟩

theorem LiveAt.mean_top (hM : 0 < M) {w : Walk (ℕ × ℝ) ℝ} {s : PTree} (h : LiveAt m out dis lf N w .top s) (prob : ℝ → ℝ → ℝ)
    (f : InfOpt Unit ℝ → ENNReal) (k : ℕ) : Walk.mean M m prob f k w = f (w.o.updateMin.withPrng ()) := by
  induction k generalizing w with
  | zero => rfl
  | succ k ih =>
    simp only [Walk.mean]
    have : ∀ n u, Walk.mean M m prob f k (Walk.once drawPrng m prob (w.withPrng (n, u))) = f (w.o.updateMin.withPrng ()) := by
      intro n u
      rw [h.once_top, ih (h.withPrng _), updateMin_prng]
    simp only [this, ico_vol]
    exact avg_const hM _

/-- The expected value is monotone in the function on the states that an update can lead to. -/
theorem LiveAt.mean_mono (hM : 0 < M) (prob : ℝ → ℝ → ℝ) {f f' : InfOpt Unit ℝ → ENNReal} {mt : ℝ}
    (hf : ∀ o' t', After m out dis lf N o' t' → o'.minTotal ≤ mt → f o' ≤ f' o') :
    ∀ (K : Ctx) (k : ℕ) (w : Walk (ℕ × ℝ) ℝ) (s : PTree), LiveAt m out dis lf N w K s → K.depth ≤ k → w.o.minTotal ≤ mt →
      Walk.mean M m prob f k w ≤ Walk.mean M m prob f' k w
  | .top, k, w, s, h, _, hmt => by
    rw [h.mean_top hM, h.mean_top hM]
    exact hf _ _ h.after ((updateMin_le w.o).trans hmt)
  | .frame o A c K, 0, w, s, h, hk, hmt => by simp [Ctx.depth] at hk
  | .frame o A c K, k + 1, w, s, h, hk, hmt => by
    simp only [Walk.mean]
    refine avg_mono fun n _ => lintegral_mono fun u => ?_
    obtain ⟨s', h', hm'⟩ := h.once prob n u
    exact LiveAt.mean_mono hM prob hf K k _ s' h' (by simp only [Ctx.depth] at hk; omega) (hm'.le.trans hmt)

/-- The state of the loop when an update starts at a leaf. -/
theorem Live.start {o : InfOpt Unit ℝ} {K : Ctx} {ob : Bool} {B : ℕ} {x c : PTree}
    (h : Live m out dis lf N o ((Ctx.frame ob B c K).plug x)) :
    (o.ctree.tree.nodes x.root).parent = some B ∧ K.depth ≤ o.ctree.tree.size ∧
      LiveAt m out dis lf N ((⟨o, B, o.totalCost⟩ : Walk Unit ℝ).withPrng ((0 : ℕ), (0 : ℝ))) K (fork ob B x c) := by
  have hI := h.inv
  have henc := hI.wf.enc
  simp only [Ctx.plug] at henc
  rw [Ctx.encodes_plug, encodes_fork] at henc
  have hpart := hI.part
  simp only [Ctx.plug] at hpart
  rw [Ctx.all_plug] at hpart
  refine ⟨encodes_root_parent henc.2.2.1, ?_, ⟨⟨hI.wf, by simp [Walk.withPrng], hI.nodes, hI.leaf, hpart.2, ?_, hI.total, hI.sem,
    hI.shr, hI.dis⟩, ⟨ob, x, c, rfl⟩, h.dis, h.size, h.leafs⟩⟩
  · have hwf := hI.wf
    simp only at hwf
    have h1 := K.depth_le
    have h2 := hwf.nodup.length_le_of_subset (l₂ := List.range o.ctree.tree.size)
      (fun x hx => by simpa using (hwf.mem x).1 hx)
    have h3 := ((Ctx.frame ob B c K).postorder_plug x).length_eq
    simp only [Ctx.plug, Ctx.poss, List.length_append, List.length_cons, List.length_range] at h2 h3
    omega
  · exact Ctx.tail_of_all (fun _ _ _ _ _ _ hh => hh) hpart.1

theorem exists_plug_leaf {q : ℕ} {t : PTree} (h : q ∈ t.leaves) : ∃ K : Ctx, t = K.plug (.leaf q) := by
  have aux : ∀ (t : PTree) (K0 : Ctx), q ∈ t.leaves → ∃ K : Ctx, K0.plug t = K.plug (.leaf q) := by
    intro t
    induction t with
    | leaf p =>
      intro K0 h
      simp only [PTree.leaves, List.mem_singleton] at h
      subst h
      exact ⟨K0, rfl⟩
    | node p l r ihl ihr =>
      intro K0 h
      simp only [PTree.leaves, List.mem_append] at h
      rcases h with h | h
      · obtain ⟨K, hK⟩ := ihl (.frame true p r K0) h
        exact ⟨K, by rw [← hK]; simp [Ctx.plug, fork]⟩
      · obtain ⟨K, hK⟩ := ihr (.frame false p l K0) h
        exact ⟨K, by rw [← hK]; simp [Ctx.plug, fork]⟩
  simpa [Ctx.plug] using aux t .top h

theorem Live.mean_mono (hM : 0 < M) {o : InfOpt Unit ℝ} {t : PTree} (h : Live m out dis lf N o t) (hN : 1 < N)
    (prob : ℝ → ℝ → ℝ) {f f' : InfOpt Unit ℝ → ENNReal}
    (hf : ∀ o' t', After m out dis lf N o' t' → o'.minTotal ≤ o.minTotal → f o' ≤ f' o') :
    o.mean M m prob f ≤ o.mean M m prob f' := by
  unfold InfOpt.mean
  refine avg_mono fun n _ => ?_
  have hwf := h.inv.wf
  simp only [Ctx.plug] at hwf
  have hnl : 0 < o.ctree.tree.nLeaves := by
    have := hwf.size_eq
    unfold Tree.nLeaves; omega
  have hq : n % o.ctree.tree.nLeaves ∈ t.leaves := (hwf.leaves _).2 (Nat.mod_lt n hnl)
  generalize n % o.ctree.tree.nLeaves = q at hq
  obtain ⟨K, rfl⟩ := exists_plug_leaf hq
  cases K with
  | top =>
    exfalso
    have := hwf.size_eq
    have hs := h.size
    simp [Ctx.plug, PTree.leaves] at this
    omega
  | frame ob B c K =>
    obtain ⟨hp, hd, hL⟩ := h.start
    unfold InfOpt.leafMean
    simp only [root] at hp
    rw [hp]
    exact LiveAt.mean_mono hM prob hf K _ _ _ hL hd (le_refl _)

theorem Live.means_mono (hM : 0 < M) (hN : 1 < N) {f f' : InfOpt Unit ℝ → ENNReal} {mt : ℝ}
    (hf : ∀ o' t', After m out dis lf N o' t' → o'.minTotal ≤ mt → f o' ≤ f' o') (probs : List (ℝ → ℝ → ℝ)) :
    ∀ {o : InfOpt Unit ℝ} {t : PTree}, After m out dis lf N o t → o.minTotal ≤ mt →
      InfOpt.means M m f probs o ≤ InfOpt.means M m f' probs o := by
  induction probs with
  | nil => intro o t h hmt; exact hf o t h hmt
  | cons p ps ih =>
    intro o t h hmt
    simp only [InfOpt.means]
    exact Live.mean_mono hM h.1 hN p fun o' t' ha hle => ih ha (hle.trans hmt)

end TNCO
