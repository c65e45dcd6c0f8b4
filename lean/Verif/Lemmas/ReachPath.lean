import Verif.Lemmas.ReachMean

/-! Helper lemmas: an update whose exchanges are all accepted makes a move in the sense of Lemmas/ReachTree.lean. -/

namespace TNCO
open PTree MeasureTheory

variable {σ τ : Type}

/-- The subtrees along the path from the hole to the root. -/
def Ctx.pieces : Ctx → List PTree
  | .top => []
  | .frame _ _ s K => s :: K.pieces

theorem Ctx.length_pieces (K : Ctx) : K.pieces.length = K.depth := by
  induction K with
  | top => rfl
  | frame o p s K ih => simp [Ctx.pieces, Ctx.depth, ih]

namespace PTree

theorem SameTree.fork {o : Bool} {p p' : ℕ} {l l' r r' : PTree} (hl : SameTree l l') (hr : SameTree r r') :
    SameTree (fork o p l r) (.node p' l' r') := by
  cases o
  · exact .swap hr hl
  · exact .node hl hr

theorem sameTree_plug (K : Ctx) (t : PTree) : SameTree (K.plug t) (pile t K.pieces) := by
  induction K generalizing t with
  | top => exact .refl t
  | frame o p s K ih =>
    simp only [Ctx.plug, Ctx.pieces, pile_cons]
    exact (ih _).trans (SameTree.pile (.fork (.refl t) (.refl s)) _)

/-- The same path has the same subtrees along it. -/
theorem pile_pieces {q : ℕ} : ∀ (ps ps' : List PTree), (pile (.leaf q) ps').leaves.Nodup →
    SameTree (pile (.leaf q) ps) (pile (.leaf q) ps') → List.Forall₂ SameTree ps ps' := by
  have hq : ∀ ps, q ∈ (pile (.leaf q) ps).leaves := by
    intro ps; rw [leaves_pile]; simp [PTree.leaves]
  intro ps
  induction ps using List.reverseRecOn with
  | nil =>
    intro ps' hnd h
    rcases List.eq_nil_or_concat ps' with rfl | ⟨qs, c, rfl⟩
    · exact .nil
    · rw [List.concat_eq_append, pile_append] at h
      cases h
  | append_singleton qs c ih =>
    intro ps' hnd h
    rcases List.eq_nil_or_concat ps' with rfl | ⟨qs', c', rfl⟩
    · rw [pile_append] at h
      cases h
    · rw [List.concat_eq_append] at *
      rw [pile_append, pile_append] at h
      rw [pile_append] at hnd
      simp only [PTree.leaves, List.nodup_append] at hnd
      cases h with
      | node h1 h2 => exact List.rel_append (ih qs' hnd.1 h1) (.cons h2 .nil)
      | swap h1 h2 =>
        exfalso
        exact hnd.2.2 q (hq qs') q (h1.leaves.mem_iff.1 (hq qs)) rfl

variable {adj : ℕ → ℕ → Prop}

/-- The same choices with the same subtrees. -/
theorem Fits.congr : ∀ {x x' y y' : PTree} {cs : List (Bool × PTree)} {ps : List PTree}, SameTree x x' → SameTree y y' →
    List.Forall₂ SameTree ps (cs.map Prod.snd) → Fits adj x' y' cs →
    ∃ cs', cs'.map Prod.snd = ps ∧ Fits adj x y cs' ∧ SameTree (piles x y cs').1 (piles x' y' cs).1 ∧
      SameTree (piles x y cs').2 (piles x' y' cs).2
  | x, x', y, y', [], ps, hx, hy, hps, _ => by
    cases hps
    exact ⟨[], rfl, trivial, hx, hy⟩
  | x, x', y, y', (true, c) :: cs, ps, hx, hy, hps, hf => by
    cases hps with
    | cons hc hps =>
      next c' ps =>
      obtain ⟨cs', h1, h2, h3, h4⟩ := Fits.congr (x := .node 0 x c') (x' := .node 0 x' c) (.node hx hc) hy hps hf.2
      exact ⟨(true, c') :: cs', by simp [h1], ⟨hf.1.congr hx.symm.leaves hc.symm.leaves, h2⟩, h3, h4⟩
  | x, x', y, y', (false, c) :: cs, ps, hx, hy, hps, hf => by
    cases hps with
    | cons hc hps =>
      next c' ps =>
      obtain ⟨cs', h1, h2, h3, h4⟩ := Fits.congr (y := .node 0 y c') (y' := .node 0 y' c) hx (.node hy hc) hps hf.2
      exact ⟨(false, c') :: cs', by simp [h1], ⟨hf.1.congr hy.symm.leaves hc.symm.leaves, h2⟩, h3, h4⟩

/-- A move of a concrete tree. -/
theorem Moves.concrete {t t' : PTree} (h : Moves adj t t') (hnd : t.leaves.Nodup) :
    ∃ q ob B c K cs, t = (Ctx.frame ob B c K).plug (.leaf q) ∧ cs.map Prod.snd = K.pieces ∧ Fits adj (.leaf q) c cs ∧
      SameTree t' (.node 0 (piles (.leaf q) c cs).1 (piles (.leaf q) c cs).2) := by
  obtain ⟨q, c0, cs, h1, h2, h3⟩ := h
  have hq : q ∈ t.leaves := by
    rw [h1.leaves.mem_iff, leaves_pile]; simp [PTree.leaves]
  obtain ⟨K, rfl⟩ := exists_plug_leaf hq
  have hsame := (sameTree_plug K (.leaf q)).symm.trans h1
  have hps := pile_pieces _ _ (h1.leaves.nodup_iff.1 hnd) hsame
  cases K with
  | top => cases hps
  | frame ob B c K =>
    simp only [Ctx.pieces] at hps
    cases hps with
    | cons hc hps =>
      obtain ⟨cs', e1, e2, e3, e4⟩ := Fits.congr (x := .leaf q) (.refl _) hc hps h2
      exact ⟨q, ob, B, c, K, cs', rfl, e1, e2, h3.trans (.node e3.symm e4.symm)⟩

end PTree

/-! ### Acceptance -/

/-- Exchanges between trees with costs in a range are accepted with chance `p` at least. -/
def Accepts (lo hi p : ℝ) (prob : ℝ → ℝ → ℝ) : Prop :=
  ∀ delta old, lo ≤ old → old ≤ hi → lo ≤ old + delta → old + delta ≤ hi → p ≤ prob delta old

variable {m : CostModel ℝ} {out : ISet} {dis : Bool} {lf : ℕ → ISet} {N : ℕ} {M : ℕ}

/-- All costs are in a range. -/
def CostsIn (m : CostModel ℝ) (out : ISet) (dis : Bool) (lf : ℕ → ISet) (N : ℕ) (lo hi : ℝ) : Prop :=
  ∀ (w : Walk (ℕ × ℝ) ℝ) K s, LiveAt m out dis lf N w K s → lo ≤ w.total ∧ w.total ≤ hi

section path
variable {lo hi p : ℝ} (hM : 2 ≤ M) (hp1 : p ≤ 1) (hcost : CostsIn m out dis lf N lo hi) {prob : ℝ → ℝ → ℝ}
  (hacc : Accepts lo hi p prob)
include hM hp1 hcost hacc

theorem LiveAt.mean_step {K : Ctx} {k : ℕ} {w : Walk (ℕ × ℝ) ℝ} {o o' : Bool} {A : ℕ} {c d e : PTree}
    (h : LiveAt m out dis lf N w (.frame o A c K) (fork o' w.posB d e)) (hm : Meets (adjOf dis lf) d c)
    {f : InfOpt Unit ℝ → ENNReal} {x : ENNReal}
    (hx : ∀ w', LiveAt m out dis lf N w' K (fork o A (fork o' w.posB d c) e) → w'.posB = A → x ≤ Walk.mean M m prob f k w') :
    (M : ENNReal)⁻¹ * ENNReal.ofReal p * x ≤ Walk.mean M m prob f (k + 1) w := by
  obtain ⟨n, hn, hA⟩ := At.accept (w := w) h.inv h.dis h.size h.leafs hm
  simp only [Walk.mean]
  refine le_trans ?_ (avg_ge (n := n) (by omega))
  rw [mul_assoc]
  refine mul_le_mul_right (integral_ge hp1 fun u hu hup => ?_) _
  have hb := hcost w _ _ h
  have hle : p ≤ prob (candDelta m w A w.posB c.root d.root e.root) w.total := by
    obtain ⟨hL, ht⟩ := hA (fun _ _ => 1) 0 zero_le_one
    have hb' := hcost _ _ _ hL
    rw [ht] at hb'
    exact hacc _ _ hb.1 hb.2 hb'.1 hb'.2
  obtain ⟨hL, -⟩ := hA prob u (hup.trans hle)
  refine hx _ hL ?_
  have := hL.inv.root
  rw [root_fork] at this
  exact this.symm

/-- An update from a leaf follows the choices with some chance. -/
theorem LiveAt.mean_path {f : InfOpt Unit ℝ → ENNReal} {v : ENNReal} {T : PTree}
    (hf : ∀ o' t', After m out dis lf N o' t' → SameTree t' T → v ≤ f o') :
    ∀ (K : Ctx) (k : ℕ) (w : Walk (ℕ × ℝ) ℝ) (ob : Bool) (X Y x y : PTree) (cs : List (Bool × PTree)),
      LiveAt m out dis lf N w K (fork ob w.posB X Y) → SameTree X x → SameTree Y y → cs.map Prod.snd = K.pieces →
      Fits (adjOf dis lf) x y cs → SameTree T (.node 0 (piles x y cs).1 (piles x y cs).2) → K.depth ≤ k →
      ((M : ENNReal)⁻¹ * ENNReal.ofReal p) ^ K.depth * v ≤ Walk.mean M m prob f k w
  | .top, k, w, ob, X, Y, x, y, cs, h, hX, hY, hcs, hfit, hT, hk => by
    simp only [Ctx.pieces, List.map_eq_nil_iff] at hcs
    subst hcs
    rw [h.mean_top (by omega)]
    simp only [Ctx.depth, pow_zero, one_mul]
    exact hf _ _ h.after ((SameTree.fork hX hY).trans hT.symm)
  | .frame o A c K, 0, w, ob, X, Y, x, y, cs, h, hX, hY, hcs, hfit, hT, hk => by simp [Ctx.depth] at hk
  | .frame o A c K, k + 1, w, ob, X, Y, x, y, [], h, hX, hY, hcs, hfit, hT, hk => by simp [Ctx.pieces] at hcs
  | .frame o A c K, k + 1, w, ob, X, Y, x, y, (true, c') :: cs, h, hX, hY, hcs, hfit, hT, hk => by
    simp only [List.map_cons, Ctx.pieces, List.cons.injEq] at hcs
    obtain ⟨rfl, hcs⟩ := hcs
    simp only [Ctx.depth, pow_succ', mul_assoc]
    rw [← mul_assoc]
    refine LiveAt.mean_step hM hp1 hcost hacc h (hfit.1.congr hX.symm.leaves (List.Perm.refl _)) fun w' hw' hA => ?_
    subst hA
    exact LiveAt.mean_path hf K k w' o _ _ (.node 0 x c') y cs hw' (.fork hX (.refl c')) hY hcs hfit.2 hT
      (by simp only [Ctx.depth] at hk; omega)
  | .frame o A c K, k + 1, w, ob, X, Y, x, y, (false, c') :: cs, h, hX, hY, hcs, hfit, hT, hk => by
    simp only [List.map_cons, Ctx.pieces, List.cons.injEq] at hcs
    obtain ⟨rfl, hcs⟩ := hcs
    simp only [Ctx.depth, pow_succ', mul_assoc]
    rw [← mul_assoc]
    rw [fork_flip] at h
    refine LiveAt.mean_step hM hp1 hcost hacc h (hfit.1.congr hY.symm.leaves (List.Perm.refl _)) fun w' hw' hA => ?_
    subst hA
    rw [fork_flip] at hw'
    exact LiveAt.mean_path hf K k w' (!o) _ _ x (.node 0 y c') cs hw' hX (.fork hY (.refl c')) hcs hfit.2 hT
      (by simp only [Ctx.depth] at hk; omega)

/-- One update makes a given move with some chance. -/
theorem Live.mean_move (hNM : (N + 1) / 2 ≤ M) {o : InfOpt Unit ℝ} {t T : PTree} (h : Live m out dis lf N o t)
    (hmv : Moves (adjOf dis lf) t T) {f : InfOpt Unit ℝ → ENNReal} {v : ENNReal}
    (hf : ∀ o' t', After m out dis lf N o' t' → SameTree t' T → v ≤ f o') :
    (M : ENNReal)⁻¹ * ((M : ENNReal)⁻¹ * ENNReal.ofReal p) ^ N * v ≤ o.mean M m prob f := by
  have hwf := h.inv.wf
  simp only [Ctx.plug] at hwf
  obtain ⟨q, ob, B, c, K, cs, rfl, hcs, hfit, hT⟩ := hmv.concrete (leaves_nodup hwf.nodup)
  have hq : q < o.ctree.tree.nLeaves := (hwf.leaves q).1 (by rw [((Ctx.frame ob B c K).leaves_plug _).mem_iff]; simp [leaves])
  have hqM : q < M := by
    have := h.size
    unfold Tree.nLeaves at hq
    omega
  obtain ⟨hpar, hd, hL⟩ := h.start
  unfold InfOpt.mean
  refine le_trans ?_ (avg_ge (n := q) hqM)
  rw [mul_assoc]
  refine mul_le_mul_right ?_ _
  rw [Nat.mod_eq_of_lt hq]
  unfold InfOpt.leafMean
  simp only [root] at hpar
  rw [hpar]
  have key := LiveAt.mean_path hM hp1 hcost hacc hf K o.ctree.tree.size _ ob (.leaf q) c (.leaf q) c cs hL (.refl _) (.refl _) hcs
    hfit hT hd
  refine le_trans (mul_le_mul_left (pow_le_pow_right_of_le_one' ?_ ?_) _) key
  · have e1 : (M : ENNReal)⁻¹ ≤ 1 := by
      rw [ENNReal.inv_le_one]; exact_mod_cast (by omega : 1 ≤ M)
    have e2 : ENNReal.ofReal p ≤ 1 := by rw [← ENNReal.ofReal_one]; exact ENNReal.ofReal_le_ofReal hp1
    exact mul_le_one' e1 e2
  · rw [← h.size]; exact hd

end path

end TNCO
