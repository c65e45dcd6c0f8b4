import Verif.Lemmas.BalanceFour

/-! Helper lemmas: any generator is a choice of coins and numbers; the constructor accepts valid trees. -/

namespace TNCO
open PTree MeasureTheory

section
variable {σ P R : Type} [Zero R] [Add R] [Sub R] [LT R] [DecidableLT R] [LE P] [DecidableLE P]

omit [LE P] [DecidableLE P] in
theorem nn_draw (g : Prng σ P) (c : CTree) (dis : Bool) (s : σ) (B : ℕ) :
    ∀ u : P, (getCtreeNN g c dis s B).1 = (getCtreeNN drawPrng c dis ((g.next s).1, u) B).1 := by
  intro u
  unfold getCtreeNN drawPrng
  dsimp only
  split
  · split
    · rfl
    · split
      · split <;> rfl
      · split <;> rfl
  · rfl

omit [LE P] [DecidableLE P] in
theorem nn_state (c : CTree) (dis : Bool) (x : ℕ × P) (B : ℕ) : (getCtreeNN drawPrng c dis x B).2 = x := by
  unfold getCtreeNN drawPrng
  dsimp only
  split
  · split
    · rfl
    · split
      · split <;> rfl
      · split <;> rfl
  · rfl

theorem body_draw (g : Prng σ P) (m : CostModel R) (prob : R → R → P) (w : Walk σ R) (a c d e n : ℕ) :
    (Walk.body g m prob w a c d e).withPrng () =
      (Walk.body drawPrng m prob (w.withPrng (n, (g.uniform w.o.prng).1)) a c d e).withPrng () := by
  obtain ⟨nx, un⟩ := g
  unfold Walk.body
  cases hu : un w.o.prng with
  | mk u s2 =>
  simp only [Walk.withPrng, drawPrng, hu]
  split <;> rfl

theorem once_draw (g : Prng σ P) (m : CostModel R) (prob : R → R → P) (w : Walk σ R) :
    ∃ n u, (Walk.once g m prob w).withPrng () = (Walk.once drawPrng m prob (w.withPrng (n, u))).withPrng () := by
  have h1 := nn_draw g w.o.ctree w.o.disableShared w.o.prng w.posB
  cases hnn : getCtreeNN g w.o.ctree w.o.disableShared w.o.prng w.posB with
  | mk r s =>
    refine ⟨(g.next w.o.prng).1, (g.uniform s).1, ?_⟩
    have h2 := h1 (g.uniform s).1
    have h3 := nn_state w.o.ctree w.o.disableShared ((g.next w.o.prng).1, (g.uniform s).1) w.posB
    rw [hnn] at h2
    have h4 : getCtreeNN drawPrng w.o.ctree w.o.disableShared ((g.next w.o.prng).1, (g.uniform s).1) w.posB =
        (r, ((g.next w.o.prng).1, (g.uniform s).1)) := Prod.ext h2.symm h3
    unfold Walk.once
    have h5 : getCtreeNN drawPrng (w.withPrng ((g.next w.o.prng).1, (g.uniform s).1)).o.ctree
      (w.withPrng ((g.next w.o.prng).1, (g.uniform s).1)).o.disableShared
      (w.withPrng ((g.next w.o.prng).1, (g.uniform s).1)).o.prng (w.withPrng ((g.next w.o.prng).1, (g.uniform s).1)).posB = _ := h4
    rw [hnn, h5]
    cases r with
    | none => rfl
    | some x =>
      obtain ⟨a, c, d, e⟩ := x
      dsimp only
      exact body_draw g m prob { w with o := { w.o with prng := s } } a c d e _

theorem run_draw (g : Prng σ P) (m : CostModel R) (prob : R → R → P) :
    ∀ (fuel : ℕ) (w w' : Walk σ R) (v : Walk (ℕ × P) R), Walk.run g m prob fuel w = some w' → v.withPrng () = w.withPrng () →
      ∃ draws : List (ℕ × P), draws.length ≤ fuel ∧ w'.withPrng () = (Walk.after m prob draws v).withPrng () := by
  intro fuel
  induction fuel with
  | zero => intro w w' v h; simp [Walk.run] at h
  | succ k ih =>
    intro w w' v h hv
    obtain ⟨n, u, h1⟩ := once_draw g m prob w
    have e : ∀ x : ℕ × P, v.withPrng x = w.withPrng x := by
      intro x
      have : (v.withPrng ()).withPrng x = (w.withPrng ()).withPrng x := by rw [hv]
      exact this
    rw [Walk.run] at h
    cases hnn : getCtreeNN g w.o.ctree w.o.disableShared w.o.prng w.posB with
    | mk r s =>
      rw [hnn] at h
      cases r with
      | none =>
        simp only [Option.some.injEq] at h
        subst h
        exact ⟨[], by simp, hv.symm⟩
      | some x =>
        obtain ⟨a, c, d, e'⟩ := x
        simp only at h
        have ho : Walk.once g m prob w = Walk.body g m prob { w with o := { w.o with prng := s } } a c d e' := by
          unfold Walk.once; rw [hnn]
        rw [← ho] at h
        obtain ⟨ds, hl, hd⟩ := ih _ w' (Walk.once drawPrng m prob (w.withPrng (n, u))) h h1.symm
        refine ⟨(n, u) :: ds, by simp only [List.length_cons]; omega, ?_⟩
        rw [hd]
        simp only [Walk.after, List.foldl_cons, e]

end

variable {σ : Type}

/-- The constructor accepts a valid tree of positive cost. -/
theorem make_ok {m : CostModel ℝ} {c : CTree} (seed : σ) {dis : Bool} {t : PTree} (hwf : WellFormed c.tree t)
    (hv : c.isValid (!dis) = true) (hpos : 0 < treeCost m.get c.inds t) :
    ∃ o, InfOpt.make m c seed dis none = some (.ok o) ∧ o.totalCost = treeCost m.get c.inds t ∧ o.prng = seed := by
  obtain ⟨hd, hloc, -⟩ := (ctree_isValid_iff hwf _).1 hv
  obtain ⟨k, hk, k1, k2, k3⟩ := costCache_make (m := m) hwf hloc (fuel := c.fuel) (le_refl _)
  have hg := getCost_eq (m := m) hwf hloc (fuel := c.fuel) (le_refl _)
  have hO := oinv_fresh (m := m) (seed := seed) (minC := c) (mt := treeCost m.get c.inds t) hwf hv hk (out? := none) (by simp)
  have htot : (⟨c, dis, seed, c, k, hyperCache c, treeCost m.get c.inds t⟩ : InfOpt σ ℝ).totalCost = treeCost m.get c.inds t := by
    exact WInv.cost hO hwf
  refine ⟨⟨c, dis, seed, c, k, hyperCache c, treeCost m.get c.inds t⟩, ?_, htot, rfl⟩
  unfold InfOpt.make InfOpt.makeWith
  simp only [Option.getD_none, hv, Bool.not_true, Bool.or_self, Bool.false_eq_true, if_false, bind, pure, hk, hg, Option.bind_some]
  rw [if_neg]
  rw [htot]
  push Not
  exact ⟨hpos, hpos⟩

theorem treeCost_const {f : ISet → ℝ} {s : ISet} {t : PTree} :
    treeCost f (fun _ => s) t = (t.leaves.length - 1 : ℝ) * f s := by
  induction t with
  | leaf p => simp [treeCost, leaves]
  | node p l r ihl ihr =>
    simp only [treeCost, ihl, ihr, leaves, List.length_append, Finset.union_self]
    push_cast
    ring

theorem four_leaves {l : List Node} (hl : l.length = 7) {t : PTree} (h : WellFormed (Tree.ofList l) t) : t.leaves.length = 4 := by
  have h2 : t.postorder.length = 7 := by
    have hp : t.postorder.Perm (List.range 7) := by
      refine (List.perm_ext_iff_of_nodup h.nodup List.nodup_range).2 ?_
      intro p; rw [h.mem, List.mem_range]
      have : (Tree.ofList l).size = 7 := hl
      rw [this]
    rw [hp.length_eq, List.length_range]
  have h3 := t.length_postorder
  have h4 := t.length_leaves_pos
  omega

end TNCO
