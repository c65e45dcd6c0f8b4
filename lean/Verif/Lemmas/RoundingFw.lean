import Verif.Lemmas.FloatWidth
import Verif.Props.Rounding
import Verif.Props.FiniteWidth

/-! The finite-width optimizer with floating-point costs. -/

namespace TNCO
open PTree

section
variable {σ P R W : Type} [Zero R] [Add R] [Sub R] [LT R] [DecidableLT R] [LE P] [DecidableLE P]
  [Add W] [Sub W] [LT W] [DecidableLT W] [LE W] [DecidableLE W]

/-- Nothing is asked of the widths. -/
theorem trivial_width (wm : WidthModel W) (U : ISet) : WidthRel wm U ∅ (fun _ _ => True) (fun _ => True) (fun _ => True) :=
  ⟨fun _ => trivial, fun _ _ _ => trivial, fun _ _ _ _ => trivial, fun _ _ _ => trivial, fun _ _ _ => trivial, fun _ _ _ => trivial,
    fun _ _ => trivial⟩

/-- The Python constructor calls the C++ constructor. -/
theorem pyMakeWith_make {bad : R → Prop} [DecidablePred bad] {over : W → Prop} [DecidablePred over] {g : FwPrng σ P} {m : CostModel R}
    {wm : WidthModel W} {c : CTree} {maxNew : ℕ} {seed : σ} {dis : Bool} {skip : ISet} {minC : Option CTree} {slices minSlices : Option ISet}
    {o : FwOpt σ R W} (h : FwOpt.pyMakeWith bad over g m wm c maxNew seed dis skip minC slices minSlices = some (.ok o)) :
    FwOpt.makeWith bad g m wm c maxNew seed dis (if skip = ∅ then none else some skip) minC slices minSlices = some (.ok o) := by
  unfold FwOpt.pyMakeWith at h
  split at h
  · simp at h
  · exact h

theorem skip_getD (skip : ISet) : (if skip = ∅ then none else some skip : Option ISet).getD ∅ = skip := by
  split
  · next h => rw [h]; rfl
  · rfl

theorem skip_some {skip k : ISet} (h : (if skip = ∅ then none else some skip : Option ISet) = some k) : k = skip := by
  split at h
  · cases h
  · exact (Option.some.inj h).symm

theorem frun_append_raw (g : FwPrng σ P) (m : CostModel R) (wm : WidthModel W) (p1 p2 : List ((R → R → P) × Bool)) (o : FwOpt σ R W) :
    o.run g m wm (p1 ++ p2) = (o.run g m wm p1).bind fun o' => o'.run g m wm p2 := by
  induction p1 generalizing o with
  | nil => rfl
  | cons p ps ih =>
    obtain ⟨prob, u⟩ := p
    simp only [List.cons_append, FwOpt.run]
    cases o.update g m wm prob u with
    | error e => rfl
    | ok o' => exact ih o'

/-- Where the recorded minimum comes from. -/
theorem fmin_source {G : Type} [AddCommGroup G] [LinearOrder G] [IsOrderedAddMonoid G] {m : CostModel R} {m' : CostModel G} {C D : R → G → Prop}
    {wm : WidthModel W} {U ks : ISet} {V : W → ISet → Prop} {Fits Over : ISet → Prop} (hr : ShadowRel m m' C D) (hV : WidthRel wm U ks V Fits Over)
    (g : FwPrng σ P) (probs : List ((R → R → P) × Bool)) : ∀ {o o' : FwOpt σ R W} {v : InfOpt σ G} {t : PTree},
      FOShadow m' C D wm U ks none false o v t → o.run g m wm probs = .ok o' →
      (o'.inf.minCtree = o.inf.minCtree ∧ o'.minSlices = o.minSlices) ∨
        ∃ p1 p2 o1, probs = p1 ++ p2 ∧ o.run g m wm p1 = .ok o1 ∧ o'.inf.minCtree = o1.inf.ctree ∧ o'.minSlices = o1.slices := by
  induction probs with
  | nil => rintro o o' v t - ⟨⟩; exact Or.inl ⟨rfl, rfl⟩
  | cons pr ps ih =>
    intro o o' v t hI hrun
    obtain ⟨prob, u⟩ := pr
    rcases fupdate_shadow g hr hV prob u (by simp) hI with ⟨h1, -⟩ | ⟨o1, v1, t1, h1, hi1, hs1, -, -, hmin, -⟩
    · simp only [FwOpt.run, h1] at hrun; cases hrun
    have hr1 : o.run g m wm [(prob, u)] = .ok o1 := by simp [FwOpt.run, h1]
    simp only [FwOpt.run, h1] at hrun
    rcases ih hi1 hrun with ⟨a, c⟩ | ⟨p1, p2, o2, rfl, hr, hc, hsl⟩
    · rcases hmin with ⟨-, -, c2, c3⟩ | ⟨-, -, c2, c3⟩
      · exact Or.inr ⟨[(prob, u)], ps, o1, rfl, hr1, a.trans c2, c.trans c3⟩
      · exact Or.inl ⟨a.trans c2, c.trans c3⟩
    · refine Or.inr ⟨(prob, u) :: p1, p2, o2, rfl, ?_, hc, hsl⟩
      simp [FwOpt.run, h1, hr]

/-- A history that starts with the Python constructor. -/
theorem fhistory_from_py {m : CostModel R} {wm : WidthModel W} {U ks : ISet} {V : W → ISet → Prop} {Fits Over : ISet → Prop}
    (hV : WidthRel wm U ks V Fits Over) {bad : R → Prop} [DecidablePred bad] {over : W → Prop} [DecidablePred over] (g : FwPrng σ P) {c : CTree}
    {maxNew : ℕ} {seed : σ} {dis : Bool} {skip : ISet} {slices : Option ISet} {o0 : FwOpt σ R W} (htree : IsTree c.tree)
    (hU : ∀ q < c.tree.nLeaves, c.inds q ⊆ U) (hkeep : ks ⊆ skip ∨ maxNew = 0)
    (hgiven : ∀ sl, slices = some sl → sl ⊆ U ∧ Disjoint sl skip)
    (hmk : FwOpt.pyMakeWith bad over g m wm c maxNew seed dis skip none slices none = some (.ok o0)) (ps : List ((R → R → P) × Bool)) :
    (o0.run g m wm ps = .error .divByZero ∧ 0 < maxNew ∧ ∃ xs ⊆ U, xs ⊆ skip ∧ Over xs) ∨
    ∃ o, o0.run g m wm ps = .ok o ∧ (∀ p < o.inf.ctree.tree.size, o.inf.ctree.inds p ⊆ U) ∧
      (∀ p < o.inf.ctree.tree.size, Fits (o.inf.ctree.inds p \ o.slices)) ∧
      (∀ p < o.inf.minCtree.tree.size, o.inf.minCtree.inds p ⊆ U) ∧
      ∀ p < o.inf.minCtree.tree.size, Fits (o.inf.minCtree.inds p \ o.minSlices) := by
  obtain ⟨t0, hwf⟩ := htree
  obtain ⟨v, hO, hc, -, hmc, hms, -, -, -, -, -, hsk, hmn, hfit, -⟩ := fmake_shadow g (trivial_rel m) hV hwf hU (by rw [skip_getD]; exact hkeep)
    (fun sl h => ⟨(hgiven sl h).1, fun k hk => by rw [skip_some hk]; exact (hgiven sl h).2⟩) (pyMakeWith_make hmk) (out? := none) (by simp)
  simp only [Option.getD_none] at hmc hms
  have hall : ∀ qs, (o0.run g m wm qs = .error .divByZero ∧ 0 < maxNew ∧ ∃ xs ⊆ U, xs ⊆ skip ∧ Over xs) ∨
      ∃ o, o0.run g m wm qs = .ok o ∧ (∀ p < o.inf.ctree.tree.size, o.inf.ctree.inds p ⊆ U) ∧
        ∀ p < o.inf.ctree.tree.size, Fits (o.inf.ctree.inds p \ o.slices) := by
    intro qs
    rcases fhistory_shadow g (trivial_rel m) hV (by intro h; simp at h) qs hO with ⟨h, h1, h2⟩ | ⟨o, v', t', h, hO', -, -, -, hf⟩
    · rw [hmn] at h1; rw [hsk, skip_getD] at h2
      exact Or.inl ⟨h, h1, h2⟩
    · exact Or.inr ⟨o, h, hO'.indsU, hf hfit⟩
  rcases hall ps with h | ⟨o, h, h1, h2⟩
  · exact Or.inl h
  refine Or.inr ⟨o, h, h1, h2, ?_⟩
  rcases fmin_source (trivial_rel m) hV g ps hO h with ⟨a, b⟩ | ⟨p1, p2, o1, -, hr, a, b⟩
  · rw [a, b, hmc, hms, ← hc]
    exact ⟨hO.indsU, hfit⟩
  · rcases hall p1 with ⟨h', -⟩ | ⟨o2, h', q1, q2⟩
    · rw [hr] at h'; cases h'
    · rw [hr] at h'; cases h'
      rw [a, b]; exact ⟨q1, q2⟩

end

section
variable {σ P W : Type} [LE P] [DecidableLE P] [Add W] [Sub W] [LT W] [DecidableLT W] [LE W] [DecidableLE W]
variable {F : FloatFormat} {p kc : ℕ} {U ks : ISet} {m : CostModel (Fl F)} {wm : WidthModel W} {cost : ISet → ℕ} {V : W → ISet → Prop}
  {Fits Over : ISet → Prop}

theorem RoundedCosts.sliced (h : RoundedCosts F p kc U m cost) {S : ISet} (hS : S ⊆ U) :
    RoundedCosts F p kc U (m.sliced S) (fun X => cost (X ∪ S)) :=
  ⟨h.one, h.prec, fun s hs => h.get (s ∪ S) (Finset.union_subset hs hS)⟩

theorem ledger_sliced {S : ISet} (hS : S ⊆ U) : (ledgerModel U cost).sliced S = ledgerModel U (fun X => cost (X ∪ S)) := by
  unfold CostModel.sliced ledgerModel
  congr 1
  funext s
  have : s ∪ S ⊆ U ↔ s ⊆ U := ⟨fun h => Finset.subset_union_left.trans h, fun h => Finset.union_subset h hS⟩
  simp only [this]

/-- The total cost of a state of the optimizer. -/
theorem fshadow_total {o : FwOpt σ (Fl F) W} {v : InfOpt σ Ledger} {t : PTree}
    (h : FOShadow (ledgerModel U cost) (LedgerC F p kc) (LedgerD F p kc) wm U ks none false o v t) :
    WellFormed o.inf.ctree.tree t ∧ t.All (LocQ o.inf.ctree.inds) ∧
      Within F p (kc + (o.inf.ctree.tree.size - 1)) o.inf.totalCost (treeCost (fun X => cost (X ∪ o.slices)) o.inf.ctree.inds t : ℕ) := by
  have hi := h.inv
  rw [ledger_sliced h.slicesU] at hi
  exact shadow_total hi h.shadow h.leafU

/-- How the minimum develops along a history. -/
theorem fmin_history_shadow (hm : RoundedCosts F p kc U m cost) (hV : WidthRel wm U ks V Fits Over) (g : FwPrng σ P)
    (probs : List ((Fl F → Fl F → P) × Bool)) : ∀ {o o' : FwOpt σ (Fl F) W} {v : InfOpt σ Ledger} {t : PTree},
      FOShadow (ledgerModel U cost) (LedgerC F p kc) (LedgerD F p kc) wm U ks none false o v t →
      o.inf.ctree.tree.size ≠ 1 → o.inf.minTotal ≠ Flt.nan → o.run g m wm probs = .ok o' →
      o'.inf.minTotal ≠ Flt.nan ∧ ¬ o.inf.minTotal < o'.inf.minTotal ∧ (probs ≠ [] → ¬ o'.inf.totalCost < o'.inf.minTotal) ∧
      ((o'.inf.minCtree = o.inf.minCtree ∧ o'.inf.minTotal = o.inf.minTotal ∧ o'.minSlices = o.minSlices) ∨
        ∃ p1 p2 o1, p1 ≠ [] ∧ probs = p1 ++ p2 ∧ o.run g m wm p1 = .ok o1 ∧ o'.inf.minCtree = o1.inf.ctree ∧
          o'.inf.minTotal = o1.inf.totalCost ∧ o'.minSlices = o1.slices) := by
  induction probs with
  | nil => rintro o o' v t - - hn ⟨⟩; exact ⟨hn, not_lt_self _, by simp, Or.inl ⟨rfl, rfl, rfl⟩⟩
  | cons pr ps ih =>
    intro o o' v t hI hsz hn hrun
    obtain ⟨prob, u⟩ := pr
    rcases fupdate_shadow g (ledger_rel hm) hV prob u (by simp) hI with ⟨h1, -⟩ | ⟨o1, v1, t1, h1, hi1, hs1, -, -, hmin, -⟩
    · simp only [FwOpt.run, h1] at hrun; cases hrun
    have hr1 : o.run g m wm [(prob, u)] = .ok o1 := by simp [FwOpt.run, h1]
    simp only [FwOpt.run, h1] at hrun
    have hsz1 : o1.inf.ctree.tree.size ≠ 1 := by rw [hi1.shadow.ctree, hs1.size, ← hI.shadow.ctree]; exact hsz
    have ht1 := (fshadow_total hi1).2.2.ne_nan
    have hm1 : o1.inf.minTotal ≠ Flt.nan ∧ ¬ o.inf.minTotal < o1.inf.minTotal ∧ ¬ o1.inf.totalCost < o1.inf.minTotal := by
      rcases hmin with ⟨a, b, -⟩ | ⟨a | a, b, -⟩
      · rw [b]
        refine ⟨ht1, ?_, not_lt_self _⟩
        intro hlt
        exact flt_asymm hlt a
      · rw [b]; exact ⟨hn, not_lt_self _, a⟩
      · exact absurd a hsz
    obtain ⟨q0, q1, q2, q3⟩ := ih hi1 hsz1 hm1.1 hrun
    refine ⟨q0, not_lt_trans' hm1.1 q1 hm1.2.1, ?_, ?_⟩
    · intro _
      cases ps with
      | nil => simp only [FwOpt.run, Except.ok.injEq] at hrun; subst hrun; exact hm1.2.2
      | cons a b => exact q2 (by simp)
    · rcases q3 with ⟨a, b, c⟩ | ⟨p1, p2, o2, hne, rfl, hr, hc, ht, hsl⟩
      · rcases hmin with ⟨-, c1, c2, c3⟩ | ⟨-, c1, c2, c3⟩
        · exact Or.inr ⟨[(prob, u)], ps, o1, by simp, rfl, hr1, a.trans c2, b.trans c1, c.trans c3⟩
        · exact Or.inl ⟨a.trans c2, b.trans c1, c.trans c3⟩
      · refine Or.inr ⟨(prob, u) :: p1, p2, o2, by simp, rfl, ?_, hc, ht, hsl⟩
        simp [FwOpt.run, h1, hr]

end
end TNCO
