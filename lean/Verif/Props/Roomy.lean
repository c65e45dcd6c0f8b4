import Verif.Lemmas.RoomyApp
import Verif.Lemmas.Fused

/-!
# Property C78: a width limit that nothing exceeds changes nothing

`Roomy` (Spec/Roomy.lean) says that no contraction of some of the tensors is wider than `max_width`. Then the finite-width
optimizer does what the infinite-memory optimizer does, with the same generator, and slices nothing.
-/

namespace TNCO
open PTree

section
variable {σ P R W : Type} [AddCommGroup R] [LinearOrder R] [LinearOrder P] [AddCommGroup W] [LinearOrder W] [IsOrderedAddMonoid W]

/-- C78, the constructor: both constructors accept the same arguments; the finite-width optimizer is the other one with its widths
and without slices. -/
theorem C78_make (g : FwPrng σ P) (m : CostModel R) (log2 : ℕ → W) (hlog : ∀ n, 0 ≤ log2 n) (wm : WidthModel W) (c : CTree) (maxNew : ℕ)
    (seed : σ) (dis : Bool) (skip : ISet) (t : PTree) (out : ISet) (hwm : OfferedWidth log2 c.dims wm) (hwf : WellFormed c.tree t)
    (hex : IndsExact c.inds out t) (hroom : Roomy wm c.inds out c.tree.nLeaves) :
    (∀ i, InfOpt.make m c seed dis none = some (.ok i) → FwOpt.pyMake g m wm c maxNew seed dis skip none none none =
      some (.ok ⟨i, maxNew, fun p => wm.width (c.inds p), if skip = ∅ then none else some skip, ∅, ∅⟩)) ∧
    (InfOpt.make (σ := σ) m c seed dis none = some (.error "domain_error") →
      FwOpt.pyMake g m wm c maxNew seed dis skip none none none = some (.error .domainError)) ∧
    (InfOpt.make (σ := σ) m c seed dis none = some (.error "invalid_argument") →
      FwOpt.pyMake g m wm c maxNew seed dis skip none none none = some (.error .invalidArgument)) ∧
    ∃ r, InfOpt.make m c seed dis none = some r := by
  have hr := room_of_roomy hroom
  have e := fpyMake_room g m (fun h => (offered_lawful hlog hwm).1.mono h) hwf (hr.self hwf hex) maxNew seed dis skip
  refine ⟨fun i hi => ?_, fun hi => ?_, fun hi => ?_, ?_⟩
  · rw [e, hi]; rfl
  · rw [e, hi]; rfl
  · rw [e, hi]; rfl
  · unfold InfOpt.make InfOpt.makeWith
    simp only [Option.getD_none, bind, pure]
    split
    · exact ⟨_, rfl⟩
    · next hv =>
      rw [Bool.or_self] at hv
      have hv : c.isValid (!dis) = true := by simpa using hv
      have hlf := ((ctree_isValid_iff hwf _).1 hv).2.1
      obtain ⟨k, hk, -⟩ := costCache_make (m := m) hwf hlf (fuel := c.fuel) (le_refl _)
      rw [getCost_eq (m := m) hwf hlf (fuel := c.fuel) (le_refl _), hk]
      simp only [Option.bind_some]
      split
      · exact ⟨_, rfl⟩
      · exact ⟨_, rfl⟩

/-- C78, the search: for every generator, every cost model, every history of updates and every setting of the slicing, the
finite-width optimizer returns, its trees, costs, draws and best tree are those of the infinite-memory optimizer after the same
acceptance functions, and nothing is ever sliced. -/
theorem C78_run (g : FwPrng σ P) (m : CostModel R) (log2 : ℕ → W) (hlog : ∀ n, 0 ≤ log2 n) (wm : WidthModel W) (c : CTree) (maxNew : ℕ)
    (seed : σ) (dis : Bool) (skip : ISet) (t : PTree) (out : ISet) (hwm : OfferedWidth log2 c.dims wm) (hwf : WellFormed c.tree t)
    (hex : IndsExact c.inds out t) (hroom : Roomy wm c.inds out c.tree.nLeaves) (i0 : InfOpt σ R)
    (hmk : InfOpt.make m c seed dis none = some (.ok i0)) (ps : List ((R → R → P) × Bool)) :
    ∃ o0 o, FwOpt.pyMake g m wm c maxNew seed dis skip none none none = some (.ok o0) ∧ o0.run g m wm ps = .ok o ∧
      i0.run g.toPrng m (ps.map Prod.fst) = some o.inf ∧ o.slices = ∅ ∧ o.minSlices = ∅ := by
  have h1 := (C78_make g m log2 hlog wm c maxNew seed dis skip t out hwm hwf hex hroom).1 i0 hmk
  obtain ⟨o, h2, h3, h4⟩ := frun_history_room g m wm (room_of_roomy hroom) ps
    (roomInv_make (wm := wm) hwf hex hmk maxNew (if skip = ∅ then none else some skip))
  exact ⟨_, o, h1, h2, h3, h4.slices, h4.minSlices⟩

omit [IsOrderedAddMonoid W] in
/-- One iteration does not touch the slices if `max_number_new_slices` is zero. -/
theorem fbody_slices {g : FwPrng σ P} {m : CostModel R} {wm : WidthModel W} {prob : R → R → P} {w w' : FwWalk σ R W} {a c d e : ℕ}
    (h : FwWalk.body g m wm prob w a c d e = .ok w') (h0 : w.o.maxNew = 0) :
    w'.o.slices = w.o.slices ∧ w'.o.minSlices = w.o.minSlices ∧ w'.o.maxNew = 0 := by
  unfold FwWalk.body at h
  dsimp only at h
  rw [h0] at h
  simp only [lt_self_iff_false, if_false] at h
  split at h
  · split at h
    · cases h; exact ⟨rfl, rfl, rfl⟩
    · cases h; exact ⟨rfl, rfl, rfl⟩
  · cases h; exact ⟨rfl, rfl, rfl⟩

omit [IsOrderedAddMonoid W] in
theorem frun_slices {g : FwPrng σ P} {m : CostModel R} {wm : WidthModel W} {prob : R → R → P} : ∀ (fuel : ℕ) {w w' : FwWalk σ R W},
    FwWalk.run g m wm prob fuel w = .ok w' → w.o.maxNew = 0 →
    w'.o.slices = w.o.slices ∧ w'.o.minSlices = w.o.minSlices ∧ w'.o.maxNew = 0
  | 0, w, w', h, _ => by simp [FwWalk.run] at h
  | fuel + 1, w, w', h, h0 => by
    rw [FwWalk.run] at h
    split at h
    · cases h; exact ⟨rfl, rfl, h0⟩
    · split at h
      · cases h
      · next hb =>
        have h1 := fbody_slices hb h0
        have h2 := frun_slices fuel h h1.2.2
        exact ⟨h2.1.trans h1.1, h2.2.1.trans h1.2.1, h2.2.2⟩

omit [IsOrderedAddMonoid W] in
/-- C78, whatever the limit: with `max_number_new_slices = 0` the slices never change in updates without `update_slices`, and a search
that starts without slices never has any, with or without `update_slices`. -/
theorem C78_fixed_slices (g : FwPrng σ P) (m : CostModel R) (wm : WidthModel W) (o0 : FwOpt σ R W) (h0 : o0.maxNew = 0)
    (ps : List ((R → R → P) × Bool)) (hps : o0.slices = ∅ ∨ ∀ p ∈ ps, p.2 = false) (o : FwOpt σ R W) (h : o0.run g m wm ps = .ok o) :
    o.slices = o0.slices ∧ (o.minSlices = o0.minSlices ∨ o.minSlices = o0.slices) := by
  induction ps generalizing o0 with
  | nil => cases h; exact ⟨rfl, .inl rfl⟩
  | cons p ps ih =>
    obtain ⟨prob, us⟩ := p
    rw [FwOpt.run] at h
    split at h
    · cases h
    · next o1 ho1 =>
      have key : o1.slices = o0.slices ∧ (o1.minSlices = o0.minSlices ∨ o1.minSlices = o0.slices) ∧ o1.maxNew = 0 := by
        unfold FwOpt.update at ho1
        dsimp only at ho1
        split at ho1
        · cases ho1; exact ⟨rfl, .inl rfl, h0⟩
        · split at ho1
          · cases ho1
          · next w hw =>
            have hw' := frun_slices _ hw h0
            have hs : w.o.updateSlices g m wm us = .ok w.o := by
              unfold FwOpt.updateSlices
              rw [if_neg]
              rw [hw'.1]
              rcases hps with hps | hps
              · simp [hps]
              · have : us = false := hps (prob, us) (by simp)
                simp [this]
            rw [hs] at ho1
            cases ho1
            unfold FwOpt.updateMin
            split
            · exact ⟨hw'.1, .inr hw'.1, hw'.2.2⟩
            · exact ⟨hw'.1, .inl hw'.2.1, hw'.2.2⟩
      obtain ⟨k1, k2, k3⟩ := key
      obtain ⟨j1, j2⟩ := ih o1 k3 (by
        rcases hps with hps | hps
        · exact .inl (k1.trans hps)
        · exact .inr fun q hq => hps q (by simp [hq])) h
      refine ⟨j1.trans k1, ?_⟩
      rcases j2 with j2 | j2
      · rw [j2]; exact k2
      · rw [j2]; exact .inr k1

end

section
variable {ι τ σ P V W C : Type} [DecidableEq ι] [LinearOrder P] [AddCommGroup W] [LinearOrder W] [IsOrderedAddMonoid W] [LinearOrder C]

/-- C78, the app: if no contraction of some of the tensors is wider than `max_width`, finite_width/sa.py gives what
infinite_memory/sa.py gives with the same seeds, in every schedule of the workers, with an empty set of slices everywhere; it leaves
the system in the same state, and it raises the same exceptions. -/
theorem C78_app (pr : Printer C) (E : SaEnv ι τ σ P V) (Wd : ParEnv V) (N : NetworkRec ι) (log2W : ℕ → W) (hlog : ∀ n, 0 ≤ log2W n)
    (maxWidth : W) (betas : Betas) (nSteps : Option ℚ) (nProjs : Option ℤ) (us : ℤ) (hus : us ≠ 0) (nJobs : ℤ) (seeds : List ℕ)
    (sched : List Event) (sys : Sys) (hE : E.Ok N) (hN : N.Plain) (hn : N.tensors ≠ [])
    (hroom : N.Roomy ⟨some N.sparse, nProjs⟩ log2W maxWidth) :
    (optimizeFwWith pr E Wd N log2W maxWidth betas nSteps nProjs us nJobs seeds sched sys).1 =
      (optimizeInfWith pr E Wd N betas nSteps nProjs nJobs seeds sched sys).1 ∧
    (optimizeFwWith pr E Wd N log2W maxWidth betas nSteps nProjs us nJobs seeds sched sys).2 =
      (optimizeInfWith pr E Wd N betas nSteps nProjs nJobs seeds sched sys).2.map
        (Except.map (List.map (InfResultOf.unsliced ι))) := by
  have h0 := roomy_nonneg hlog hroom hn
  unfold optimizeFwWith optimizeInfWith
  cases checkSteps nSteps with
  | error e => exact ⟨rfl, rfl⟩
  | ok n =>
    dsimp only
    cases expandBetas betas n with
    | error e => exact ⟨rfl, rfl⟩
    | ok b =>
      obtain ⟨bs, sized⟩ := b
      dsimp only
      rw [if_neg (not_lt.2 h0)]
      cases hcm : PyCM.make (some N.sparse) nProjs with
      | error e => exact ⟨rfl, rfl⟩
      | ok cm =>
        dsimp only
        obtain ⟨rfl, hok⟩ := pyCM_make_ok hcm
        have hrel := anneal_room pr hE hN hn hok hlog h0 hroom hus
        obtain ⟨h1, h2⟩ := runAnneal_rel hrel (cost := InfResultOf.cost) (cost' := FwResultOf.cost) (by rintro r _ rfl; rfl)
          bs sized n E.ratio Wd nJobs seeds sched sys
        refine ⟨h1.symm, ?_⟩
        revert h2
        generalize (runAnneal (infAnnealWith pr E N _) InfResultOf.cost bs sized n E.ratio Wd nJobs seeds sched sys).2 = x
        generalize (runAnneal (fwAnnealWith pr E N _ log2W maxWidth us) FwResultOf.cost bs sized n E.ratio Wd nJobs seeds sched sys).2 = y
        intro h2
        rcases x with _ | e | rs <;> rcases y with _ | e' | rs'
        all_goals first | exact h2.elim | skip
        · rfl
        · cases h2; rfl
        · have : rs' = rs.map (InfResultOf.unsliced ι) := by
            have h2 : List.Forall₂ (fun r r' => r' = InfResultOf.unsliced ι r) rs rs' := h2
            clear * - h2
            induction h2 with
            | nil => rfl
            | cons h _ ih => rw [h, ih]; rfl
          rw [this]; rfl

end

/-! ## Concrete cases -/

/-- The hypotheses of `C78_make` and `C78_run` hold for three tensors with the limit 4, where the tree changes in an update with the slicing
allowed; with the limit 2 they do not hold. -/
example : (∀ n, 0 ≤ ilog2 n) ∧ OfferedWidth ilog2 skipCT.dims { skipWm with maxWidth := 4 } ∧ WellFormed skipCT.tree exCTree ∧
    IndsExact skipCT.inds {2} exCTree ∧ Roomy { skipWm with maxWidth := 4 } skipCT.inds {2} skipCT.tree.nLeaves ∧
    ¬ Roomy skipWm skipCT.inds {2} skipCT.tree.nLeaves ∧
    ∃ i i', InfOpt.make (simpleModel skipCT.dims) skipCT () false none = some (.ok i) ∧
      i.run (constPrng 8).toPrng (simpleModel skipCT.dims) [probBase] = some i' ∧ i'.ctree.tree.nodes 3 ≠ i.ctree.tree.nodes 3 := by
  refine ⟨ilog2_nonneg, Or.inl ⟨4, rfl⟩, fwTree_wf, skipCT_exact, ?_, ?_, ?_⟩
  · have h : ∀ S ∈ (Finset.range 3).powerset, skipWm.width (keptOf skipCT.inds {2} 3 S) ≤ 4 := by decide +kernel
    intro S hS
    exact h S (Finset.mem_powerset.2 hS)
  · intro h
    have := h {1} (by decide)
    revert this
    decide +kernel
  · have : (match InfOpt.make (simpleModel skipCT.dims) skipCT () false none with
      | some (.ok i) => (match i.run (constPrng 8).toPrng (simpleModel skipCT.dims) [probBase] with
        | some i' => decide (i'.ctree.tree.nodes 3 ≠ i.ctree.tree.nodes 3)
        | none => false)
      | _ => false) = true := by decide +kernel
    split at this
    · next i hi =>
      split at this
      · next i' hi' => exact ⟨i, i', hi, hi', by simpa using this⟩
      · simp at this
    · simp at this

/-- The hypotheses of `C78_fixed_slices`: with the limit 2 the search starts with the slice 0 and keeps it. -/
example : ∃ o0 o, FwOpt.pyMake (constPrng 8) (simpleModel skipCT.dims) skipWm skipCT 0 () false ∅ none none none = some (.ok o0) ∧
    o0.maxNew = 0 ∧ o0.run (constPrng 8) (simpleModel skipCT.dims) skipWm [(probBase, false), (probBase, false)] = .ok o ∧
    o0.slices = {0} := by
  obtain ⟨a, b, h1, h2, h3⟩ := fw_eval (x := FwOpt.pyMake (constPrng 8) (simpleModel skipCT.dims) skipWm skipCT 0 () false ∅ none none none)
    (f := fun o => o.run (constPrng 8) (simpleModel skipCT.dims) skipWm [(probBase, false), (probBase, false)])
    (Q := fun a _ => decide (a.maxNew = 0) && decide (a.slices = {0})) (by decide +kernel)
  simp only [Bool.and_eq_true, decide_eq_true_eq] at h3
  exact ⟨a, b, h1, h3.1, h2, h3.2⟩

/-- The hypotheses of `C78_app` hold for three matrices in a row with the limit 8; with the limit 3 two indices are sliced
(the example in Props/Anneal.lean). -/
example : saEnv.Ok chainNet ∧ chainNet.Plain ∧ chainNet.tensors ≠ [] ∧
    chainNet.Roomy ⟨some chainNet.sparse, none⟩ (fun n => (Nat.log2 n : ℤ)) 8 ∧
    (optimizeFw saEnv saPar chainNet (fun n => (Nat.log2 n : ℤ)) 8 (.pair 0 1) (some 2) none 1 1 [1, 2] (saSched 2 40) ⟨[], 0, 0⟩).2 =
      some (.ok (List.replicate 2 ⟨128, [(1, 2), (0, 1)], [128], [[(1, 2), (0, 1)]], [∅], ∅⟩)) := by
  refine ⟨⟨zeroRng_ok, positions_ok, positions_ok, by decide +kernel⟩, ⟨by decide +kernel, ?_⟩, by decide, ?_, by decide +kernel⟩
  · intro l hl x hx
    have h : ∀ l ∈ chainNet.tsInds, ∀ x ∈ l, dget chainNet.dims x = some 4 := by decide +kernel
    exact ⟨4, by decide, h l hl x hx⟩
  · intro u _ hu
    have hsub : termInds chainNet.tsInds chainNet.output u ⊆ {0, 1, 2, 3} := by
      intro x hx
      have := List.mem_toFinset.2 (termInds_sub hx)
      have h : ∀ x ∈ chainNet.tsInds.flatten.toFinset, x ∈ ({0, 1, 2, 3} : Finset ℕ) := by decide +kernel
      exact h x this
    refine le_trans (nameWidth_mono (fun n => by omega) hsub) ?_
    decide +kernel

end TNCO
