import Verif.Lemmas.RenameApp
import Verif.Lemmas.RenameLoad
import Verif.Model.Program
import Verif.Props.Anneal

/-!
# C81: results depend neither on the names of the indices nor on the order in which Python lists sets

The order of a `set` of strings changes from one run of Python to the next (`PYTHONHASHSEED`). Given the network, both apps return the same results for the
same seeds, whatever this order is, and also if all indices have other names. `load_tn` has this property too, except that it fuses tensors
(`tnco/utils/tn.py:994-1015`): the indices which two fused tensors keep in common come in the order of a set.
-/

namespace TNCO
variable {ι κ τ σ P V W C K T : Type} [DecidableEq ι] [DecidableEq κ] {f : ι → κ}

/-- **C81** for random paths (`tnco/utils/tn.py:42-248`): exactly the same, for any generator. -/
theorem C81_paths (hf : Function.Injective f) (g : PyRng τ) {enum enum' : Finset ℕ → List ℕ} (he : EnumOk enum) (he' : EnumOk enum') (fuel : ℕ) (s : τ)
    (ts : List (List ι)) : randomPaths g enum' fuel s (ts.map (List.map f)) = randomPaths g enum fuel s ts :=
  randomPaths_map hf g he he' fuel s ts

/-- **C81** for contraction trees (`tnco/ctree.py:67-251`): the same exception, or the same tree with the indices renamed. -/
theorem C81_tree (hf : Function.Injective f) {enum : Finset ι → List ι} {enum' : Finset κ → List κ} (he : EnumOk enum) (he' : EnumOk enum')
    (N : NetworkRec ι) (path : List (ℕ × ℕ)) :
    (N.rename f).tree enum' path = (N.tree enum path).map fun t => ⟨t.core, t.nTensors, t.tensorsPos, t.indsOrder.map f⟩ := by
  have h := N.tree_rename hf he he' path
  revert h
  rcases N.tree enum path with e | t <;> rcases (N.rename f).tree enum' path with e' | t'
  all_goals intro h
  · exact congrArg Except.error h.symm
  · exact h.elim
  · exact h.elim
  · obtain ⟨c, n, p, o⟩ := t'
    obtain ⟨h1, h2, h3, h4⟩ := h
    cases h1; cases h2; cases h3; cases h4
    rfl

theorem outRel_map {ε α β : Type} {g : α → β} {x : Option (Except ε (List α))} {y : Option (Except ε (List β))}
    (h : OutRel (List.Forall₂ fun a b => b = g a) x y) : y = x.map (Except.map (List.map g)) := by
  rcases x with _ | e | a <;> rcases y with _ | e' | b
  all_goals first | exact h.elim | skip
  · rfl
  · have h : e = e' := h
    subst h; rfl
  · have : b = a.map g := by
      replace h : List.Forall₂ (fun a b => b = g a) a b := h
      induction h with
      | nil => rfl
      | cons h1 _ ih => rw [h1, List.map_cons, ih]
    rw [this]; rfl

theorem outRel_eq {ε α : Type} {x y : Option (Except ε (List α))} (h : OutRel (List.Forall₂ Eq) x y) : y = x := by
  rcases x with _ | e | a <;> rcases y with _ | e' | b
  all_goals first | exact h.elim | skip
  · rfl
  · have h : e = e' := h
    subst h; rfl
  · have h : List.Forall₂ Eq a b := h
    rw [List.forall₂_eq_eq_eq] at h
    subst h; rfl

section
variable [LinearOrder P] [LinearOrder C]

/-- **C81** for the infinite-memory app (`tnco/app/infinite_memory/sa.py:96-252`): the same results, the same exceptions and the same effects. -/
theorem C81_infinite (hf : Function.Injective f) (pr : Printer C) (E : SaEnv ι τ σ P V) {enumN : Finset ℕ → List ℕ} {enum : Finset κ → List κ}
    (hE : EnumOk E.enum) (hEN : EnumOk E.enumN) (he : EnumOk enum) (hen : EnumOk enumN) (Wd : ParEnv V) (N : NetworkRec ι) (betas : Betas)
    (nSteps : Option ℚ) (nProjs : Option ℤ) (nJobs : ℤ) (seeds : List ℕ) (sched : List Event) (sys : Sys) :
    optimizeInfWith pr (E.withSets enumN enum) Wd (N.rename f) betas nSteps nProjs nJobs seeds sched sys =
      optimizeInfWith pr E Wd N betas nSteps nProjs nJobs seeds sched sys := by
  unfold optimizeInfWith
  rcases checkSteps nSteps with e | n
  · rfl
  dsimp only
  rcases expandBetas betas n with e | ⟨bs, sized⟩
  · rfl
  dsimp only
  have hm : PyCM.make (some (N.rename f).sparse) nProjs = (PyCM.make (some N.sparse) nProjs).map (PyCM.rename f) := PyCM.make_rename _ _
  rw [hm]
  rcases PyCM.make (some N.sparse) nProjs with e | cm
  · rfl
  dsimp only [Except.map]
  obtain ⟨h1, h2⟩ := runAnneal_rel (infAnneal_rename hf pr E hE hEN he hen N cm) (cost := InfResultOf.cost) (cost' := InfResultOf.cost)
    (fun r r' h => by rw [h]) bs sized n E.ratio Wd nJobs seeds sched sys
  exact Prod.ext h1.symm (outRel_eq h2)

variable [AddCommGroup W] [LinearOrder W]

/-- **C81** for the finite-width app (`tnco/app/finite_width/sa.py:112-284`): the same results with the slices renamed, the same exceptions and effects. -/
theorem C81_finite (hf : Function.Injective f) (pr : Printer C) (E : SaEnv ι τ σ P V) {enumN : Finset ℕ → List ℕ} {enum : Finset κ → List κ}
    (hE : EnumOk E.enum) (hEN : EnumOk E.enumN) (he : EnumOk enum) (hen : EnumOk enumN) (Wd : ParEnv V) (N : NetworkRec ι) (log2W : ℕ → W) (maxWidth : W)
    (betas : Betas) (nSteps : Option ℚ) (nProjs : Option ℤ) (updateSlices nJobs : ℤ) (seeds : List ℕ) (sched : List Event) (sys : Sys) :
    optimizeFwWith pr (E.withSets enumN enum) Wd (N.rename f) log2W maxWidth betas nSteps nProjs updateSlices nJobs seeds sched sys =
      ((optimizeFwWith pr E Wd N log2W maxWidth betas nSteps nProjs updateSlices nJobs seeds sched sys).1,
       (optimizeFwWith pr E Wd N log2W maxWidth betas nSteps nProjs updateSlices nJobs seeds sched sys).2.map
         (Except.map (List.map (FwResultOf.rename f)))) := by
  unfold optimizeFwWith
  rcases checkSteps nSteps with e | n
  · rfl
  dsimp only
  rcases expandBetas betas n with e | ⟨bs, sized⟩
  · rfl
  dsimp only
  by_cases hw : maxWidth < 0
  · simp only [if_pos hw]; rfl
  simp only [if_neg hw]
  have hm : PyCM.make (some (N.rename f).sparse) nProjs = (PyCM.make (some N.sparse) nProjs).map (PyCM.rename f) := PyCM.make_rename _ _
  rw [hm]
  rcases PyCM.make (some N.sparse) nProjs with e | cm
  · rfl
  dsimp only [Except.map]
  obtain ⟨h1, h2⟩ := runAnneal_rel (fwAnneal_rename hf pr E hE hEN he hen N cm log2W maxWidth updateSlices) (cost := FwResultOf.cost) (cost' := FwResultOf.cost)
    (fun r r' h => by rw [h]; rfl) bs sized n E.ratio Wd nJobs seeds sched sys
  exact Prod.ext h1.symm (outRel_map h2)

omit [LinearOrder C] in
theorem NetworkRec.rename_id (N : NetworkRec ι) : N.rename id = N := by
  obtain ⟨ts, o, s, d⟩ := N
  unfold NetworkRec.rename
  have h : TensorRec.rename (id : ι → ι) = id := by
    funext t; obtain ⟨i, d, s⟩ := t; unfold TensorRec.rename; rw [List.map_id]; rfl
  have h2 : (fun e : ι × ℕ => (id e.1, e.2)) = id := rfl
  dsimp only
  rw [h, h2, List.map_id, List.map_id, Finset.image_id, Finset.image_id]

/-- **C81**, without renaming: with the same seeds the results are the same, whatever the order in which sets are listed. -/
theorem C81_sets (pr : Printer C) (E : SaEnv ι τ σ P V) {enumN : Finset ℕ → List ℕ} {enum : Finset ι → List ι}
    (hE : EnumOk E.enum) (hEN : EnumOk E.enumN) (he : EnumOk enum) (hen : EnumOk enumN) (Wd : ParEnv V) (N : NetworkRec ι) (log2W : ℕ → W) (maxWidth : W)
    (betas : Betas) (nSteps : Option ℚ) (nProjs : Option ℤ) (updateSlices nJobs : ℤ) (seeds : List ℕ) (sched : List Event) (sys : Sys) :
    optimizeInfWith pr { E with enumN := enumN, enum := enum } Wd N betas nSteps nProjs nJobs seeds sched sys =
      optimizeInfWith pr E Wd N betas nSteps nProjs nJobs seeds sched sys ∧
    optimizeFwWith pr { E with enumN := enumN, enum := enum } Wd N log2W maxWidth betas nSteps nProjs updateSlices nJobs seeds sched sys =
      optimizeFwWith pr E Wd N log2W maxWidth betas nSteps nProjs updateSlices nJobs seeds sched sys := by
  have h1 := C81_infinite (f := id) Function.injective_id pr E hE hEN he hen Wd N betas nSteps nProjs nJobs seeds sched sys
  have h2 := C81_finite (f := id) Function.injective_id pr E hE hEN he hen Wd N log2W maxWidth betas nSteps nProjs updateSlices nJobs seeds sched sys
  rw [N.rename_id] at h1 h2
  refine ⟨h1, h2.trans ?_⟩
  have hr : (FwResultOf.rename id : FwResultOf C ι → FwResultOf C ι) = id := by
    funext r
    obtain ⟨a, b, c, d, e, g⟩ := r
    have hi : (Finset.image id : Finset ι → Finset ι) = id := funext fun s => Finset.image_id
    simp only [FwResultOf.rename, hi, List.map_id, id]
  rw [hr]
  generalize optimizeFwWith pr E Wd N log2W maxWidth betas nSteps nProjs updateSlices nJobs seeds sched sys = x
  obtain ⟨a, _ | _ | b⟩ := x
  · rfl
  · rfl
  · simp [Except.map]

end

section
variable [Zero W] [Add W] [LT W] [DecidableLT W] [CommRing K] [DecidableEq K]

/-- **C81** for `load_tn` of a network (`tnco/app/app.py:308-416`), partial: the order of the sets of indices does not matter if nothing is fused, or if nothing
is decomposed and each index is in at most two tensors, an output index in at most one. Missing: fused tensors which keep indices in common, where it is
false (`C81_violated`). -/
theorem C81_load_partial (A : LoadNetArgs ι σ W) {enum : Finset ι → List ι} (hA : EnumOk A.enum) (he : EnumOk enum) (N : ArrNet ι K T)
    (h : wantFuse A.fuse N = none ∨ (∃ w, wantFuse A.fuse N = some w ∧ ¬ 0 < w) ∨
      wantDecompose A.decompose N = false ∧ ∀ x, N.tsInds.flatten.count x ≤ 2 ∧ (x ∈ N.output → N.tsInds.flatten.count x ≤ 1)) :
    loadNet { A with enum := enum } N = loadNet A N := by
  have hp : prepareNet { A with enum := enum } N = prepareNet A N := by
    unfold prepareNet
    dsimp only
    rcases h with h | ⟨w, h, hw⟩ | ⟨h, hN⟩
    · rw [h]
    · rw [h]
      simp only [if_neg hw]
    · rw [h]
      simp only [Bool.false_eq_true, if_false]
      rcases wantFuse A.fuse N with _ | w
      · rfl
      dsimp only
      split
      · exact fuseStep_sets A hA he N.provided w N hN
      · rfl
  unfold loadNet
  rw [hp]
  rcases prepareNet A N with _ | e | N2
  · rfl
  · rfl
  · exact congrArg some (returnStep_sets A hA he N2)

end

/-! ## Concrete cases -/

theorem reverse_ok {enum : Finset ι → List ι} (h : EnumOk enum) : EnumOk fun s => (enum s).reverse :=
  fun s => ⟨List.nodup_reverse.2 (h s).1, fun x => by rw [List.mem_reverse, (h s).2]⟩

/-- A chain of three matrices: other names, sets listed backwards. -/
example : Function.Injective (fun n : ℕ => 2 * n + 7) ∧ EnumOk saEnv.enum ∧ EnumOk saEnv.enumN ∧ EnumOk (fun s => (ISet.positions s).reverse) ∧
    (chainNet.rename fun n => 2 * n + 7).tsInds = [[7, 9], [9, 11], [11, 13]] ∧
    (optimizeFw saEnv saPar chainNet (fun n => (Nat.log2 n : ℤ)) 3 (.pair 0 1) (some 2) none 1 1 [1, 2] (saSched 2 40) ⟨[], 0, 0⟩).2 =
      some (.ok (List.replicate 2 ⟨128, [(1, 2), (0, 1)], [128], [[(1, 2), (0, 1)]], [{1, 3}], {1, 3}⟩)) ∧
    (optimizeFw (saEnv.withSets (fun s => (ISet.positions s).reverse) (fun s => (ISet.positions s).reverse)) saPar (chainNet.rename fun n => 2 * n + 7)
        (fun n => (Nat.log2 n : ℤ)) 3 (.pair 0 1) (some 2) none 1 1 [1, 2] (saSched 2 40) ⟨[], 0, 0⟩).2 =
      some (.ok (List.replicate 2 ⟨128, [(1, 2), (0, 1)], [128], [[(1, 2), (0, 1)]], [{9, 13}], {9, 13}⟩)) := by
  refine ⟨fun a b h => ?_, positions_ok, positions_ok, reverse_ok positions_ok, by decide +kernel, by decide +kernel, by decide +kernel⟩
  have h : 2 * a + 7 = 2 * b + 7 := h
  omega

/-- Six matrices on the edges of a triangle, two on each, with three open indices. -/
def pairsNet : ArrNet ℕ ℤ Unit where
  tsInds := [[0, 1], [0, 1], [0, 2], [0, 2], [1, 2], [1, 2]]
  arrays := List.replicate 6 none
  tsTags := List.replicate 6 none
  dims _ := some 2
  output := {0, 1, 2}
  sparse := ∅
  hyperMap := none
  fusePath := none

def pairsArgs (enum : Finset ℕ → List ℕ) : LoadNetArgs ℕ Unit ℕ := ⟨false, some 2, (), zeroRng, ISet.positions, enum, Nat.log2, 20⟩

/-- The indices of the tensors that `load_tn` returns. -/
def pairsLoaded (enum : Finset ℕ → List ℕ) : Option (Except PyErr (List (List ℕ))) :=
  (loadNet (pairsArgs enum) pairsNet).map (Except.map ArrNet.tsInds)

/-- The results of the search with no temperatures after `load_tn`. -/
def pairsFound (enum : Finset ℕ → List ℕ) : Option (Except (ParErr PyErr) (List InfResult)) :=
  match loadNet (pairsArgs enum) pairsNet with
  | some (.ok N) => (optimizeInf { saEnv with enum := enum } saPar N.toRec (.sized []) none none 1 [1] (saSched 1 40) ⟨[], 0, 0⟩).2
  | _ => none

/-- **C81 is violated** by `load_tn` with `fuse`: with the same seed, the order of sets changes the order of the indices of the fused tensors, and the path
that is found. -/
theorem C81_violated : EnumOk ISet.positions ∧ EnumOk (fun s => (ISet.positions s).reverse) ∧
    pairsLoaded ISet.positions = some (.ok [[0, 1], [1, 2], [0, 2]]) ∧
    pairsFound ISet.positions = some (.ok [⟨16, [(0, 2), (0, 1)], [16], [[(0, 2), (0, 1)]]⟩]) ∧
    pairsLoaded (fun s => (ISet.positions s).reverse) = some (.ok [[1, 0], [2, 1], [2, 0]]) ∧
    pairsFound (fun s => (ISet.positions s).reverse) = some (.ok [⟨16, [(0, 1), (0, 1)], [16], [[(0, 1), (0, 1)]]⟩]) := by
  refine ⟨positions_ok, reverse_ok positions_ok, by decide +kernel, by decide +kernel, by decide +kernel, by decide +kernel⟩

/-- The hypotheses of `C81_load_partial`: a chain which is fused. -/
example : (wantDecompose false (K := ℤ) (T := Unit) ⟨[[0, 1], [1, 2], [2, 3]], List.replicate 3 none, List.replicate 3 none, fun _ => some 2, {0, 3}, ∅, none, none⟩ = false) ∧
    (∀ x, ([[0, 1], [1, 2], [2, 3]] : List (List ℕ)).flatten.count x ≤ 2 ∧ (x ∈ ({0, 3} : Finset ℕ) → ([[0, 1], [1, 2], [2, 3]] : List (List ℕ)).flatten.count x ≤ 1)) ∧
    (loadNet (pairsArgs ISet.positions) (K := ℤ) (T := Unit) ⟨[[0, 1], [1, 2], [2, 3]], List.replicate 3 none, List.replicate 3 none, fun _ => some 2, {0, 3}, ∅, none, none⟩).map
      (Except.map ArrNet.tsInds) = some (.ok [[3, 0]]) := by
  refine ⟨by decide +kernel, fun x => ?_, by decide +kernel⟩
  by_cases hx : x < 4
  · interval_cases x <;> decide +kernel
  · have : ([[0, 1], [1, 2], [2, 3]] : List (List ℕ)).flatten.count x = 0 := List.count_eq_zero.2 fun h => by simp at h; omega
    rw [this]
    exact ⟨by omega, fun _ => by omega⟩

end TNCO
