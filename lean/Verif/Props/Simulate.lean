import Verif.Model.LoadGates
import Verif.Props.CircuitLoad
import Verif.Props.TensorNetwork
import Verif.Props.EndToEnd
import Mathlib.Data.ZMod.Basic
import Mathlib.Algebra.Field.ZMod

/-!
# C62: from a circuit to its amplitudes, through `load_tn`, an optimizer and `contract`
-/

namespace TNCO
variable {Q K : Type} [DecidableEq Q] [Field K] [StarRing K] [DecidableEq K] {S σ W : Type} [Zero W] [Add W] [LT W] [DecidableLT W]

/-- The record of a tensor with an array of bits. -/
def bitTensor {ι : Type} (xs : List ι) : TensorRec ι := ⟨xs, List.replicate xs.length 2, some (List.replicate xs.length 2)⟩

omit [Field K] [StarRing K] [DecidableEq K] in
theorem gateTensors_ok {ι : Type} {inds : List (List ι)} {arrs : List (NDArray K)} (h : Consistent (fun _ => 2) arrs inds) :
    gateTensors inds arrs = .ok (inds.map bitTensor) := by
  obtain ⟨h1, h2⟩ := h
  induction inds generalizing arrs with
  | nil =>
    cases arrs <;> rfl
  | cons xs inds ih =>
    cases arrs with
    | nil => simp at h1
    | cons a arrs =>
      have hs : a.shape = List.replicate xs.length 2 := by
        have := h2 (a, xs) (by simp)
        simpa using this
      have ht : mkTensor xs .absent (some a.shape) = .ok (bitTensor xs) := by
        rw [C45_tensor]
        refine ⟨rfl, by rw [hs]; rfl, by simp [bitTensor], by simp [bitTensor], ?_, ?_⟩
        · intro s hs'
          cases hs'
          exact hs
        · simp only [DimsArg.Describes, bitTensor, hs]
      rw [gateTensors, ht]
      simp only
      rw [ih (by simpa using h1) fun t ht => h2 t (by simp [ht])]
      rfl

omit [Field K] [StarRing K] [DecidableEq K] in
theorem buildLoop_length : ∀ {gates : List (Gate Q K)} {c : Q → ℕ} {ts c'}, buildLoop gates c = .ok (ts, c') → ts.length = gates.length
  | [], c, ts, c', h => by
    simp only [buildLoop, Except.ok.injEq, Prod.mk.injEq] at h
    rw [← h.1]
    rfl
  | g :: rest, c, ts, c', h => by
    rw [buildLoop] at h
    split at h
    · cases h
    · split at h
      · cases h
      · next hb =>
        simp only [Except.ok.injEq, Prod.mk.injEq] at h
        rw [← h.1, List.length_cons, List.length_cons, buildLoop_length hb]

/-- A circuit with a qubit has a tensor. -/
theorem load_nonempty {A : LoadArgs Q K S σ W} {seed : S} {circuit : List (Gate Q K)} {init fin : PyState Q K} {arrs inds out}
    (h : load { A with decompose := false, fuse := none } seed circuit init fin = some (.ok (arrs, inds, out)))
    (hq : circuit.flatMap Prod.snd ≠ []) : inds ≠ [] := by
  unfold load at h
  simp only at h
  split at h
  · cases h
  · cases h
  · next all s' hs =>
    split at h
    · cases h
    · next ts op hraw =>
      simp only [Bool.false_eq_true, if_false, Option.some.injEq, Except.ok.injEq, Prod.mk.injEq] at h
      obtain ⟨-, rfl, -⟩ := h
      unfold rawNetwork at hraw
      split at hraw
      · cases hraw
      · next ts' c hb =>
        split at hraw
        · cases hraw
        · split at hraw
          · cases hraw
          · simp only [Except.ok.injEq, Prod.mk.injEq] at hraw
            obtain ⟨rfl, -⟩ := hraw
            have hl := buildLoop_length hb
            obtain ⟨q, hq⟩ := List.exists_mem_of_ne_nil _ hq
            intro hnil
            simp only [List.map_append, List.append_eq_nil_iff, List.map_eq_nil_iff] at hnil
            rw [hnil.1, List.length_nil] at hl
            have hg := List.length_eq_zero_iff.1 hl.symm
            rw [List.append_eq_nil_iff, List.map_eq_nil_iff, List.filter_eq_nil_iff] at hg
            have := hg.2 q (mem_uniqueEverseen.2 hq)
            rw [hg.1] at this
            simp at this

/-- What C62 assumes of a circuit, of the two states and of the environment of `load`. -/
structure LoadArgs.Fit (A : LoadArgs Q K S σ W) (circuit : List (Gate Q K)) (init fin : PyState Q K) : Prop where
  rng : A.g.Ok
  enumN : EnumOk A.enumN
  enum : EnumOk A.enum
  /-- `r` is `1 / sqrt(2)`. -/
  root : star A.r * A.r + star A.r * A.r = 1
  nonempty : circuit ≠ []
  gates : ∀ g ∈ circuit, IsGate g
  unitary : A.simplify = true → ∀ g ∈ circuit, IsUnitary g
  initial : StateOk A.r (circuit.flatMap Prod.snd) init
  final : StateOk A.r (circuit.flatMap Prod.snd) fin
  fuel : 12 * (circuit.map fun g => g.2.length).sum < A.fuel

/-- The matrix element of a circuit between the states that the user gives; open qubits have the values `f`. -/
def LoadArgs.element (A : LoadArgs Q K S σ W) (circuit : List (Gate Q K)) (init fin : PyState Q K) (f : Q × Stage → ℕ) : K :=
  amplitude circuit (uniqueEverseen (circuit.flatMap Prod.snd)) (stateOf A.r init) (stateOf A.r fin) (fun q => f (q, .i)) fun q => f (q, .f)

/-- C62: `load_tn` of a circuit returns a network of tensors of dimension 2 without sparse indices, which has the open qubits as output
indices, and whose value is the matrix element of the circuit up to a phase. -/
theorem C62_load (A : LoadArgs Q K S σ W) (seed : S) (circuit : List (Gate Q K)) (init fin : PyState Q K) (hA : A.Fit circuit init fin) :
    ∃ N arrs, loadGates A seed circuit init fin = some (.ok (N, arrs)) ∧ N.Plain ∧ N.sparse = ∅ ∧ (∀ x ∈ N.tsInds.flatten, N.dim x = 2) ∧
      (∀ q t, (q, t) ∈ N.output ↔
        q ∈ circuit.flatMap Prod.snd ∧ ((t = .i ∧ stateOf A.r init q = none) ∨ (t = .f ∧ stateOf A.r fin q = none))) ∧
      (∀ output : List (Q × Stage), (∀ x, x ∈ output ↔ x ∈ N.output) → N.Summable arrs output) ∧
      ∃ c : K, star c * c = 1 ∧ (A.simplify = false → c = 1) ∧
        ∀ l : List (Q × Stage), l.Nodup → (∀ x, x ∈ l ↔ x ∈ N.tsInds.flatten ∧ x ∉ N.output) → ∀ f : Q × Stage → ℕ, (∀ x ∈ N.output, f x < 2) →
          A.element circuit init fin f = c * einsum N.dim l ((arrs.zip N.tsInds).map fun t k => t.1.get (t.2.map k)) f := by
  obtain ⟨arrs, inds, out, h1, h2, h3, h4, h5, h6, c, c1, c2, c3⟩ := C38_load { A with decompose := false, fuse := none } hA.rng hA.enumN hA.enum
    hA.root seed circuit init fin hA.gates (fun h g hg => hA.unitary (by simpa using h) g hg) hA.initial hA.final hA.fuel
  have hts := gateTensors_ok h2
  have hfl : (inds.map bitTensor).flatMap TensorRec.inds = inds.flatten := by
    rw [List.flatMap_map, List.flatMap_def]
    congr 1
    exact List.map_id'' (fun _ => rfl) _
  have hhas : ∀ t ∈ inds.map bitTensor, ∀ x d, t.Has x d → d = 2 := by
    intro t ht x d hx
    obtain ⟨xs, hxs, rfl⟩ := List.mem_map.1 ht
    obtain ⟨k, -, hk⟩ := hx
    exact List.eq_of_mem_replicate (List.mem_of_getElem? hk)
  have hex : ∀ x ∈ inds.flatten, ∃ t ∈ inds.map bitTensor, x ∈ t.inds := by
    intro x hx
    obtain ⟨xs, hxs, hx⟩ := List.mem_flatten.1 hx
    exact ⟨_, List.mem_map_of_mem hxs, hx⟩
  have hok : NetworkOk (inds.map bitTensor) (some (A.enum out)) none :=
    ⟨fun t ht t' ht' x d d' hd hd' => (hhas t ht x d hd).trans (hhas t' ht' x d' hd').symm, fun h => by simp at h,
      fun o ho x hx => by cases ho; exact hex x (h5 x (((hA.enum _).2 x).1 hx)), fun s h => by simp at h⟩
  obtain ⟨N, n1, n2, n3, -, n5, n6⟩ := (C45_network (inds.map bitTensor) (fun t ht => by
    obtain ⟨xs, -, rfl⟩ := List.mem_map.1 ht
    simp [bitTensor]) (some (A.enum out)) none).1 hok
  have hO : N.output = out := by
    rw [n3 _ rfl]
    ext x
    rw [List.mem_toFinset, (hA.enum _).2]
  have hI : N.tsInds = inds := by
    unfold NetworkRec.tsInds
    rw [n2, List.map_map]
    exact List.map_id'' (fun _ => rfl) _
  have hget : ∀ xs ∈ inds, ∀ x ∈ xs, dget N.dims x = some 2 := by
    intro xs hxs x hx
    obtain ⟨k, hk, he⟩ := List.getElem_of_mem hx
    refine n6 (bitTensor xs) (List.mem_map_of_mem hxs) x 2 ⟨k, ?_, ?_⟩
    · rw [← he]
      exact List.getElem?_eq_getElem hk
    · simp [bitTensor, hk]
  have hdim : ∀ x ∈ inds.flatten, N.dim x = 2 := by
    intro x hx
    obtain ⟨xs, hxs, hx⟩ := List.mem_flatten.1 hx
    unfold NetworkRec.dim
    rw [hget xs hxs x hx]
    rfl
  have hq : circuit.flatMap Prod.snd ≠ [] := by
    obtain ⟨g, gs, hgs⟩ := List.exists_cons_of_ne_nil hA.nonempty
    have := (hA.gates g (by rw [hgs]; simp)).nonempty
    rw [hgs, List.flatMap_cons]
    exact fun h => this (List.append_eq_nil_iff.1 h).1
  refine ⟨N, arrs, ?_, ⟨by rw [hI]; exact h3, by rw [hI]; exact fun l hl x hx => ⟨2, by simp, hget l hl x hx⟩⟩, by rw [n5]; rfl,
    by rw [hI]; exact hdim, by rw [hO]; exact h4, fun output ho => ?_, c, c1, c2, ?_⟩
  · unfold loadGates
    simp only [h1, hts, n1]
  · have ho' : ∀ x, x ∈ output ↔ x ∈ out := fun x => by rw [ho, hO]
    refine ⟨⟨by rw [hI]; exact h2.1, fun t ht => ?_⟩, by rw [hI]; exact List.length_pos_of_ne_nil (load_nonempty h1 hq), ho, ?_, ?_⟩
    · rw [hI] at ht
      rw [h2.2 t ht]
      refine List.map_congr_left fun x hx => (hdim x ?_).symm
      exact List.mem_flatten.2 ⟨t.2, (List.of_mem_zip ht).2, hx⟩
    · rw [hI]
      exact fun x hx => h5 x ((ho' x).1 hx)
    · rw [hI]
      intro x hx hxo
      have h2 := h6 x hx fun h => hxo ((ho' x).2 h)
      rwa [lawful_beq_subsingleton (instBEqProd : BEq (Q × Stage)) instBEqOfDecidableEq] at h2
  · intro l nl hl f hf
    rw [hI, hO] at hl
    rw [hO] at hf
    rw [hI]
    have := c3 l nl hl f hf
    unfold LoadArgs.element
    refine this.trans ?_
    unfold einsum
    rw [sumOver_dims fun x hx => (hdim x ((hl x).1 hx).1).symm]

section
variable {τ ρ P V R : Type} [LinearOrder P] (E : SaEnv (Q × Stage) τ ρ P V) (Wd : ParEnv V) (betas : Betas) (nSteps : Option ℚ)
  (nProjs : Option ℤ) (nJobs : ℤ) (seeds : List ℕ) (sched : List Event) (sys sys' : Sys) (enum : Finset (Q × Stage) → List (Q × Stage))
  (he : EnumOk enum) (A : LoadArgs Q K S σ W) (seed : S) (circuit : List (Gate Q K)) (init fin : PyState Q K) (hA : A.Fit circuit init fin)
  (N : NetworkRec (Q × Stage)) (arrs : List (NDArray K)) (hload : loadGates A seed circuit init fin = some (.ok (N, arrs))) (hE : E.Ok N)
  (output : List (Q × Stage)) (hout : ∀ x, x ∈ output ↔ x ∈ N.output)

include he hA hload hE hout

/-- C62, infinite memory (partial: exact costs; C72 has the reported ones): whatever the optimizer returns for a circuit, contracting the network along the path of a result gives the matrix
elements of the circuit, up to a phase that is the same for all; if the network is connected, the cost of the result is the number of
multiplications. -/
theorem C62_infinite_memory_partial (rs : List InfResult) (h : optimizeInf E Wd N betas nSteps nProjs nJobs seeds sched sys = (sys', some (.ok rs))) :
    ∃ c : K, star c * c = 1 ∧ (A.simplify = false → c = 1) ∧ ∀ r ∈ rs,
      (∃ zs az, contract enum r.path N.tsInds (some output) arrs none = .ok ([zs], N.output, [az]) ∧ zs.Nodup ∧ (∀ x, x ∈ zs ↔ x ∈ output) ∧
        az.shape = List.replicate zs.length 2 ∧
        ∀ f : Q × Stage → ℕ, (∀ x ∈ output, f x < 2) → A.element circuit init fin f = c * az.get (zs.map f)) ∧
      (AllConnected N.tsInds → r.cost = contractMuls enum r.path N.tsInds output arrs) := by
  obtain ⟨N', arrs', g1, g2, g3, g4, g5, g6, c, c1, c2, c3⟩ := C62_load A seed circuit init fin hA
  rw [hload] at g1
  cases g1
  refine ⟨c, c1, c2, fun r hr => ?_⟩
  have hS := g6 output hout
  obtain ⟨⟨zs, az, k1, k2, k3, k4, k5⟩, k6⟩ := C59_infinite_memory_partial E Wd N betas nSteps nProjs nJobs seeds sched sys sys' enum he arrs output hE g2 hS rs h r hr
  have hd : ∀ x ∈ output, N.dim x = 2 := fun x hx => g4 x (hS.sub x hx)
  refine ⟨⟨zs, az, k1, k2, k3, ?_, fun f hf => ?_⟩, fun hc => k6 hc g3⟩
  · rw [k4, List.eq_replicate_iff]
    refine ⟨by simp, fun b hb => ?_⟩
    obtain ⟨x, hx, rfl⟩ := List.mem_map.1 hb
    exact hd x ((k3 x).1 hx)
  · have hl : ∀ x, x ∈ (uniqueEverseen N.tsInds.flatten).filter (· ∉ output) ↔ x ∈ N.tsInds.flatten ∧ x ∉ output := fun x => by
      rw [List.mem_filter, mem_uniqueEverseen, decide_eq_true_eq]
    rw [k5 _ ((uniqueEverseen_nodup _).filter _) hl f fun x hx => by rw [hd x hx]; exact hf x hx]
    exact c3 _ ((uniqueEverseen_nodup _).filter _) (fun x => by rw [hl, hout]) f fun x hx => hf x ((hout x).2 hx)

/-- C62, finite width (partial: exact costs): whatever the optimizer returns for a circuit, contracting every slice of a result along its path and adding up gives the
matrix elements of the circuit, up to a phase; if the network is connected, no array held at any time is wider than allowed and the cost is
the number of multiplications of all slices. -/
theorem C62_finite_width_partial {L : Type} [AddCommGroup L] [LinearOrder L] [IsOrderedAddMonoid L] (log2W : ℕ → L) (hlog : ∀ n, 0 ≤ log2W n)
    (maxWidth : L) (us : ℤ) (hus : us ≠ 0) (rs : List (FwResult (Q × Stage)))
    (h : optimizeFw E Wd N log2W maxWidth betas nSteps nProjs us nJobs seeds sched sys = (sys', some (.ok rs))) :
    ∃ c : K, star c * c = 1 ∧ (A.simplify = false → c = 1) ∧ ∀ r ∈ rs,
      (∃ zs : List (Q × Stage), ∃ az : (Q × Stage → ℕ) → NDArray K, zs.Nodup ∧ (∀ x, x ∈ zs ↔ x ∈ output ∧ x ∉ r.slices) ∧
        (∀ v, contract enum r.path (sliceNetInds r.slices N.tsInds) (some (sliceInds r.slices output)) (sliceArrays r.slices v arrs N.tsInds) none =
          .ok ([zs], (sliceInds r.slices output).toFinset, [az v])) ∧
        ∀ lS : List (Q × Stage), lS.Nodup → (∀ x, x ∈ lS ↔ x ∈ r.slices ∧ x ∈ N.tsInds.flatten ∧ x ∉ output) →
          ∀ f : Q × Stage → ℕ, (∀ x ∈ output, f x < 2) →
            A.element circuit init fin f = c * sumOver (fun _ => 2) lS (fun v => (az v).get (zs.map v)) f) ∧
      (AllConnected N.tsInds →
        (2 ≤ N.tsInds.length → ∀ v p q, r.path = p ++ q → ∀ inds outR as,
          contract enum p (sliceNetInds r.slices N.tsInds) (some (sliceInds r.slices output)) (sliceArrays r.slices v arrs N.tsInds) none =
            .ok (inds, outR, as) →
          ∀ xs ∈ inds, N.width ⟨some N.sparse, nProjs⟩ log2W xs.toFinset ≤ maxWidth) ∧
        ∀ v, r.cost = (((∏ x ∈ r.slices, N.dim x) *
          contractMuls enum r.path (sliceNetInds r.slices N.tsInds) (sliceInds r.slices output) (sliceArrays r.slices v arrs N.tsInds) : ℕ) : ℤ)) := by
  obtain ⟨N', arrs', g1, g2, g3, g4, g5, g6, c, c1, c2, c3⟩ := C62_load A seed circuit init fin hA
  rw [hload] at g1
  cases g1
  refine ⟨c, c1, c2, fun r hr => ?_⟩
  have hS := g6 output hout
  obtain ⟨⟨zs, az, k1, k2, k3, k5⟩, k6⟩ := C59_finite_width_partial E Wd N betas nSteps nProjs nJobs seeds sched sys sys' enum he arrs output log2W hlog maxWidth us hus hE g2
    hS rs h r hr
  have hd : ∀ x ∈ output, N.dim x = 2 := fun x hx => g4 x (hS.sub x hx)
  refine ⟨⟨zs, az, k1, k2, fun v => (k3 v).1, fun lS nlS hlS f hf => ?_⟩, fun hc => ⟨(k6 hc).1, (k6 hc).2 g3⟩⟩
  have hl : ∀ x, x ∈ (uniqueEverseen N.tsInds.flatten).filter (· ∉ output) ↔ x ∈ N.tsInds.flatten ∧ x ∉ output := fun x => by
    rw [List.mem_filter, mem_uniqueEverseen, decide_eq_true_eq]
  have e := k5 _ lS ((uniqueEverseen_nodup _).filter _) hl nlS hlS f fun x hx => by rw [hd x hx]; exact hf x hx
  rw [sumOver_dims (d' := fun _ => 2) fun x hx => g4 x ((hlS x).1 hx).2.1] at e
  rw [e]
  exact c3 _ ((uniqueEverseen_nodup _).filter _) (fun x => by rw [hl, hout]) f fun x hx => hf x ((hout x).2 hx)

end

/-- C62: the optimizers return for every circuit, if the workers run long enough: loading succeeds, and so does the search.
`n_projs` may be given; a circuit has no sparse indices. -/
theorem C62_returns {τ ρ P V : Type} [LinearOrder P] (E : SaEnv (Q × Stage) τ ρ P V) (Wd : ParEnv V) (betas : Betas) (nSteps : Option ℚ)
    (nProjs : Option ℤ) (hp : ∀ n ∈ nProjs, 1 ≤ n) (nJobs : ℤ) (seeds : List ℕ) (sys : Sys) (A : LoadArgs Q K S σ W) (seed : S) (circuit : List (Gate Q K)) (init fin : PyState Q K)
    (hA : A.Fit circuit init fin) {L : Type} [AddCommGroup L] [LinearOrder L] [IsOrderedAddMonoid L] (log2W : ℕ → L) (hlog : ∀ n, 0 ≤ log2W n)
    (maxWidth : L) (hmw : 0 ≤ maxWidth) (us : ℤ) (hus : us ≠ 0) (n : Option ℕ) (bs : List ℚ) (hn : checkSteps nSteps = .ok n)
    (hb : expandBetas betas n = .ok (bs, true)) (hj : nJobs ≠ 0 ∨ Wd.joblib = false) (hseeds : seeds ≠ [])
    (henc : ∀ c ∈ ['f', 'b', '?'], ∃ bs, Wd.cd.enc c Wd.zero = .ok bs) :
    ∃ N arrs, loadGates A seed circuit init fin = some (.ok (N, arrs)) ∧ (E.Ok N → ∃ K', ∀ rounds : List (List Event),
      (∀ r ∈ rounds, ∀ i < seeds.length, .work i ∈ r) → K' ≤ rounds.length →
        (∃ sys' rs, optimizeInf E Wd N betas nSteps nProjs nJobs seeds rounds.flatten sys = (sys', some (.ok rs))) ∧
        ∃ sys' rs, optimizeFw E Wd N log2W maxWidth betas nSteps nProjs us nJobs seeds rounds.flatten sys = (sys', some (.ok rs))) := by
  obtain ⟨N, arrs, g1, g2, g3, -, -, g6, -⟩ := C62_load A seed circuit init fin hA
  refine ⟨N, arrs, g1, fun hE => ?_⟩
  have hsp : SparseOk N.tsInds N.sparse := by
    intro x hx
    rw [g3] at hx
    exact absurd hx (Finset.notMem_empty x)
  have hcm : PyCM.make (some N.sparse) nProjs = .ok ⟨some N.sparse, nProjs⟩ := by
    unfold PyCM.make
    rw [g3]
    cases nProjs with
    | none => simp
    | some k => have := hp k rfl; simp [not_lt.2 this]
  have hne : N.tensors ≠ [] := by
    have := (g6 (A.enum N.output) fun x => (hA.enum _).2 x).nonempty
    intro h
    simp [NetworkRec.tsInds, h] at this
  obtain ⟨K1, h1⟩ := C55_infinite_memory E Wd N betas nSteps nProjs nJobs seeds sys hE g2 n bs _ hn hb hcm hsp hj hseeds henc
  obtain ⟨K2, h2⟩ := C55_finite_width E Wd N betas nSteps nProjs nJobs seeds sys log2W hlog maxWidth hmw us hus hE g2 hne n bs _ hn hb hcm hsp hj hseeds henc
  exact ⟨max K1 K2, fun rounds hr hK => ⟨h1 rounds hr (le_trans (le_max_left _ _) hK), h2 rounds hr (le_trans (le_max_right _ _) hK)⟩⟩

/-! ## Concrete cases -/

/-- A bound of the numbers in an index. -/
def stageKey : ℕ × Stage → ℕ
  | (q, .num n) => max q n
  | (q, _) => q

/-- The members of a set of indices, in a fixed order. -/
def listStages (s : Finset (ℕ × Stage)) : List (ℕ × Stage) :=
  ((List.range (s.sup stageKey + 1)).flatMap fun q =>
    (q, .i) :: (q, .f) :: (List.range (s.sup stageKey + 1)).map fun n => (q, .num n)).filter (· ∈ s)

theorem listStages_ok : EnumOk listStages := by
  intro s
  refine ⟨List.Nodup.filter _ ?_, fun x => ?_⟩
  · rw [List.nodup_flatMap]
    refine ⟨fun q _ => ?_, ?_⟩
    · simp only [List.nodup_cons, List.mem_cons, List.mem_map, Prod.mk.injEq, not_or]
      refine ⟨⟨by simp, by simp⟩, by simp, List.Nodup.map (fun a b h => by simpa using h) List.nodup_range⟩
    · refine List.nodup_range.imp ?_
      intro a b hab x hx hx'
      have e : ∀ {c : ℕ}, x ∈ ((c, Stage.i) :: (c, .f) :: (List.range (s.sup stageKey + 1)).map fun n => (c, .num n)) → x.1 = c := by
        intro c hc
        simp only [List.mem_cons, List.mem_map] at hc
        rcases hc with rfl | rfl | ⟨n, -, rfl⟩ <;> rfl
      exact hab ((e hx).symm.trans (e hx'))
  · simp only [listStages, List.mem_filter, decide_eq_true_eq, and_iff_right_iff_imp]
    intro hx
    have hk := Finset.le_sup (f := stageKey) hx
    obtain ⟨q, t⟩ := x
    refine List.mem_flatMap.2 ⟨q, List.mem_range.2 ?_, ?_⟩
    · cases t <;> simp only [stageKey] at hk <;> omega
    · cases t with
      | i => simp
      | f => simp
      | num n =>
        simp only [List.mem_cons, List.mem_map, List.mem_range]
        refine .inr (.inr ⟨n, ?_, rfl⟩)
        simp only [stageKey] at hk
        omega

/-- The environment of the optimizers for circuits. -/
def simEnv : SaEnv (ℕ × Stage) Unit ℕ ℚ ℕ where
  rng := zeroRng
  rngSeed _ := ()
  enumN := ISet.positions
  enum := listStages
  prng := saPrng
  prngSeed s := s
  prob b x y := if x ≤ y then 1 else 1 - b
  log2 _ := 0
  ratio n _ := n
  fuel := 40

/-- The whole run: load the circuit, optimize, contract along the best path, read the entries. -/
def simulate {K : Type} [Field K] [StarRing K] [DecidableEq K] (A : LoadArgs ℕ K Unit Unit ℕ) (circuit : List (Gate ℕ K)) (init fin : PyState ℕ K) :
    Option (List (ℕ × Stage) × List K × ℤ × ℕ) :=
  match loadGates A () circuit init fin with
  | some (.ok (N, arrs)) =>
    match (optimizeInf simEnv saPar N (.pair 0 1) (some 2) none 1 [1] (saSched 1 40) ⟨[], 0, 0⟩).2 with
    | some (.ok (r :: _)) =>
      match contract listStages r.path N.tsInds (some (listStages N.output)) arrs none with
      | .ok ([zs], _, [az]) =>
        some (zs, (List.range (2 ^ zs.length)).map az.data, r.cost, contractMuls listStages r.path N.tsInds (listStages N.output) arrs)
      | _ => none
    | _ => none
  | _ => none

/-- The same with slices: the slices, and the sum over the slices at `f`. -/
def simulateSliced {K : Type} [Field K] [StarRing K] [DecidableEq K] (A : LoadArgs ℕ K Unit Unit ℕ) (circuit : List (Gate ℕ K)) (init fin : PyState ℕ K)
    (w : ℤ) (f : ℕ × Stage → ℕ) : Option (List (ℕ × Stage) × K) :=
  match loadGates A () circuit init fin with
  | some (.ok (N, arrs)) =>
    match (optimizeFw simEnv saPar N (fun n => (Nat.log2 n : ℤ)) w (.pair 0 1) (some 2) none 1 1 [1] (saSched 1 40) ⟨[], 0, 0⟩).2 with
    | some (.ok (r :: _)) =>
      some (listStages r.slices, sumOver (fun _ => 2) (listStages (r.slices \ N.output)) (fun v =>
        match contract listStages r.path (sliceNetInds r.slices N.tsInds) (some (sliceInds r.slices (listStages N.output)))
          (sliceArrays r.slices v arrs N.tsInds) none with
        | .ok ([zs], _, [az]) => az.get (zs.map v)
        | _ => 0) f)
    | _ => none
  | _ => none

instance : Fact (Nat.Prime 7) := ⟨by decide⟩
instance : StarRing (ZMod 7) := starRingOfComm

/-- A field with a decidable equality where `1 / 2` has a root: the numbers modulo 7, with `2 * 2 * 2 = 1`. -/
def modArgs (simplify : Bool) : LoadArgs ℕ (ZMod 7) Unit Unit ℕ :=
  ⟨simplify, true, false, none, 2, id, id, zeroRng, ISet.positions, listStages, Nat.clog 2, 100⟩

def modX : NDArray (ZMod 7) := ⟨[2, 2], fun k => if k = 1 ∨ k = 2 then 1 else 0⟩
def modCX : NDArray (ZMod 7) := ⟨[4, 4], fun k => if k = 0 ∨ k = 5 ∨ k = 11 ∨ k = 14 then 1 else 0⟩

/-- Two gates that cancel, and two CNOTs. -/
def bellGates : List (Gate ℕ (ZMod 7)) := [(modX, [0]), (modX, [0]), (modCX, [0, 1]), (modCX, [1, 0])]

def bellInit : PyState ℕ (ZMod 7) := .dict [(0, .token "+"), (1, .token "0")]

/-- From `(|0⟩ + |1⟩) |0⟩ / √2` the circuit makes `|0⟩ (|0⟩ + |1⟩) / √2`; the run gives these four entries with the cost of the contraction.
With width 1, four indices are sliced, one of them an output index. -/
example : (modArgs true).Fit bellGates bellInit .none ∧
    simulate (modArgs true) bellGates bellInit .none = some ([(1, .f), (0, .f)], [2, 0, 2, 0], 40, 40) ∧
    (∀ a < 2, ∀ b < 2, (modArgs true).element bellGates bellInit .none (fun x => if x.1 = 0 then a else b) = if a = 0 then 2 else 0) ∧
    [(0, 0), (0, 1), (1, 0), (1, 1)].map (fun p : ℕ × ℕ =>
        simulateSliced (modArgs true) bellGates bellInit .none 1 fun x => if x.1 = 0 then p.1 else p.2) =
      [2, 2, 0, 0].map fun v => some ([(0, .i), (0, .num 1), (1, .f), (1, .num 1)], v) := by
  refine ⟨⟨zeroRng_ok, positions_ok, listStages_ok, by decide, by simp [bellGates], ?_, ?_, ⟨by decide, ?_⟩, trivial, by decide +kernel⟩, by decide +kernel,
    by decide +kernel, by decide +kernel⟩
  · intro g hg
    simp only [bellGates, List.mem_cons, List.not_mem_nil, or_false] at hg
    rcases hg with rfl | rfl | rfl | rfl <;> exact ⟨by simp, by decide, rfl⟩
  · intro _ g hg
    simp only [bellGates, List.mem_cons, List.not_mem_nil, or_false] at hg
    unfold IsUnitary
    rcases hg with rfl | rfl | rfl | rfl <;> decide +kernel
  · intro e he
    simp only [List.mem_cons, List.not_mem_nil, or_false] at he
    rcases he with rfl | rfl <;> simp

end TNCO
