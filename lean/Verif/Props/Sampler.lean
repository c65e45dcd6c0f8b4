import Verif.Lemmas.Sampler
import Verif.Props.Sampling
import Verif.Props.Simulate

/-!
# C65: the class `Sampler`, with its optimizer
-/

namespace TNCO
variable {Q K R S σ W : Type} [DecidableEq Q] [Field K] [StarRing K] [DecidableEq K] [Field R] [LinearOrder R] [IsStrictOrderedRing R]
variable [Zero W] [Add W] [LT W] [DecidableLT W]
variable {τ ρ P V : Type} [LinearOrder P]

omit [DecidableEq Q] [Field K] [StarRing K] [DecidableEq K] [Field R] [LinearOrder R] [IsStrictOrderedRing R] [Zero W] [Add W] [LT W] [DecidableLT W]
  [LinearOrder P] in
/-- C65, constructor: `Sampler` raises `NotImplementedError` exactly for a `max_width` that is less than infinity; `None`, infinity and NaN are
accepted. -/
theorem C65_constructor {κ : Type} (randrange : κ → ℕ × κ) (start : κ) (w : WidthArg) :
    (w = .none ∨ w = .posInf ∨ w = .nan → makeSampler randrange start w = .ok (randrange start)) ∧
      (¬ (w = .none ∨ w = .posInf ∨ w = .nan) → makeSampler randrange start w = .error .notImplemented) := by
  cases w <;> simp [makeSampler, finiteWidthModule, WidthArg.ltInf]

/-- C65, paths: the path that is used is that of a result of the optimizer with the least reported cost. See `C72_sampler` for the exact costs. -/
theorem C65_cheapest {ι : Type} [DecidableEq ι] (O : SamplerOpts ι τ ρ P V) (n : ℕ) (inds : List (List ι)) (path : List (ℕ × ℕ))
    (h : O.optimize n inds = some (.ok path)) :
    ∃ N sys' rs, N.tensors = inds.map qubitTensor ∧ N.output = ∅ ∧
      optimizeInfWith (costPrinter O.fixed) (O.env inds) O.par N O.betas O.nSteps O.nProjs O.nJobs (O.seeds n) (O.turns n inds).flatten O.sys =
        (sys', some (.ok rs)) ∧
      ∃ r ∈ rs, r.path = path ∧ ∀ r' ∈ rs, r.cost ≤ r'.cost := by
  obtain ⟨N, h1, h2⟩ := bitsNetwork_ok inds
  unfold SamplerOpts.optimize at h
  rw [h1] at h
  simp only at h
  cases h3 : reloadNet O.sa.enum N with
  | error e => rw [h3] at h; simp at h
  | ok N' =>
    rw [h3] at h
    simp only at h
    rcases hr : optimizeInfWith (costPrinter O.fixed) (O.env inds) O.par N' O.betas O.nSteps O.nProjs O.nJobs (O.seeds n) (O.turns n inds).flatten O.sys with ⟨sys', res⟩
    rw [hr] at h
    match res, h with
    | some (.ok rs), h =>
      simp only at h
      split at h
      · rename_i hN
        unfold cheapest at h
        split at h
        · cases h
        · rename_i r hc
          simp only [Option.some.injEq, Except.ok.injEq] at h
          split at hc
          · cases hc
          · rename_i r' l hs
            cases hc
            have hp := sortResults_perm InfResultOf.cost rs
            have hsd := sortResults_sorted InfResultOf.cost rs
            rw [hs] at hp hsd
            refine ⟨N', sys', rs, hN.1.trans h2.tensors, hN.2.1.trans h2.output, hr, r, hp.mem_iff.1 (by simp), h, fun r' hr' => ?_⟩
            rcases List.mem_cons.1 (hp.mem_iff.2 hr') with rfl | hm
            · exact le_refl _
            · exact (List.pairwise_cons.1 hsd).1 r' hm
      · cases h

/-- What is asked of the environment of `sample`, except for the optimizer. -/
structure SampleBase (A : SampleArgs Q K R S σ W) : Prop where
  rng : A.load.g.Ok
  enumN : EnumOk A.load.enumN
  enum : EnumOk A.load.enum
  iter : EnumOk A.iter
  r : star A.load.r * A.load.r + star A.load.r * A.load.r = 1

omit [DecidableEq K] [Field R] [LinearOrder R] [IsStrictOrderedRing R] [Zero W] [Add W] [LT W] [DecidableLT W] in
theorem sampler_extends {A : SampleArgs Q K R S σ W} (hA : SampleBase A) {O : SamplerOpts (Q × Stage) τ ρ P V} (hO : O.Ok) :
    ∃ B, Extends (A.using O) B ∧ SampleEnv B := by
  classical
  refine ⟨{ A with optimize := fun n inds => if ∃ p, O.optimize n inds = some (.ok p) then O.optimize n inds else some (firstPairs inds) },
    ⟨rfl, rfl, rfl, rfl, fun n inds path h => ?_⟩, ⟨hA.rng, hA.enumN, hA.enum, hA.iter, hA.r, fun n inds hi hn => ?_⟩⟩
  · change (if ∃ p, O.optimize n inds = some (.ok p) then _ else _) = _
    rw [if_pos ⟨path, h⟩]
    exact h
  · simp only
    split
    · rename_i h
      obtain ⟨p, hp⟩ := h
      exact ⟨p, hp, optimize_sound hO hi hn hp⟩
    · have hl := List.length_pos_iff.2 hi
      exact ⟨_, rfl, replay_firstPairs _ _ (by simp; omega), by simp; omega⟩

section
variable (A : SampleArgs Q K R S σ W) (hA : SampleBase A) (O : SamplerOpts (Q × Stage) τ ρ P V) (hO : O.Ok) (hsq : IsAbsSq A.sq)
  (circuit : List (Gate Q K)) (hg : ∀ g ∈ circuit, SampleGate g) (hfuel : 12 * (circuit.map fun g => g.2.length).sum < A.load.fuel)
include hA hO hsq hg hfuel

/-- What a sampler prepares for a circuit, with the optimizer of the app. -/
theorem sampler_steps (order : Option (List Q)) (ho : ∀ o, order = some o → ∀ q, q ∈ o ↔ q ∈ circuit.flatMap Prod.snd)
    (steps : List (SampleStep Q K)) (qset : Finset Q) (h : prepare (A.using O) circuit order = some (.ok (steps, qset))) :
    qset = (circuit.flatMap Prod.snd).toFinset ∧
      ∀ qubits : List Q, qubits.Nodup → (∀ q ∈ circuit.flatMap Prod.snd, q ∈ qubits) → StepsOk A.sq A.load.enum qubits [] circuit steps := by
  obtain ⟨B, hB, hE⟩ := sampler_extends hA hO
  have hp := prepare_extends hB h
  have e1 : B.load = A.load := hB.1
  have e3 : B.sq = A.sq := hB.2.2.1
  obtain ⟨steps', h1, h2⟩ := prepare_ok hE (by rw [e3]; exact hsq) hg (by rw [e1]; exact hfuel) ho
  rw [hp] at h1
  simp only [Option.some.injEq, Except.ok.injEq, Prod.mk.injEq] at h1
  obtain ⟨rfl, rfl⟩ := h1
  rw [e1, e3] at h2
  exact ⟨rfl, h2⟩

/-- C65, probabilities: whatever the seeds, the temperatures and the turns of the workers, if a sampler has prepared a circuit, each bitstring is drawn
with the squared modulus of its amplitude, and errors with probability 0. -/
theorem C65_born (order : Option (List Q)) (ho : ∀ o, order = some o → ∀ q, q ∈ o ↔ q ∈ circuit.flatMap Prod.snd)
    (steps : List (SampleStep Q K)) (qset : Finset Q) (h : prepare (A.using O) circuit order = some (.ok (steps, qset))) :
    (∀ q, q ∈ qset ↔ q ∈ circuit.flatMap Prod.snd) ∧
    ∀ qubits : List Q, qubits.Nodup → (∀ q, q ∈ qubits ↔ q ∈ circuit.flatMap Prod.snd) →
      (∀ x, BitVals x → Dist.prob (runSteps Dist.flip A.sq A.load.enum qubits steps (List.replicate qubits.length 0))
        (fun r => r.toOption = some (qubits.map x)) = A.sq (runCircuit circuit (zeroState qubits) x)) ∧
      Dist.prob (runSteps Dist.flip A.sq A.load.enum qubits steps (List.replicate qubits.length 0)) (fun r => r.toOption = none) = 0 := by
  obtain ⟨B, hB, hE⟩ := sampler_extends hA hO
  have hp := prepare_extends hB h
  have e1 : B.load = A.load := hB.1
  have e3 : B.sq = A.sq := hB.2.2.1
  obtain ⟨steps', h1, h2⟩ := C39_born B hE (by rw [e3]; exact hsq) circuit hg (by rw [e1]; exact hfuel) order ho
  rw [hp] at h1
  simp only [Option.some.injEq, Except.ok.injEq, Prod.mk.injEq] at h1
  obtain ⟨rfl, rfl⟩ := h1
  rw [e1, e3] at h2
  exact ⟨fun q => List.mem_toFinset, h2⟩

end

/-- The numbers of runs, temperatures and jobs are valid: `n_steps` and `betas` are accepted and have a length, `n_projs` is valid without sparse
indices, there is at least one run and the number of jobs is not zero. -/
structure SamplerOpts.Valid {ι : Type} [DecidableEq ι] (O : SamplerOpts ι τ ρ P V) : Prop where
  steps : ∃ k bs, checkSteps O.nSteps = .ok k ∧ expandBetas O.betas k = .ok (bs, true)
  projs : ∃ cm : PyCM ι, PyCM.make (some ∅) O.nProjs = .ok cm
  jobs : O.nJobs ≠ 0 ∨ O.par.joblib = false
  seeds : ∀ n, O.seeds n ≠ []
  codec : ∀ c ∈ ['f', 'b', '?'], ∃ bs, O.par.cd.enc c O.par.zero = .ok bs

/-- C65, every call: with valid parameters, if the workers run long enough for each network, `Sampler.sample` returns. The bitstrings are those that
were drawn, with the number of times, or the fraction of the times, in descending order; all have a positive probability. -/
theorem C65_returns (A : SampleArgs Q K R S σ W) (hA : SampleBase A) (O : SamplerOpts (Q × Stage) τ ρ P V) (hO : O.Ok) (hv : O.Valid) (hsq : IsAbsSq A.sq) :
    ∃ M : ℕ → List (List (Q × Stage)) → ℕ, ∀ t : ℕ → List (List (Q × Stage)) → List (List Event),
      (∀ n inds, (∀ r ∈ t n inds, ∀ i < (O.seeds n).length, .work i ∈ r) ∧ M n inds ≤ (t n inds).length) →
      ∀ (circuit : List (Gate Q K)), (∀ g ∈ circuit, SampleGate g) → 12 * (circuit.map fun g => g.2.length).sum < A.load.fuel →
      ∀ (order : Option (List Q)), (∀ o, order = some o → o.Nodup ∧ ∀ q, q ∈ o ↔ q ∈ circuit.flatMap Prod.snd) →
      ∀ {κ μ : Type} (randrange : κ → ℕ × κ) (seeded : ℕ → μ) (random : μ → R × μ), (∀ s, 0 ≤ (random s).1 ∧ (random s).1 < 1) →
      ∀ (enumQ : Finset Q → List Q), EnumOk enumQ → ∀ (s : κ) (k : ℕ) (normalize : Bool),
      ∃ steps r qubits, prepare (A.using { O with turns := t }) circuit order = some (.ok (steps, (circuit.flatMap Prod.snd).toFinset)) ∧
        samplerCall (A.using { O with turns := t }) randrange seeded random enumQ s (.circuit circuit) order k normalize false =
          (some (.ok (.counts r qubits)), (randrange s).2) ∧ qubits.Nodup ∧
        (∀ q, q ∈ qubits ↔ q ∈ circuit.flatMap Prod.snd) ∧ (∀ o, order = some o → qubits = o) ∧ (r.map Prod.fst).Nodup ∧
        (∀ e ∈ r, ∃ x, BitVals x ∧ e.1 = qubits.map x ∧ A.sq (runCircuit circuit (zeroState qubits) x) ≠ 0) ∧ r.Pairwise (fun a b => b.2 ≤ a.2) ∧
        (∀ b v, (b, v) ∈ r ↔ 0 < countOf b (sampleSeq random A.sq A.load.enum qubits steps k (seeded (randrange s).1)) ∧
          v = if normalize then (countOf b (sampleSeq random A.sq A.load.enum qubits steps k (seeded (randrange s).1)) : R) / k
            else (countOf b (sampleSeq random A.sq A.load.enum qubits steps k (seeded (randrange s).1)) : R)) ∧
        (normalize = false → (r.map Prod.snd).sum = k) ∧ (normalize = true → 0 < k → (r.map Prod.snd).sum = 1) := by
  obtain ⟨k0, bs, hk, hb⟩ := hv.steps
  obtain ⟨cm, hcm⟩ := hv.projs
  have key : ∀ n inds, ∃ M, ∀ t : ℕ → List (List (Q × Stage)) → List (List Event), (∀ xs ∈ inds, xs.Nodup) →
      (∀ r ∈ t n inds, ∀ i < (O.seeds n).length, .work i ∈ r) → M ≤ (t n inds).length →
      ∃ path, { O with turns := t }.optimize n inds = some (.ok path) := by
    intro n inds
    by_cases hn : ∀ xs ∈ inds, xs.Nodup
    · obtain ⟨M, hM⟩ := optimize_returns hO n inds hn hk hb hcm hv.jobs (hv.seeds n) hv.codec
      exact ⟨M, fun t _ h1 h2 => hM t h1 h2⟩
    · exact ⟨0, fun t h => absurd h hn⟩
  choose M hM using key
  refine ⟨M, fun t ht circuit hg hfuel order ho κ μ randrange seeded random hr enumQ heQ s k normalize => ?_⟩
  have hE : SampleEnv (A.using { O with turns := t }) := by
    refine ⟨hA.rng, hA.enumN, hA.enum, hA.iter, hA.r, fun n inds hi hn => ?_⟩
    obtain ⟨path, hp⟩ := hM n inds t hn (ht n inds).1 (ht n inds).2
    exact ⟨path, hp, optimize_sound (O := { O with turns := t }) ⟨hO.rng, hO.enumN, hO.enum⟩ hi hn hp⟩
  obtain ⟨steps, r, qubits, h1, h2, h3⟩ := C39_sample (A.using { O with turns := t }) hE hsq circuit hg hfuel order ho random hr (seeded (randrange s).1) enumQ heQ k
    normalize
  refine ⟨steps, r, qubits, h1, ?_, h3⟩
  unfold sample at h2
  rw [h1] at h2
  simp only [Option.some.injEq] at h2
  unfold samplerCall
  simp only [stateOfInput, h1, h2, countsOf]
  rfl

theorem sampleFrom_agree {sq : K → R} (hsq : IsAbsSq sq) {circuit : List (Gate Q K)} (hg : ∀ g ∈ circuit, SampleGate g) {steps steps' : List (SampleStep Q K)}
    {enum enum' : Finset (Q × Stage) → List (Q × Stage)} (h : ∀ qubits : List Q, qubits.Nodup → (∀ q ∈ circuit.flatMap Prod.snd, q ∈ qubits) →
      StepsOk sq enum qubits [] circuit steps) (h' : ∀ qubits : List Q, qubits.Nodup → (∀ q ∈ circuit.flatMap Prod.snd, q ∈ qubits) →
      StepsOk sq enum' qubits [] circuit steps') {μ : Type} {random : μ → R × μ} (hr : ∀ s, 0 ≤ (random s).1 ∧ (random s).1 < 1)
    {enumQ : Finset Q → List Q} (heQ : EnumOk enumQ) (s : μ) {order : Option (List Q)}
    (ho : ∀ o, order = some o → o.Nodup ∧ ∀ q, q ∈ o ↔ q ∈ circuit.flatMap Prod.snd) (k : ℕ) (normalize : Bool) :
    sampleFrom random s sq enum enumQ steps (circuit.flatMap Prod.snd).toFinset order k normalize =
      sampleFrom random s sq enum' enumQ steps' (circuit.flatMap Prod.snd).toFinset order k normalize := by
  set qset := (circuit.flatMap Prod.snd).toFinset with hqset
  set qubits := order.getD (enumQ qset) with hqd
  have hqq : qubits.Nodup ∧ ∀ q, q ∈ qubits ↔ q ∈ circuit.flatMap Prod.snd := by
    cases order with
    | none =>
      refine ⟨(heQ _).1, fun q => ?_⟩
      rw [hqd, Option.getD_none, (heQ _).2, hqset, List.mem_toFinset]
    | some o => exact ho o rfl
  obtain ⟨hn, hq⟩ := hqq
  have hrep : List.replicate qubits.length 0 = qubits.map fun _ : Q => 0 := by simp
  have hrun : ∀ s, runSteps (rngFlip random) sq enum qubits steps (List.replicate qubits.length 0) s =
      runSteps (rngFlip random) sq enum' qubits steps' (List.replicate qubits.length 0) s := by
    intro s
    rw [hrep]
    exact runs_agree hr hsq hn circuit [] steps steps' (by simpa using hg) (by simpa using fun q h => (hq q).2 h) (h qubits hn fun q h => (hq q).2 h)
      (h' qubits hn fun q h => (hq q).2 h) (fun _ => 0) (fun _ => Nat.zero_lt_two) (by rw [born_nil hsq]; simp) s
  have hloop : ∀ (n : ℕ) (s : μ) (d : List (List ℕ × ℕ)), sampleLoop random sq enum qubits steps n s d = sampleLoop random sq enum' qubits steps' n s d := by
    intro n
    induction n with
    | zero => intro s d; rfl
    | succ n ih =>
      intro s d
      unfold sampleLoop
      rw [hrun]
      split
      · rfl
      · exact ih _ _
  unfold sampleFrom
  simp only [← hqd, hloop]

section
variable {S' σ' W' τ' ρ' P' V' : Type} [Zero W'] [Add W'] [LT W'] [DecidableLT W'] [LinearOrder P']
variable (A : SampleArgs Q K R S σ W) (hA : SampleBase A) (O : SamplerOpts (Q × Stage) τ ρ P V) (hO : O.Ok) (hsq : IsAbsSq A.sq)
  (A' : SampleArgs Q K R S' σ' W') (hA' : SampleBase A') (O' : SamplerOpts (Q × Stage) τ' ρ' P' V') (hO' : O'.Ok) (hsqs : A'.sq = A.sq)
  (circuit : List (Gate Q K)) (hg : ∀ g ∈ circuit, SampleGate g) (hfuel : 12 * (circuit.map fun g => g.2.length).sum < A.load.fuel)
  (hfuel' : 12 * (circuit.map fun g => g.2.length).sum < A'.load.fuel)
  {κ μ : Type} (randrange : κ → ℕ × κ) (seeded : ℕ → μ) (random : μ → R × μ) (hr : ∀ s, 0 ≤ (random s).1 ∧ (random s).1 < 1)
  (enumQ : Finset Q → List Q) (heQ : EnumOk enumQ)
include hA hO hsq hA' hO' hsqs hg hfuel hfuel' hr heQ

/-- C65: the counts depend on the seed of the sampler alone. Two samplers with whatever options for loading, temperatures, seeds of the optimizer, and turns of
the workers, draw the same bitstrings for the same circuit if their random numbers are the same. -/
theorem C65_agree (s : κ) (order : Option (List Q)) (ho : ∀ o, order = some o → o.Nodup ∧ ∀ q, q ∈ o ↔ q ∈ circuit.flatMap Prod.snd) (k : ℕ)
    (normalize : Bool) (r r' : SampleOutput Q K R)
    (h : (samplerCall (A.using O) randrange seeded random enumQ s (.circuit circuit) order k normalize false).1 = some (.ok r))
    (h' : (samplerCall (A'.using O') randrange seeded random enumQ s (.circuit circuit) order k normalize false).1 = some (.ok r')) : r = r' := by
  simp only [samplerCall, stateOfInput, Bool.false_eq_true, if_false] at h h'
  cases hp : prepare (A.using O) circuit order with
  | none => rw [hp] at h; simp at h
  | some x =>
    cases hp' : prepare (A'.using O') circuit order with
    | none => rw [hp'] at h'; simp at h'
    | some x' =>
      rw [hp] at h
      rw [hp'] at h'
      match x, x', h, h' with
      | .ok (steps, qset), .ok (steps', qset'), h, h' =>
        obtain ⟨rfl, h1⟩ := sampler_steps A hA O hO hsq circuit hg hfuel order (fun o h => (ho o h).2) steps qset hp
        obtain ⟨rfl, h2⟩ := sampler_steps A' hA' O' hO' (by rw [hsqs]; exact hsq) circuit hg hfuel' order (fun o h => (ho o h).2) steps' qset' hp'
        rw [hsqs] at h2
        have e := sampleFrom_agree hsq hg h1 h2 hr heQ (seeded (randrange s).1) ho k normalize
        simp only [Option.some.injEq] at h h'
        have e1 : (A.using O).sq = A.sq := rfl
        have e2 : (A'.using O').sq = A.sq := hsqs
        have e3 : (A.using O).load = A.load := rfl
        have e4 : (A'.using O').load = A'.load := rfl
        rw [e1, e3, e] at h
        rw [e2, e4, h] at h'
        simpa using h'

/-- C65: an intermediate state can be used again. What a sampler has prepared for a circuit, given to this or to another sampler in any state, yields the
counts that the other sampler yields for the circuit itself; and it never fails. -/
theorem C65_reuse (s0 s : κ) (order0 order : Option (List Q)) (ho0 : ∀ o, order0 = some o → ∀ q, q ∈ o ↔ q ∈ circuit.flatMap Prod.snd)
    (ho : ∀ o, order = some o → o.Nodup ∧ ∀ q, q ∈ o ↔ q ∈ circuit.flatMap Prod.snd) (k0 k : ℕ) (normalize0 normalize : Bool)
    (steps : List (SampleStep Q K)) (qset : Finset Q)
    (h : (samplerCall (A.using O) randrange seeded random enumQ s0 (.circuit circuit) order0 k0 normalize0 true).1 = some (.ok (.state steps qset)))
    (r : SampleOutput Q K R)
    (h' : (samplerCall (A'.using O') randrange seeded random enumQ s (.circuit circuit) order k normalize false).1 = some (.ok r)) :
    (samplerCall (A.using O) randrange seeded random enumQ s (.state steps qset) order k normalize false).1 = some (.ok r) := by
  simp only [samplerCall, stateOfInput, Bool.false_eq_true, if_false, if_true] at h h' ⊢
  cases hp : prepare (A.using O) circuit order0 with
  | none => rw [hp] at h; simp at h
  | some x =>
    cases hp' : prepare (A'.using O') circuit order with
    | none => rw [hp'] at h'; simp at h'
    | some x' =>
      rw [hp] at h
      rw [hp'] at h'
      match x, x', h, h' with
      | .ok (steps1, qset1), .ok (steps', qset'), h, h' =>
        simp only [Option.some.injEq, Except.ok.injEq, SampleOutput.state.injEq] at h
        obtain ⟨rfl, rfl⟩ := h
        obtain ⟨rfl, h1⟩ := sampler_steps A hA O hO hsq circuit hg hfuel order0 ho0 _ _ hp
        obtain ⟨rfl, h2⟩ := sampler_steps A' hA' O' hO' (by rw [hsqs]; exact hsq) circuit hg hfuel' order (fun o h => (ho o h).2) _ _ hp'
        rw [hsqs] at h2
        have e := sampleFrom_agree hsq hg h1 h2 hr heQ (seeded (randrange s).1) ho k normalize
        have e2 : (A'.using O').sq = A.sq := hsqs
        have e4 : (A'.using O').load = A'.load := rfl
        rw [← h', e2, e4]
        exact congrArg (fun z => some (countsOf z)) e

end

/-! ## Concrete cases -/

/-- An optimizer for the examples: two runs for each network. -/
def plainOpts : SamplerOpts (ℕ × Stage) Unit ℕ ℚ ℕ where
  sa := simEnv
  par := saPar
  betas := .pair 0 1
  nSteps := some 2
  nProjs := none
  nJobs := 1
  seeds n := [n, n + 1]
  turns _ inds := List.replicate (20 * inds.length) [.work 0, .work 1]
  sys := ⟨[], 0, 0⟩
  fixed := false

example : plainOpts.Ok ∧ plainOpts.Valid :=
  ⟨⟨zeroRng_ok, positions_ok, listStages_ok⟩, ⟨⟨some 2, [0, 1 / 2], by decide +kernel, by decide +kernel⟩, ⟨⟨some ∅, none⟩, rfl⟩, Or.inl (by decide),
    fun n => by simp [plainOpts], fun c _ => ⟨_, rfl⟩⟩⟩

/-- A rotation by an angle with rational sine and cosine. -/
def ratRot : NDArray ℚ := ⟨[2, 2], fun k => if k = 0 ∨ k = 3 then 3 / 5 else if k = 1 then -4 / 5 else 4 / 5⟩
def ratCX : NDArray ℚ := ⟨[4, 4], fun k => if k = 0 ∨ k = 5 ∨ k = 11 ∨ k = 14 then 1 else 0⟩

def ratArgs : SampleArgs ℕ ℚ ℚ Unit Unit ℕ :=
  ⟨⟨false, true, false, none, 1, id, id, zeroRng, ISet.positions, listStages, Nat.clog 2, 100⟩, fun _ => (), fun x => x * x, listStages, fun _ _ => none⟩

/-- The result of a call, without the intermediate state. -/
def countsIn {e : Type} : Option (Except e (SampleOutput ℕ ℚ ℚ)) → Option (List (List ℕ × ℚ) × List ℕ)
  | some (.ok (.counts r q)) => some (r, q)
  | _ => none

/-- A run: in ten samples of `3/5 |00⟩ + 4/5 |11⟩`, with the probabilities 0.36 and 0.64, seven have the value 11. -/
example : countsIn (samplerCall (ratArgs.using plainOpts) (fun s : ℕ => (s + 7, s + 1)) (fun s => s) (fun s : ℕ => (((s % 10 : ℕ) : ℚ) / 10, s + 3))
    ISet.positions 5 (.circuit [(ratRot, [0]), (ratCX, [0, 1])]) (some [1, 0]) 10 true false).1 =
      some ([([1, 1], 7 / 10), ([0, 0], 3 / 10)], [1, 0]) := by
  decide +kernel

/-- With the parameters of the previous run but no turns for the workers, the call does not return; with zero runs it raises `ValueError`. -/
example : (samplerCall (ratArgs.using { plainOpts with turns := fun _ _ => [] }) (fun s : ℕ => (s + 7, s + 1)) (fun s => s)
      (fun s : ℕ => (((s % 10 : ℕ) : ℚ) / 10, s + 3)) ISet.positions 5 (.circuit [(ratRot, [0]), (ratCX, [0, 1])]) (some [1, 0]) 10 true false).1.isNone ∧
    { plainOpts with seeds := fun _ => [] }.optimize 0 [[(0, .i)], [(0, .i)]] = some (.error .valueError) := by
  exact ⟨by decide +kernel, rfl⟩

open Classical in
/-- The hypotheses about `sample` for complex numbers, with all options switched on. -/
example (enum : Finset (ℕ × Stage) → List (ℕ × Stage)) (he : EnumOk enum) : ∃ h : ℂ,
    let A := sampleArgs ℂ Complex.normSq h true true (some 3) enum 100
    SampleBase A ∧ Nonempty (IsAbsSq A.sq) ∧ SampleGate ((matH h, [0]) : Gate ℕ ℂ) ∧ ¬ IsMonomial 2 (matH h) := by
  have hr : (Real.sqrt 2 / 2) * (Real.sqrt 2 / 2) + Real.sqrt 2 / 2 * (Real.sqrt 2 / 2) = 1 := by
    have := Real.mul_self_sqrt (show (0 : ℝ) ≤ 2 by norm_num)
    linarith
  obtain ⟨h, hst, hrc⟩ : ∃ h : ℂ, star h = h ∧ h * h + h * h = 1 := ⟨((Real.sqrt 2 / 2 : ℝ) : ℂ), Complex.conj_ofReal _, by
    rw [← Complex.ofReal_mul, ← Complex.ofReal_add, hr, Complex.ofReal_one]⟩
  have hne : h ≠ 0 := by
    intro h0
    rw [h0] at hrc
    simp at hrc
  have hst' : (starRingEnd ℂ) h = h := hst
  refine ⟨h, ⟨⟨fun n s h => h, fun n s h => ⟨by simp [sampleArgs, plainArgs]; omega, by simp [sampleArgs, plainArgs]; omega, by simp [sampleArgs, plainArgs]⟩⟩,
    fun s => ⟨Finset.sort_nodup _ _, fun x => Finset.mem_sort _⟩, he, he, ?_⟩, ⟨⟨Complex.ofRealHom, fun a => ?_, Complex.normSq_nonneg⟩⟩, ?_, ?_⟩
  · simp only [sampleArgs, plainArgs, hst]
    exact hrc
  · rw [Complex.star_def, mul_comm, Complex.mul_conj]
    rfl
  · refine ⟨⟨by simp, by simp, rfl⟩, Or.inr ⟨rfl, fun r hr c hc => ?_⟩⟩
    simp only [List.length_cons, List.length_nil] at hr hc ⊢
    norm_num at hr hc
    interval_cases r <;> interval_cases c <;>
      simp [Finset.sum_range_succ, matH, NDArray.get, ravel, hst'] <;> simpa using hrc
  · rintro ⟨⟨σ, hσ⟩, -⟩
    have h0 := (hσ 0 0).1 (by simpa [matH, NDArray.get, ravel] using hne)
    have h1 := (hσ 1 0).1 (by simpa [matH, NDArray.get, ravel] using hne)
    exact absurd (h0.trans h1.symm) (by decide)

end TNCO
