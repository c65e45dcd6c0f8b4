import Verif.Model.Sampler
import Verif.Lemmas.SampleDist
import Verif.Lemmas.LoadNet
import Verif.Props.TensorNetwork
import Verif.Props.Anneal
import Verif.Lemmas.ReportRun

/-! # The optimizer of a sampler -/

namespace TNCO

section
variable {ι τ ρ P V : Type} [DecidableEq ι] [LinearOrder P]

/-- A tensor with indices of dimension 2, without an array. -/
def qubitTensor (xs : List ι) : TensorRec ι := ⟨xs, List.replicate xs.length 2, none⟩

omit [DecidableEq ι] in
theorem mkTensor_bits (xs : List ι) : mkTensor xs (.scalar 2) none = .ok (qubitTensor xs) := by
  refine (C45_tensor xs _ _ _).2 ⟨rfl, rfl, by simp [qubitTensor], fun d hd => ?_, fun s hs => (by cases hs), ?_⟩
  · rw [List.eq_of_mem_replicate hd]; omega
  · refine ⟨2, by omega, by norm_num, rfl⟩

omit [DecidableEq ι] in
theorem bitTensors_ok (inds : List (List ι)) : bitTensors inds = .ok (inds.map qubitTensor) := by
  induction inds with
  | nil => rfl
  | cons xs inds ih => simp only [bitTensors, mkTensor_bits, ih, List.map_cons]

theorem qubit_has {inds : List (List ι)} : ∀ t ∈ inds.map qubitTensor, ∀ x d, t.Has x d → d = 2 := by
  intro t ht x d hx
  obtain ⟨xs, hxs, rfl⟩ := List.mem_map.1 ht
  obtain ⟨k, -, hk⟩ := hx
  exact List.eq_of_mem_replicate (List.mem_of_getElem? hk)

/-- The network that a sampler optimizes. -/
structure BitsNet (inds : List (List ι)) (N : NetworkRec ι) : Prop where
  tensors : N.tensors = inds.map qubitTensor
  output : N.output = ∅
  sparse : N.sparse = ∅
  dims : ∀ x ∈ inds.flatten, dget N.dims x = some 2

theorem BitsNet.tsInds {inds : List (List ι)} {N : NetworkRec ι} (h : BitsNet inds N) : N.tsInds = inds := by
  unfold NetworkRec.tsInds
  rw [h.tensors, List.map_map]
  exact List.map_id'' (fun _ => rfl) _

theorem make_bits (inds : List (List ι)) (output sparse : Option (List ι)) (ho : output = some []) (hs : sparse.getD [] = []) :
    ∃ N, mkNetwork ((inds.map qubitTensor).map some) output sparse = .ok N ∧ BitsNet inds N := by
  subst ho
  obtain ⟨N, n1, n2, n3, -, n5, n6⟩ := (C45_network (inds.map qubitTensor) (fun t ht => by
    obtain ⟨xs, -, rfl⟩ := List.mem_map.1 ht
    simp [qubitTensor]) (some []) sparse).1
    ⟨fun t ht t' ht' x d d' hd hd' => (qubit_has t ht x d hd).trans (qubit_has t' ht' x d' hd').symm, fun h => by simp at h,
      fun o ho x hx => by cases ho; simp at hx, fun s h x hx => by subst h; simp only [Option.getD_some] at hs; subst hs; simp at hx⟩
  refine ⟨N, n1, n2, n3 _ rfl, by rw [n5, hs]; rfl, fun x hx => ?_⟩
  obtain ⟨xs, hxs, hx⟩ := List.mem_flatten.1 hx
  obtain ⟨k, hk, he⟩ := List.getElem_of_mem hx
  refine n6 (qubitTensor xs) (List.mem_map_of_mem hxs) x 2 ⟨k, ?_, ?_⟩
  · rw [← he]
    exact List.getElem?_eq_getElem hk
  · simp [qubitTensor, hk]

theorem bitsNetwork_ok (inds : List (List ι)) : ∃ N, bitsNetwork inds = .ok N ∧ BitsNet inds N := by
  obtain ⟨N, h1, h2⟩ := make_bits inds (some []) none rfl rfl
  refine ⟨N, ?_, h2⟩
  unfold bitsNetwork
  rw [bitTensors_ok]
  exact h1

theorem tensorRecs_bits (dims : ι → Option ℕ) : ∀ inds : List (List ι), (∀ x ∈ inds.flatten, dims x = some 2) →
    tensorRecs (K := Unit) (T := Unit) dims inds (inds.map fun _ => none) (inds.map fun _ => none) = .ok (inds.map qubitTensor) := by
  intro inds
  induction inds with
  | nil => intro _; rfl
  | cons xs inds ih =>
    intro h
    have e : mkTensor xs (.list (xs.map (netDimVal dims))) (Option.map NDArray.shape (none : Option (NDArray Unit))) = .ok (qubitTensor xs) := by
      refine (C45_tensor xs _ _ _).2 ⟨rfl, rfl, by simp [qubitTensor], fun d hd => ?_, fun s hs => (by cases hs), ?_⟩
      · rw [List.eq_of_mem_replicate hd]; omega
      · change xs.map (netDimVal dims) = _
        have : xs.map (netDimVal dims) = xs.map fun _ => DimVal.num 2 := by
          refine List.map_congr_left fun x hx => ?_
          unfold netDimVal
          rw [h x (by simp [hx])]
          rfl
        rw [this]
        simp [qubitTensor]
    have h2 := ih fun x hx => h x (by
      rw [List.flatten_cons, List.mem_append]
      exact Or.inr hx)
    simp only [List.map_cons, tensorRecs, e, h2]

theorem reload_ok {enum : Finset ι → List ι} (he : EnumOk enum) {inds : List (List ι)} {N : NetworkRec ι} (h : BitsNet inds N) :
    ∃ N', reloadNet enum N = .ok N' ∧ BitsNet inds N' := by
  have hnil : enum ∅ = [] := List.eq_nil_iff_forall_not_mem.2 fun x hx => by simpa using ((he ∅).2 x).1 hx
  obtain ⟨N', h1, h2⟩ := make_bits inds (some (enum N.output)) (some (enum N.sparse)) (by rw [h.output, hnil]) (by rw [h.sparse, Option.getD_some, hnil])
  refine ⟨N', ?_, h2⟩
  unfold reloadNet
  have e : (N.tensors.map fun _ => (none : Option (NDArray Unit))) = inds.map fun _ => none := by rw [h.tensors, List.map_map]; rfl
  have e' : (N.tensors.map fun _ => (none : Option (TagTree Unit))) = inds.map fun _ => none := by rw [h.tensors, List.map_map]; rfl
  rw [h.tsInds, e, e', tensorRecs_bits _ _ h.dims]
  exact h1

theorem BitsNet.plain {inds : List (List ι)} {N : NetworkRec ι} (h : BitsNet inds N) (hn : ∀ xs ∈ inds, xs.Nodup) : N.Plain := by
  refine ⟨by rw [h.tsInds]; exact hn, fun l hl x hx => ⟨2, by omega, h.dims x ?_⟩⟩
  rw [h.tsInds] at hl
  exact List.mem_flatten.2 ⟨l, hl, hx⟩

/-- What is asked of the environment of the optimizer: numbers in range, sets listed without repetition. -/
structure SamplerOpts.Ok (O : SamplerOpts ι τ ρ P V) : Prop where
  rng : O.sa.rng.Ok
  enumN : EnumOk O.sa.enumN
  enum : EnumOk O.sa.enum

theorem SamplerOpts.Ok.env {O : SamplerOpts ι τ ρ P V} (hO : O.Ok) {inds : List (List ι)} {N : NetworkRec ι} (h : BitsNet inds N) : (O.env inds).Ok N := by
  refine ⟨hO.rng, hO.enumN, hO.enum, ?_⟩
  rw [h.tsInds]
  have := (List.subperm_of_subset (uniqueEverseen_nodup inds.flatten) fun x hx => mem_uniqueEverseen.1 hx).length_le
  change _ < inds.length + inds.flatten.length + 1
  omega

/-- The network that the optimizer of a sampler gets, and the result whose path it returns. -/
theorem optimize_cheapest {O : SamplerOpts ι τ ρ P V} (hO : O.Ok) {n : ℕ} {inds : List (List ι)} {path : List (ℕ × ℕ)}
    (h : O.optimize n inds = some (.ok path)) : ∃ N sys' rs, BitsNet inds N ∧
      optimizeInfWith (costPrinter O.fixed) (O.env inds) O.par N O.betas O.nSteps O.nProjs O.nJobs (O.seeds n) (O.turns n inds).flatten O.sys =
        (sys', some (.ok rs)) ∧
      ∃ r ∈ rs, r.path = path ∧ ∀ r' ∈ rs, r.cost ≤ r'.cost := by
  obtain ⟨N, h1, h2⟩ := bitsNetwork_ok inds
  obtain ⟨N', h3, h4⟩ := reload_ok hO.enum h2
  unfold SamplerOpts.optimize at h
  rw [h1] at h
  simp only [h3] at h
  rcases hr : optimizeInfWith (costPrinter O.fixed) (O.env inds) O.par N' O.betas O.nSteps O.nProjs O.nJobs (O.seeds n) (O.turns n inds).flatten O.sys with ⟨sys', res⟩
  rw [hr] at h
  match res, h with
  | some (.ok rs), h =>
    simp only at h
    split at h
    · unfold cheapest at h
      split at h
      · cases h
      · rename_i r hc
        simp only [Option.some.injEq, Except.ok.injEq] at h
        split at hc
        · cases hc
        · rename_i r' l hs
          cases hc
          have hp := sortResults_perm InfResultOf.cost rs
          have hsd := sortResults_sorted InfResultOf.cost rs
          rw [hs] at hp hsd
          refine ⟨N', sys', rs, h4, hr, r, hp.mem_iff.1 (by simp), h, fun r' hr' => ?_⟩
          rcases List.mem_cons.1 (hp.mem_iff.2 hr') with rfl | hm
          · exact le_refl _
          · exact (List.pairwise_cons.1 hsd).1 r' hm
    · cases h

/-- Whatever path the optimizer of a sampler returns, it is complete. -/
theorem optimize_sound {O : SamplerOpts ι τ ρ P V} (hO : O.Ok) {n : ℕ} {inds : List (List ι)} (hi : inds ≠ []) (hn : ∀ xs ∈ inds, xs.Nodup)
    {path : List (ℕ × ℕ)} (h : O.optimize n inds = some (.ok path)) : ValidPath inds.length path ∧ path.length + 1 = inds.length := by
  obtain ⟨N, h1, h2⟩ := bitsNetwork_ok inds
  obtain ⟨N', h3, h4⟩ := reload_ok hO.enum h2
  have hlen := List.length_pos_iff.2 hi
  unfold SamplerOpts.optimize at h
  rw [h1] at h
  simp only [h3] at h
  rcases hr : optimizeInfWith (costPrinter O.fixed) (O.env inds) O.par N' O.betas O.nSteps O.nProjs O.nJobs (O.seeds n) (O.turns n inds).flatten O.sys with ⟨sys', res⟩
  rw [hr] at h
  match res, h with
  | some (.ok rs), h =>
    simp only at h
    split at h
    · unfold cheapest at h
      split at h
      · cases h
      · rename_i r hc
        simp only [Option.some.injEq, Except.ok.injEq] at h
        subst h
        split at hc
        · cases hc
        · rename_i r' l hs
          cases hc
          have hm : r ∈ rs := (sortResults_perm InfResultOf.cost rs).mem_iff.1 (by rw [hs]; simp)
          obtain ⟨rs1, rs0, hr1, hp1, hrep, -⟩ := reportedInf_ok O.fixed _ _ _ _ _ _ _ _ _ _ _ hr
          obtain ⟨r0, hr0, hrr⟩ := forall₂_mem_right hrep hm
          obtain ⟨g1, g2, -⟩ := C43_infinite_memory_partial (O.env inds) O.par N' O.betas O.nSteps O.nProjs O.nJobs (O.seeds n)
            (O.turns n inds).flatten O.sys sys' (hO.env h4) (h4.plain hn) rs1 hr1 r0 (hp1.mem_iff.1 hr0)
          rw [h4.tsInds] at g1 g2
          rw [hrr.path]
          obtain ⟨u, hu⟩ := g2 hlen
          exact ⟨⟨_, hu⟩, by omega⟩
    · cases h

/-- The optimizer of a sampler returns if its parameters are valid and the workers run long enough. -/
theorem optimize_returns {O : SamplerOpts ι τ ρ P V} (hO : O.Ok) (n : ℕ) (inds : List (List ι)) (hn : ∀ xs ∈ inds, xs.Nodup)
    {k : Option ℕ} {bs : List ℚ} {cm : PyCM ι} (hk : checkSteps O.nSteps = .ok k) (hb : expandBetas O.betas k = .ok (bs, true))
    (hcm : PyCM.make (some ∅) O.nProjs = .ok cm) (hj : O.nJobs ≠ 0 ∨ O.par.joblib = false) (hs : O.seeds n ≠ [])
    (henc : ∀ c ∈ ['f', 'b', '?'], ∃ bs, O.par.cd.enc c O.par.zero = .ok bs) :
    ∃ M, ∀ t : ℕ → List (List ι) → List (List Event), (∀ r ∈ t n inds, ∀ i < (O.seeds n).length, .work i ∈ r) → M ≤ (t n inds).length →
      ∃ path, { O with turns := t }.optimize n inds = some (.ok path) := by
  obtain ⟨N, h1, h2⟩ := bitsNetwork_ok inds
  obtain ⟨N', h3, h4⟩ := reload_ok hO.enum h2
  have hsp : SparseOk N'.tsInds N'.sparse := by
    intro x hx
    rw [h4.sparse] at hx
    exact absurd hx (Finset.notMem_empty x)
  obtain ⟨M, hM⟩ := C55_infinite_memory (O.env inds) O.par N' O.betas O.nSteps O.nProjs O.nJobs (O.seeds n) O.sys (hO.env h4) (h4.plain hn) k bs cm hk hb
    (by rw [h4.sparse]; exact hcm) hsp hj hs henc
  refine ⟨M, fun t hr hl => ?_⟩
  obtain ⟨sys', rs, h⟩ := hM (t n inds) hr hl
  obtain ⟨rs, h⟩ := (reportedInf_same O.fixed _ _ _ _ _ _ _ _ _ _ _).2.2.2 ⟨rs, h⟩
  obtain ⟨rs1, rs2, hr1, hp1, hrep, -⟩ := reportedInf_ok O.fixed _ _ _ _ _ _ _ _ _ _ _ h
  obtain ⟨_, _, _, rs0, _, _, hp, hf⟩ := C44_updates (O.env inds) O.par N' O.betas O.nSteps O.nProjs O.nJobs (O.seeds n) (t n inds).flatten O.sys sys' rs1 hr1
  have hlen : (sortResults InfResultOf.cost rs).length = (O.seeds n).length := by
    rw [(sortResults_perm InfResultOf.cost rs).length_eq, ← List.Forall₂.length_eq hrep, hp1.length_eq, hp.length_eq, List.Forall₂.length_eq hf]
  unfold SamplerOpts.optimize
  rw [h1]
  have hO' : ({ O with turns := t } : SamplerOpts ι τ ρ P V).env inds = O.env inds := rfl
  simp only [h3, hO', h]
  rw [if_pos ⟨h4.tensors.trans h2.tensors.symm, h4.output.trans h2.output.symm, h4.sparse.trans h2.sparse.symm⟩]
  unfold cheapest
  cases hc : sortResults InfResultOf.cost rs with
  | nil =>
    rw [hc] at hlen
    exact absurd (List.length_eq_zero_iff.1 hlen.symm) hs
  | cons r l => exact ⟨r.path, rfl⟩

end

section
variable {Q K R S σ W : Type} [DecidableEq Q] [Field K] [StarRing K] [DecidableEq K] [Field R] [LinearOrder R]
variable [Zero W] [Add W] [LT W] [DecidableLT W]

/-- An optimizer that is never worse. -/
def Extends (A B : SampleArgs Q K R S σ W) : Prop :=
  B.load = A.load ∧ B.seed = A.seed ∧ B.sq = A.sq ∧ B.iter = A.iter ∧ ∀ n inds path, A.optimize n inds = some (.ok path) → B.optimize n inds = some (.ok path)

theorem prepareGate_extends {A B : SampleArgs Q K R S σ W} (h : Extends A B) {c : List (Gate Q K)} {n : ℕ} {g : Gate Q K} {s : SampleStep Q K}
    (hs : prepareGate A c n g = some (.ok s)) : prepareGate B c n g = some (.ok s) := by
  obtain ⟨h1, h2, h3, h4, h5⟩ := h
  unfold prepareGate at hs ⊢
  rw [h3]
  cases hc : isClassical A.sq g.1 with
  | error e => rw [hc] at hs; simp at hs
  | ok b =>
    rw [hc] at hs
    cases b with
    | true => exact hs
    | false =>
      simp only at hs ⊢
      rw [h1, h2]
      cases hl : load A.load (A.seed n) (c.take (n + 1)) (.str "0") .none with
      | none => rw [hl] at hs; simp at hs
      | some r =>
        rw [hl] at hs
        cases r with
        | error e => simp at hs
        | ok r =>
          obtain ⟨arrs, inds, out⟩ := r
          simp only at hs ⊢
          rw [h4]
          cases ho : A.optimize n (inds ++ (A.iter out).map fun x => [x]) with
          | none => rw [ho] at hs; simp at hs
          | some r =>
            rw [ho] at hs
            cases r with
            | error e => simp at hs
            | ok path => rw [h5 _ _ _ ho]; exact hs

theorem prepareLoop_extends {A B : SampleArgs Q K R S σ W} (h : Extends A B) {c : List (Gate Q K)} : ∀ (l : List (Gate Q K)) (n : ℕ)
    (ss : List (SampleStep Q K)), prepareLoop A c n l = some (.ok ss) → prepareLoop B c n l = some (.ok ss) := by
  intro l
  induction l with
  | nil => intro n ss hs; exact hs
  | cons g l ih =>
    intro n ss hs
    unfold prepareLoop at hs ⊢
    cases hg : prepareGate A c n g with
    | none => rw [hg] at hs; simp at hs
    | some r =>
      rw [hg] at hs
      cases r with
      | error e => simp at hs
      | ok s =>
        rw [prepareGate_extends h hg]
        simp only at hs ⊢
        cases hl : prepareLoop A c (n + 1) l with
        | none => rw [hl] at hs; simp at hs
        | some r =>
          rw [hl] at hs
          cases r with
          | error e => simp at hs
          | ok ss' => rw [ih _ _ hl]; exact hs

theorem prepare_extends {A B : SampleArgs Q K R S σ W} (h : Extends A B) {c : List (Gate Q K)} {order : Option (List Q)}
    {r : List (SampleStep Q K) × Finset Q} (hr : prepare A c order = some (.ok r)) : prepare B c order = some (.ok r) := by
  unfold prepare at hr ⊢
  rw [h.2.2.1]
  cases ha : allowed A.sq c with
  | error e => rw [ha] at hr; simp at hr
  | ok b =>
    rw [ha] at hr
    cases b with
    | false => simp at hr
    | true =>
      simp only at hr ⊢
      split at hr
      · rename_i ho
        rw [if_pos ho]
        cases hl : prepareLoop A c 0 c with
        | none => rw [hl] at hr; simp at hr
        | some r =>
          rw [hl] at hr
          cases r with
          | error e => simp at hr
          | ok ss => rw [prepareLoop_extends h _ _ _ hl]; exact hr
      · simp at hr

end
end TNCO
