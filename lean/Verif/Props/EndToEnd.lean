import Verif.Lemmas.Slice
import Verif.Props.Anneal

/-!
# C59: what the optimizers report is what `contract` then does

The path of a result, given to `contract`, yields the value of the network; the reported cost is the number of multiplications; with the
reported slices, every array held has at most the given width, and the slices add up to the value of the network.
-/

namespace TNCO
variable {ι R : Type} [DecidableEq ι] [CommSemiring R]

/-- C59: the arrays that `contract` returns have the indices which the cost model counts for the terms of the path. -/
theorem C59_held (enum : Finset ι → List ι) (he : EnumOk enum) (path : List (ℕ × ℕ)) (tsInds : List (List ι))
    (output : Option (List ι)) (arrays : List (NDArray R)) (dims : Option (PyDims ι)) (hn : ∀ xs ∈ tsInds, xs.Nodup)
    (inds : List (List ι)) (outR : Finset ι) (arrs : List (NDArray R))
    (h : contract enum path tsInds output arrays dims = .ok (inds, outR, arrs)) :
    ∃ F, replay (initTerms tsInds.length) path = some F ∧
      List.Forall₂ (fun xs t => xs.Nodup ∧ ∀ x, x ∈ xs ↔ x ∈ termInds tsInds outR t) inds F := by
  obtain ⟨d, v1, v2, v3, v4, v5, v6, v7⟩ := C31_value enum he path tsInds output arrays dims hn inds outR arrs h
  unfold contract at h
  cases hcd : checkDims tsInds (some arrays) dims with
  | error e => rw [hcd] at h; simp at h
  | ok u =>
    rw [hcd] at h
    simp only at h
    cases hco : contractOutput tsInds.flatten output with
    | error e => rw [hco] at h; simp at h
    | ok out =>
      rw [hco] at h
      simp only at h
      cases hl : contractLoop enum out (hyperCount tsInds.flatten) (arrays.zip tsInds) path with
      | error e => rw [hl] at h; simp at h
      | ok ts' =>
        rw [hl] at h
        simp only [Except.ok.injEq, Prod.mk.injEq] at h
        obtain ⟨rfl, hout, rfl⟩ := h
        have e : out = outR := by
          ext x
          have o1 := (contractOutput_isOutput hco).1
          cases output with
          | none => rw [o1 x, v4 x]
          | some l => rw [o1 x, v4 x]
        subst e
        obtain ⟨L, l1, l2, l3, l4, l5⟩ := held_init v1 hn out
        rw [← l1] at hl
        obtain ⟨L', rfl, m2, m3⟩ := held_loop he path l3 l4 l5 hl
        refine ⟨L'.map Prod.snd, by rw [← l2]; exact m2, ?_⟩
        rw [List.map_map, List.forall₂_map_left_iff, List.forall₂_map_right_iff, List.forall₂_same]
        exact fun e he => ⟨v3 _ (List.mem_map_of_mem (List.mem_map_of_mem he)), m3 e he⟩

/-- C59: the cost of a path is the number of multiplications that `contract` makes with it. -/
theorem C59_muls (enum : Finset ι → List ι) (he : EnumOk enum) (path : List (ℕ × ℕ)) (tsInds : List (List ι)) (output : List ι)
    (arrays : List (NDArray R)) (hn : ∀ xs ∈ tsInds, xs.Nodup) (d : ι → ℕ) (hc : Consistent d arrays tsInds)
    (hp : ValidPath tsInds.length path) :
    (contractMuls enum path tsInds output arrays : ℤ) = pathCost (nameCost d ∅ 0) tsInds output.toFinset ∅ path := by
  obtain ⟨F, hF⟩ := hp
  obtain ⟨L, l1, l2, l3, l4, l5⟩ := held_init hc hn output.toFinset
  unfold contractMuls pathCost
  rw [← l1, loopMuls_eq he path l3 l4 l5 (by rw [l2]; exact hF), l2]

/-- C59: with a path that contracts everything, `contract` returns the value of the network. -/
theorem C59_value (enum : Finset ι → List ι) (he : EnumOk enum) (path : List (ℕ × ℕ)) (tsInds : List (List ι)) (output : List ι)
    (arrays : List (NDArray R)) (hn : ∀ xs ∈ tsInds, xs.Nodup) (d : ι → ℕ) (hc : Consistent d arrays tsInds)
    (ho : ∀ x ∈ output, x ∈ tsInds.flatten) (h2 : ∀ x ∈ tsInds.flatten, x ∉ output → 2 ≤ tsInds.flatten.count x)
    {u : Term} (hp : replay (initTerms tsInds.length) path = some [u]) :
    ∃ zs az, contract enum path tsInds (some output) arrays none = .ok ([zs], output.toFinset, [az]) ∧ zs.Nodup ∧ (∀ x, x ∈ zs ↔ x ∈ output) ∧
      az.shape = zs.map d ∧ ∀ l : List ι, l.Nodup → (∀ x, x ∈ l ↔ x ∈ tsInds.flatten ∧ x ∉ output) → ∀ f : ι → ℕ, (∀ x ∈ output, f x < d x) →
        az.get (zs.map f) = einsum d l ((arrays.zip tsInds).map fun t g => t.1.get (t.2.map g)) f := by
  obtain ⟨⟨inds, outR, arrs⟩, h⟩ := (C31_succeeds enum he path tsInds (some output) arrays none hn d hc (by simp) ho).1 ⟨_, hp⟩
  have hlen := Linear.replay_length hp
  rw [initTerms, List.length_map, List.length_range, List.length_singleton] at hlen
  have hO : outR = output.toFinset := by
    obtain ⟨-, -, -, -, v4, -⟩ := C31_value enum he path tsInds (some output) arrays none hn inds outR arrs h
    ext x
    rw [v4 x, List.mem_toFinset]
  obtain ⟨d', zs, az, b1, rfl, rfl, b2, b3, -, b5, b6⟩ := C31_complete enum he path tsInds (some output) arrays none hn inds outR arrs h
    (by omega) (fun x hx hxo => h2 x hx (by rw [hO, List.mem_toFinset] at hxo; exact hxo))
  subst hO
  have hd : ∀ x ∈ tsInds.flatten, d x = d' x := by
    intro x hx
    obtain ⟨xs, hxs, hx⟩ := List.mem_flatten.1 hx
    have hsnd : (arrays.zip tsInds).map Prod.snd = tsInds := List.map_snd_zip (by rw [hc.1])
    rw [← hsnd] at hxs
    obtain ⟨t, ht, rfl⟩ := List.mem_map.1 hxs
    have e := (hc.2 t ht).symm.trans (b1.2 t ht)
    exact List.map_inj_left.1 e x hx
  have hz : ∀ x, x ∈ zs ↔ x ∈ output := fun x => by rw [b3, List.mem_toFinset]
  refine ⟨zs, az, h, b2, hz, ?_, ?_⟩
  · rw [b5]
    exact List.map_congr_left fun x hx => (hd x (ho x ((hz x).1 hx))).symm
  · intro l nl hl f hf
    rw [b6 l nl (fun x => by rw [hl x, List.mem_toFinset]) f (fun x hx => by
      rw [List.mem_toFinset] at hx
      rw [← hd x (ho x hx)]; exact hf x hx)]
    have hs : ∀ (m : List ι), (∀ x ∈ m, x ∈ tsInds.flatten) → ∀ (F : (ι → ℕ) → R) f, sumOver d' m F f = sumOver d m F f := by
      intro m hm F
      induction m with
      | nil => intro f; rfl
      | cons x m ih =>
        intro f
        simp only [sumOver]
        rw [← hd x (hm x (by simp))]
        exact Finset.sum_congr rfl fun i _ => ih (fun y hy => hm y (by simp [hy])) _
    exact hs l (fun x hx => ((hl x).1 hx).1) _ f

/-- C59: slicing. Whatever indices are sliced, contracting every slice along the path and adding up the results over the values of the sliced
indices which are no output indices gives the value of the network; a sliced output index picks an entry. -/
theorem C59_sliced (enum : Finset ι → List ι) (he : EnumOk enum) (path : List (ℕ × ℕ)) (tsInds : List (List ι)) (output : List ι)
    (arrays : List (NDArray R)) (hn : ∀ xs ∈ tsInds, xs.Nodup) (d : ι → ℕ) (hc : Consistent d arrays tsInds)
    (ho : ∀ x ∈ output, x ∈ tsInds.flatten) (h2 : ∀ x ∈ tsInds.flatten, x ∉ output → 2 ≤ tsInds.flatten.count x) (S : Finset ι)
    {u : Term} (hp : replay (initTerms tsInds.length) path = some [u]) :
    ∃ zs : List ι, ∃ az : (ι → ℕ) → NDArray R, zs.Nodup ∧ (∀ x, x ∈ zs ↔ x ∈ output ∧ x ∉ S) ∧
      (∀ v, contract enum path (sliceNetInds S tsInds) (some (sliceInds S output)) (sliceArrays S v arrays tsInds) none =
          .ok ([zs], (sliceInds S output).toFinset, [az v]) ∧ (az v).shape = zs.map d) ∧
      ∀ l lS : List ι, l.Nodup → (∀ x, x ∈ l ↔ x ∈ tsInds.flatten ∧ x ∉ output) →
        lS.Nodup → (∀ x, x ∈ lS ↔ x ∈ S ∧ x ∈ tsInds.flatten ∧ x ∉ output) → ∀ f : ι → ℕ, (∀ x ∈ output, f x < d x) →
        sumOver d lS (fun v => (az v).get (zs.map v)) f =
          einsum d l ((arrays.zip tsInds).map fun t g => t.1.get (t.2.map g)) f := by
  have hlen : (sliceNetInds S tsInds).length = tsInds.length := by simp [sliceNetInds]
  have hn' : ∀ xs ∈ sliceNetInds S tsInds, xs.Nodup := by
    intro xs hxs
    obtain ⟨ys, hys, rfl⟩ := List.mem_map.1 hxs
    exact (hn ys hys).filter _
  have hfl : ∀ x, x ∈ (sliceNetInds S tsInds).flatten ↔ x ∈ tsInds.flatten ∧ x ∉ S := fun x => by
    rw [slice_flatten, List.mem_filter, decide_eq_true_eq]
  have key := fun v => C59_value enum he path (sliceNetInds S tsInds) (sliceInds S output) (sliceArrays S v arrays tsInds) hn' d (slice_consistent hc)
    (fun x hx => by rw [mem_sliceInds] at hx; exact (hfl x).2 ⟨ho x hx.1, hx.2⟩) (fun x hx hxo => by
      have hx' := (hfl x).1 hx
      rw [slice_flatten, List.count_filter (by simpa using hx'.2)]
      exact h2 x hx'.1 fun h => hxo (mem_sliceInds.2 ⟨h, hx'.2⟩)) (u := u) (by rw [hlen]; exact hp)
  choose zs az k1 k2 k3 k4 k5 using key
  have hz : ∀ v, zs v = zs (fun _ => 0) := by
    intro v
    have e1 := C31_inds_only enum he _ _ _ _ _ hn' _ _ _ (k1 v) (.int 1) (by simp [PyDims.get?])
    have e2 := C31_inds_only enum he _ _ _ _ _ hn' _ _ _ (k1 fun _ => 0) (.int 1) (by simp [PyDims.get?])
    rw [e1] at e2
    simpa using e2
  refine ⟨zs fun _ => 0, az, k2 _, fun x => by rw [k3, mem_sliceInds], fun v => ⟨by rw [← hz v]; exact k1 v, by rw [← hz v]; exact k4 v⟩, ?_⟩
  intro l lS nl hl nS hS f hf
  have nR : (l.filter (· ∉ S)).Nodup := nl.filter _
  have hR : ∀ x, x ∈ l.filter (· ∉ S) ↔ (x ∈ tsInds.flatten ∧ x ∉ output) ∧ x ∉ S := fun x => by
    rw [List.mem_filter, decide_eq_true_eq, hl]
  have hperm : l.Perm (lS ++ l.filter (· ∉ S)) := by
    refine perm_of_mem nl (List.Nodup.append nS nR ?_) fun x => ?_
    · intro x h1 h2
      exact ((hR x).1 h2).2 ((hS x).1 h1).1
    · rw [List.mem_append, hS, hR, hl]
      tauto
  unfold einsum
  rw [sumOver_perm hperm nl, sumOver_append]
  refine sumOver_congr fun g hg1 hg2 => ?_
  have hgo : ∀ x ∈ output, g x = f x := fun x hx => hg1 x fun h => ((hS x).1 h).2.2 hx
  rw [← hz g, k5 g (l.filter (· ∉ S)) nR (fun x => by
    rw [hR, hfl, mem_sliceInds]
    tauto) g (fun x hx => by
    have hx := (mem_sliceInds.1 hx).1
    rw [hgo x hx]; exact hf x hx)]
  unfold einsum
  refine sumOver_congr fun h hh1 hh2 => ?_
  rw [slice_zip, List.map_map, List.map_map, List.map_map]
  congr 1
  refine List.map_congr_left fun t ht => ?_
  simp only [Function.comp_apply]
  have hmem : ∀ x ∈ t.2, x ∈ tsInds.flatten := fun x hx => List.mem_flatten.2 ⟨t.2, (List.of_mem_zip ht).2, hx⟩
  rw [sliceArray_get (hc.2 t ht)]
  · congr 1
    refine List.map_congr_left fun x hx => ?_
    split
    · next hxS => rw [hh1 x fun h' => ((hR x).1 h').2 hxS]
    · rfl
  · intro x hx hxS
    by_cases hxo : x ∈ output
    · rw [hh1 x fun h' => ((hR x).1 h').1.2 hxo, hgo x hxo]
      exact hf x hxo
    · exact hh2 x ((hR x).2 ⟨⟨hmem x hx, hxo⟩, hxS⟩)

/-- C59: the cost of a path with slices is the number of multiplications for all slices. -/
theorem C59_sliced_muls (enum : Finset ι → List ι) (he : EnumOk enum) (path : List (ℕ × ℕ)) (tsInds : List (List ι)) (output : List ι)
    (arrays : List (NDArray R)) (hn : ∀ xs ∈ tsInds, xs.Nodup) (d : ι → ℕ) (hc : Consistent d arrays tsInds) (S : Finset ι) (v : ι → ℕ)
    (hp : ValidPath tsInds.length path) :
    (((∏ x ∈ S, d x) * contractMuls enum path (sliceNetInds S tsInds) (sliceInds S output) (sliceArrays S v arrays tsInds) : ℕ) : ℤ) =
      pathCost (nameCost d ∅ 0) tsInds output.toFinset S path := by
  have hlen : (sliceNetInds S tsInds).length = tsInds.length := by simp [sliceNetInds]
  have hn' : ∀ xs ∈ sliceNetInds S tsInds, xs.Nodup := by
    intro xs hxs
    obtain ⟨ys, hys, rfl⟩ := List.mem_map.1 hxs
    exact (hn ys hys).filter _
  rw [Nat.cast_mul, C59_muls enum he path (sliceNetInds S tsInds) (sliceInds S output) _ hn' d (slice_consistent hc) (by rw [hlen]; exact hp)]
  unfold pathCost
  rw [hlen, ← List.sum_map_mul_left]
  congr 1
  refine List.map_congr_left fun t ht => ?_
  cases t with
  | tensor i => exact absurd (trace_isPair ht) (by simp [Term.isPair])
  | pair a b =>
    simp only [pairCost, nameCost, if_true, Finset.union_empty]
    have ho : ∀ x, x ∈ (sliceInds S output).toFinset ↔ x ∈ output.toFinset ∧ x ∉ S := fun x => by
      rw [List.mem_toFinset, List.mem_toFinset, mem_sliceInds]
    rw [slice_termInds S tsInds _ _ ho, slice_termInds S tsInds _ _ ho, ← Nat.cast_mul, ← Finset.union_sdiff_distrib,
      ← Finset.sdiff_union_self_eq_union (s := termInds tsInds output.toFinset a ∪ termInds tsInds output.toFinset b),
      Finset.prod_union Finset.sdiff_disjoint, Nat.mul_comm]

/-- C59: memory. If a path with slices fits, every array held at any time while contracting a slice has at most the width allowed. -/
theorem C59_memory (enum : Finset ι → List ι) (he : EnumOk enum) (path : List (ℕ × ℕ)) (tsInds : List (List ι)) (output : List ι)
    (arrays : List (NDArray R)) (hn : ∀ xs ∈ tsInds, xs.Nodup) (S : Finset ι) (v : ι → ℕ)
    {W : Type} [LinearOrder W] (width : Finset ι → W) (maxWidth : W) (hf : PathFits width maxWidth tsInds output.toFinset S path)
    {u : Term} (hp : replay (initTerms tsInds.length) path = some [u]) (hl : 2 ≤ tsInds.length) (p q : List (ℕ × ℕ)) (hpq : path = p ++ q)
    (inds : List (List ι)) (outR : Finset ι) (arrs : List (NDArray R))
    (h : contract enum p (sliceNetInds S tsInds) (some (sliceInds S output)) (sliceArrays S v arrays tsInds) none = .ok (inds, outR, arrs)) :
    ∀ xs ∈ inds, width xs.toFinset ≤ maxWidth := by
  have hlen : (sliceNetInds S tsInds).length = tsInds.length := by simp [sliceNetInds]
  have hn' : ∀ xs ∈ sliceNetInds S tsInds, xs.Nodup := by
    intro xs hxs
    obtain ⟨ys, hys, rfl⟩ := List.mem_map.1 hxs
    exact (hn ys hys).filter _
  obtain ⟨F, hF, hall⟩ := C59_held enum he p _ _ _ _ hn' inds outR arrs h
  obtain ⟨-, -, -, -, v4, -⟩ := C31_value enum he p _ _ _ _ hn' inds outR arrs h
  rw [hlen] at hF
  subst hpq
  intro xs hxs
  obtain ⟨t, ht, -, hx⟩ := forall₂_mem_left hall hxs
  have e : xs.toFinset = termInds tsInds output.toFinset t \ S := by
    rw [← slice_termInds S tsInds output.toFinset outR (fun x => by rw [v4 x, mem_sliceInds, List.mem_toFinset])]
    ext x
    rw [List.mem_toFinset, hx]
  rw [e]
  exact fits_held hf hp hF hl t ht

/-- What C59 assumes of a network and its arrays: the arrays have the dimensions of the network, the output indices are indices of
tensors, and every other index is in at least two tensors. -/
structure NetworkRec.Summable (N : NetworkRec ι) (arrays : List (NDArray R)) (output : List ι) : Prop where
  shapes : Consistent N.dim arrays N.tsInds
  nonempty : 0 < N.tsInds.length
  same : ∀ x, x ∈ output ↔ x ∈ N.output
  sub : ∀ x ∈ output, x ∈ N.tsInds.flatten
  two : ∀ x ∈ N.tsInds.flatten, x ∉ output → 2 ≤ N.tsInds.flatten.count x

section
variable {τ σ P V : Type} [LinearOrder P] (E : SaEnv ι τ σ P V) (Wd : ParEnv V) (N : NetworkRec ι) (betas : Betas) (nSteps : Option ℚ)
  (nProjs : Option ℤ) (nJobs : ℤ) (seeds : List ℕ) (sched : List Event) (sys sys' : Sys) (enum : Finset ι → List ι) (he : EnumOk enum)
  (arrays : List (NDArray R)) (output : List ι)

include he in
/-- C59, infinite memory (partial: exact costs; see `C72_muls` for the reported ones): contracting along the path of any result gives the value of the network, and takes as many multiplications as the
result says (connected networks without sparse indices). -/
theorem C59_infinite_memory_partial (hE : E.Ok N) (hN : N.Plain) (hA : N.Summable arrays output) (rs : List InfResult)
    (h : optimizeInf E Wd N betas nSteps nProjs nJobs seeds sched sys = (sys', some (.ok rs))) :
    ∀ r ∈ rs, (∃ zs az, contract enum r.path N.tsInds (some output) arrays none = .ok ([zs], N.output, [az]) ∧ zs.Nodup ∧
        (∀ x, x ∈ zs ↔ x ∈ output) ∧ az.shape = zs.map N.dim ∧
        ∀ l : List ι, l.Nodup → (∀ x, x ∈ l ↔ x ∈ N.tsInds.flatten ∧ x ∉ output) → ∀ f : ι → ℕ, (∀ x ∈ output, f x < N.dim x) →
          az.get (zs.map f) = einsum N.dim l ((arrays.zip N.tsInds).map fun t g => t.1.get (t.2.map g)) f) ∧
      (AllConnected N.tsInds → N.sparse = ∅ → r.cost = contractMuls enum r.path N.tsInds output arrays) := by
  intro r hr
  obtain ⟨-, h2, -, -, -, h6⟩ := C43_infinite_memory_partial E Wd N betas nSteps nProjs nJobs seeds sched sys sys' hE hN rs h r hr
  obtain ⟨u, hu⟩ := h2 hA.nonempty
  have hO : output.toFinset = N.output := Finset.ext fun x => by rw [List.mem_toFinset, hA.same]
  refine ⟨?_, fun hconn hs => ?_⟩
  · have := C59_value enum he r.path N.tsInds output arrays hN.nodup N.dim hA.shapes hA.sub hA.two hu
    rwa [hO] at this
  · rw [h6.2 hconn, C59_muls enum he r.path N.tsInds output arrays hN.nodup N.dim hA.shapes ⟨_, hu⟩, hO]
    congr 1
    funext s
    simp [NetworkRec.cost, nameCost, hs]

include he in
/-- C59, finite width (partial: exact costs): contracting every slice of any result along its path and adding up gives the value of the network. For connected networks,
every array held at any time has at most the given width, and (without sparse indices) the reported cost is the number of multiplications of all slices. -/
theorem C59_finite_width_partial {W : Type} [AddCommGroup W] [LinearOrder W] [IsOrderedAddMonoid W] (log2W : ℕ → W) (hlog : ∀ n, 0 ≤ log2W n)
    (maxWidth : W) (us : ℤ) (hus : us ≠ 0) (hE : E.Ok N) (hN : N.Plain) (hA : N.Summable arrays output) (rs : List (FwResult ι))
    (h : optimizeFw E Wd N log2W maxWidth betas nSteps nProjs us nJobs seeds sched sys = (sys', some (.ok rs))) :
    ∀ r ∈ rs, (∃ zs : List ι, ∃ az : (ι → ℕ) → NDArray R, zs.Nodup ∧ (∀ x, x ∈ zs ↔ x ∈ output ∧ x ∉ r.slices) ∧
        (∀ v, contract enum r.path (sliceNetInds r.slices N.tsInds) (some (sliceInds r.slices output))
            (sliceArrays r.slices v arrays N.tsInds) none = .ok ([zs], (sliceInds r.slices output).toFinset, [az v]) ∧
          (az v).shape = zs.map N.dim) ∧
        ∀ l lS : List ι, l.Nodup → (∀ x, x ∈ l ↔ x ∈ N.tsInds.flatten ∧ x ∉ output) →
          lS.Nodup → (∀ x, x ∈ lS ↔ x ∈ r.slices ∧ x ∈ N.tsInds.flatten ∧ x ∉ output) → ∀ f : ι → ℕ, (∀ x ∈ output, f x < N.dim x) →
          sumOver N.dim lS (fun v => (az v).get (zs.map v)) f =
            einsum N.dim l ((arrays.zip N.tsInds).map fun t g => t.1.get (t.2.map g)) f) ∧
      (AllConnected N.tsInds →
        (2 ≤ N.tsInds.length → ∀ v p q, r.path = p ++ q → ∀ inds outR arrs,
          contract enum p (sliceNetInds r.slices N.tsInds) (some (sliceInds r.slices output)) (sliceArrays r.slices v arrays N.tsInds) none =
            .ok (inds, outR, arrs) →
          ∀ xs ∈ inds, N.width ⟨some N.sparse, nProjs⟩ log2W xs.toFinset ≤ maxWidth) ∧
        (N.sparse = ∅ → ∀ v, r.cost = (((∏ x ∈ r.slices, N.dim x) *
          contractMuls enum r.path (sliceNetInds r.slices N.tsInds) (sliceInds r.slices output) (sliceArrays r.slices v arrays N.tsInds) : ℕ) : ℤ))) := by
  intro r hr
  obtain ⟨-, h2, -, -, -, h6⟩ := C43_finite_width_partial E Wd N betas nSteps nProjs nJobs seeds sched sys sys' log2W hlog maxWidth us hus hE hN rs h r hr
  obtain ⟨u, hu⟩ := h2 hA.nonempty
  have hO : output.toFinset = N.output := Finset.ext fun x => by rw [List.mem_toFinset, hA.same]
  refine ⟨C59_sliced enum he r.path N.tsInds output arrays hN.nodup N.dim hA.shapes hA.sub hA.two r.slices hu, fun hconn => ⟨?_, ?_⟩⟩
  · intro hl v p q hpq inds outR arrs hck
    exact C59_memory enum he r.path N.tsInds output arrays hN.nodup r.slices v _ maxWidth (by rw [hO]; exact (h6 hconn).2) hu hl p q hpq inds outR arrs hck
  · intro hs v
    rw [(h6 hconn).1, C59_sliced_muls enum he r.path N.tsInds output arrays hN.nodup N.dim hA.shapes r.slices v ⟨_, hu⟩, hO]
    congr 1
    funext s
    simp [NetworkRec.cost, nameCost, hs]

end

/-! ## Concrete cases -/

/-- Arrays for the chain of three matrices. -/
def chainArrays : List (NDArray ℤ) := [⟨[4, 4], fun k => (k : ℤ)⟩, ⟨[4, 4], fun k => (k : ℤ) * k⟩, ⟨[4, 4], fun k => 7 - (k : ℤ)⟩]

example : chainNet.Summable chainArrays [0, 3] ∧
    (optimizeInf saEnv saPar chainNet (.pair 0 1) (some 2) none 1 [1] (saSched 1 40) ⟨[], 0, 0⟩).2 =
      some (.ok [⟨128, [(1, 2), (0, 1)], [128], [[(1, 2), (0, 1)]]⟩]) ∧
    contractMuls ISet.positions [(1, 2), (0, 1)] chainNet.tsInds [0, 3] chainArrays = 128 := by
  refine ⟨⟨⟨rfl, by decide +kernel⟩, by decide +kernel, by simp [chainNet], by decide +kernel, by decide +kernel⟩, by decide +kernel, by decide +kernel⟩

/-- With width at most 3, the indices 1 and 3 are sliced: 16 slices with 8 multiplications each. -/
example : (optimizeFw saEnv saPar chainNet (fun n => (Nat.log2 n : ℤ)) 3 (.pair 0 1) (some 2) none 1 1 [1] (saSched 1 40) ⟨[], 0, 0⟩).2 =
      some (.ok [⟨128, [(1, 2), (0, 1)], [128], [[(1, 2), (0, 1)]], [{1, 3}], {1, 3}⟩]) ∧
    contractMuls ISet.positions [(1, 2), (0, 1)] (sliceNetInds {1, 3} chainNet.tsInds) (sliceInds {1, 3} [0, 3])
      (sliceArrays {1, 3} (fun _ => 2) chainArrays chainNet.tsInds) = 8 := by
  refine ⟨by decide +kernel, by decide +kernel⟩

end TNCO
