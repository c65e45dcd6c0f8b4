import Verif.Model.LoadNet
import Verif.Lemmas.Unique
import Verif.Lemmas.PathTree

/-! `load_tn` does not depend on the order of sets unless indices are kept when tensors are fused. -/

namespace TNCO
variable {ι K T σ W : Type} [DecidableEq ι]

/-- No index is kept when two tensors that share it are contracted. -/
def NoneKept (out : Finset ι) (hc : ι → ℤ) (ts : List (List ι)) : Prop :=
  (∀ x, hc x ≤ 1) ∧ ts.Pairwise fun a b => ∀ x ∈ out, ¬ (x ∈ a ∧ x ∈ b)

theorem pair_symm (out : Finset ι) {a b : List ι} (h : ∀ x ∈ out, ¬ (x ∈ a ∧ x ∈ b)) : ∀ x ∈ out, ¬ (x ∈ b ∧ x ∈ a) :=
  fun x hx h' => h x hx h'.symm

theorem NoneKept.empty {out : Finset ι} {hc : ι → ℤ} {ts : List (List ι)} (h : NoneKept out hc ts) {x y : ℕ} {a b : List ι} {rest : List (List ι)}
    (hp : popPair ts x y = some (a, b, rest)) : keptInds hc out a b = ∅ := by
  have hq := (popPair_perm hp).pairwise h.2 (fun h => pair_symm out h)
  have hab := (List.pairwise_cons.1 hq).1 b (by simp)
  unfold keptInds
  refine Finset.eq_empty_iff_forall_notMem.2 fun z hz => ?_
  rcases Finset.mem_union.1 hz with hz | hz
  · exact absurd (Finset.mem_filter.1 hz).2 (not_lt.2 (h.1 z))
  · obtain ⟨h1, h2⟩ := Finset.mem_inter.1 hz
    obtain ⟨h3, h4⟩ := Finset.mem_inter.1 h2
    exact hab z h1 ⟨List.mem_toFinset.1 h3, List.mem_toFinset.1 h4⟩

theorem NoneKept.step {out : Finset ι} {hc : ι → ℤ} {ts : List (List ι)} (h : NoneKept out hc ts) {x y : ℕ} {a b z : List ι} {rest : List (List ι)}
    (hp : popPair ts x y = some (a, b, rest)) (hz : ∀ u ∈ z, u ∈ a ∨ u ∈ b) : NoneKept out (lowerCount hc a b) (rest ++ [z]) := by
  refine ⟨fun u => ?_, ?_⟩
  · unfold lowerCount
    have := h.1 u
    split <;> omega
  · have hq := (popPair_perm hp).pairwise h.2 (fun h => pair_symm out h)
    obtain ⟨h1, h2⟩ := List.pairwise_cons.1 hq
    obtain ⟨h3, h4⟩ := List.pairwise_cons.1 h2
    refine List.pairwise_append.2 ⟨h4, List.pairwise_singleton _ _, fun u hu v hv w hw hh => ?_⟩
    rw [List.mem_singleton] at hv
    subst hv
    rcases hz w hh.2 with h5 | h5
    · exact h1 u (by simp [hu]) w hw ⟨h5, hh.1⟩
    · exact h3 u hu w hw ⟨h5, hh.1⟩

theorem dotPlan_mem {xs ys : List ι} {p : DotPlan ι} (h : dotPlan xs ys [] = .ok p) : ∀ u ∈ p.zs, u ∈ xs ∨ u ∈ ys := by
  unfold dotPlan at h
  dsimp only at h
  split at h
  · cases h
  · cases h
    intro u hu
    simp only [OFS.make, OFS.union, OFS.difference, OFS.intersection, OFS.iter, OFS.set, mem_uniqueEverseen, List.mem_append, List.mem_filter] at hu
    rcases hu with (hu | hu) | hu
    · cases hu
    · exact .inl hu.1
    · exact .inr hu.1

theorem enum_empty {enum : Finset ι → List ι} (he : EnumOk enum) : enum ∅ = [] :=
  List.eq_nil_iff_forall_not_mem.2 fun x hx => absurd (((he ∅).2 x).1 hx) (Finset.notMem_empty x)

theorem contractIndsLoop_sets {enum enum' : Finset ι → List ι} (he : EnumOk enum) (he' : EnumOk enum') (out : Finset ι) (path : List (ℕ × ℕ)) (hc : ι → ℤ)
    (ts : List (List ι)) (h : NoneKept out hc ts) : contractIndsLoop enum' out hc ts path = contractIndsLoop enum out hc ts path := by
  induction path generalizing hc ts with
  | nil => rfl
  | cons s path ih =>
    obtain ⟨x, y⟩ := s
    unfold contractIndsLoop
    split
    · rfl
    rcases hp : popPair ts x y with _ | ⟨a, b, rest⟩
    · rfl
    dsimp only
    split
    · rfl
    rw [h.empty hp, enum_empty he, enum_empty he']
    rcases hz : tensordotInds a b [] with e | z
    · rfl
    dsimp only
    refine ih _ _ (h.step hp ?_)
    unfold tensordotInds at hz
    split at hz
    · cases hz
    · next p hpl =>
      cases hz
      exact dotPlan_mem hpl

theorem tensordot_inds {R : Type} [CommRing R] {ax ay : NDArray R} {xs ys : List ι} {z : NDArray R × List ι} (h : tensordot ax xs ay ys [] = .ok z) :
    ∀ u ∈ z.2, u ∈ xs ∨ u ∈ ys := by
  unfold tensordot at h
  dsimp only at h
  split at h
  · cases h
  next p hp =>
  split at h
  · cases h
  split at h
  · cases h
  split at h
  · cases h
  split at h
  · cases h
  split at h
  · cases h
  cases h
  exact dotPlan_mem hp

theorem contractLoop_sets {R : Type} [CommRing R] {enum enum' : Finset ι → List ι} (he : EnumOk enum) (he' : EnumOk enum') (out : Finset ι) (path : List (ℕ × ℕ))
    (hc : ι → ℤ) (ts : List (NDArray R × List ι)) (h : NoneKept out hc (ts.map Prod.snd)) :
    contractLoop enum' out hc ts path = contractLoop enum out hc ts path := by
  induction path generalizing hc ts with
  | nil => rfl
  | cons s path ih =>
    obtain ⟨x, y⟩ := s
    unfold contractLoop
    split
    · rfl
    rcases hp : popPair ts x y with _ | ⟨⟨ax, a⟩, ⟨ay, b⟩, rest⟩
    · rfl
    have hp' : popPair (ts.map Prod.snd) x y = some (a, b, rest.map Prod.snd) := by rw [popPair_map, hp]; rfl
    dsimp only
    split
    · rfl
    rw [h.empty hp', enum_empty he, enum_empty he']
    rcases hz : tensordot ax a ay b [] with e | z
    · rfl
    dsimp only
    refine ih _ _ ?_
    rw [List.map_append, List.map_singleton]
    exact h.step hp' (tensordot_inds hz)

/-- Every index is in at most two tensors, an output index in at most one. -/
def NoHyper (ts : List (List ι)) (out : Finset ι) : Prop :=
  ∀ x, ts.flatten.count x ≤ 2 ∧ (x ∈ out → ts.flatten.count x ≤ 1)

theorem pairwise_of_count (out : Finset ι) (ts : List (List ι)) (h : ∀ x ∈ out, ts.flatten.count x ≤ 1) :
    ts.Pairwise fun a b => ∀ x ∈ out, ¬ (x ∈ a ∧ x ∈ b) := by
  induction ts with
  | nil => exact .nil
  | cons a ts ih =>
    refine List.pairwise_cons.2 ⟨fun b hb x hx hh => ?_, ih fun x hx => ?_⟩
    · have h1 := h x hx
      rw [List.flatten_cons, List.count_append] at h1
      have h2 : 0 < a.count x := List.count_pos_iff.2 hh.1
      have h3 : 0 < ts.flatten.count x := List.count_pos_iff.2 (List.mem_flatten.2 ⟨b, hb, hh.2⟩)
      omega
    · have h1 := h x hx
      rw [List.flatten_cons, List.count_append] at h1
      omega

theorem NoHyper.noneKept {ts : List (List ι)} {out : Finset ι} (h : NoHyper ts out) : NoneKept out (hyperCount ts.flatten) ts := by
  refine ⟨fun x => ?_, pairwise_of_count out ts fun x hx => (h x).2 hx⟩
  unfold hyperCount
  have := (h x).1
  omega

theorem enum_toFinset {enum : Finset ι → List ι} (he : EnumOk enum) (s : Finset ι) : (enum s).toFinset = s := by
  ext x; rw [List.mem_toFinset, (he s).2]

theorem contractOutput_some {all : List ι} {l l' : List ι} (h : l.toFinset = l'.toFinset) : contractOutput all (some l) = contractOutput all (some l') := by
  unfold contractOutput
  dsimp only
  rw [h]

theorem contractOutput_enum {enum : Finset ι → List ι} (he : EnumOk enum) {all : List ι} {s out : Finset ι} (h : contractOutput all (some (enum s)) = .ok out) :
    out = s := by
  unfold contractOutput at h
  dsimp only at h
  split at h
  · cases h; exact enum_toFinset he s
  · cases h

section
variable [CommRing K]

theorem contractStep_sets {enum enum' : Finset ι → List ι} (he : EnumOk enum) (he' : EnumOk enum') (provided : ℕ) (path : List (ℕ × ℕ)) (N : ArrNet ι K T)
    (h : NoHyper N.tsInds N.output) :
    contractStep enum' provided path N = contractStep enum provided path N := by
  have ho : contractOutput N.tsInds.flatten (some (enum' N.output)) = contractOutput N.tsInds.flatten (some (enum N.output)) :=
    contractOutput_some (by rw [enum_toFinset he, enum_toFinset he'])
  unfold contractStep
  split
  · unfold contract
    rcases hcd : checkDims N.tsInds (some (N.arrays.filterMap id)) (some (.dict N.dims)) with e | u
    · rfl
    dsimp only
    rw [ho]
    rcases hout : contractOutput N.tsInds.flatten (some (enum N.output)) with e | out
    · rfl
    have := contractOutput_enum he hout
    subst this
    dsimp only
    rw [contractLoop_sets he he']
    have hlen' : (N.arrays.filterMap id).length = N.tsInds.length := by
      unfold checkDims at hcd
      dsimp only at hcd
      by_contra hne
      rw [if_pos (Or.inl hne)] at hcd
      cases hcd
    have : ((N.arrays.filterMap id).zip N.tsInds).map Prod.snd = N.tsInds := by
      rw [List.map_snd_zip]; omega
    rw [this]
    exact h.noneKept
  · unfold contractInds
    rcases checkDims (R := ℕ) N.tsInds none (some (.dict N.dims)) with e | u
    · rfl
    dsimp only
    rw [ho]
    rcases hout : contractOutput N.tsInds.flatten (some (enum N.output)) with e | out
    · rfl
    have := contractOutput_enum he hout
    subst this
    dsimp only
    rw [contractIndsLoop_sets he he' _ _ _ _ h.noneKept]

variable [Zero W] [Add W] [LT W] [DecidableLT W]

theorem fuse_sets {enum enum' : Finset ι → List ι} (he : EnumOk enum) (he' : EnumOk enum') (g : PyRng σ) (enumN : Finset ℕ → List ℕ) (fuel : ℕ) (s : σ)
    (log2 : ℕ → W) (ts : List (List ι)) (dims : PyDims ι) (w : W) (out : Finset ι) (excl : List ι) :
    fuse g enumN fuel s log2 ts dims w (some (enum' out)) excl = fuse g enumN fuel s log2 ts dims w (some (enum out)) excl := by
  unfold fuse
  rw [contractOutput_some (l := enum' out) (l' := enum out) (by rw [enum_toFinset he, enum_toFinset he'])]

theorem fuseStep_sets (A : LoadNetArgs ι σ W) {enum' : Finset ι → List ι} (he : EnumOk A.enum) (he' : EnumOk enum') (provided : ℕ) (w : W) (N : ArrNet ι K T)
    (h : NoHyper N.tsInds N.output) :
    fuseStep { A with enum := enum' } provided w N = fuseStep A provided w N := by
  unfold fuseStep
  dsimp only
  rw [fuse_sets he he']
  rcases fuse A.g A.enumN A.fuel A.start A.log2 N.tsInds (.dict N.dims) w (some (A.enum N.output)) [] with _ | e | ⟨path, _⟩
  · rfl
  · rfl
  dsimp only
  rw [contractStep_sets he he' provided path N h]

theorem returnStep_sets (A : LoadNetArgs ι σ W) {enum' : Finset ι → List ι} (he : EnumOk A.enum) (he' : EnumOk enum') (N : ArrNet ι K T) :
    returnStep { A with enum := enum' } N = returnStep A N := by
  unfold returnStep
  rcases tensorRecs N.dims N.tsInds N.arrays N.tsTags with e | ts
  · rfl
  dsimp only
  have : mkNetwork (ts.map some) (some (enum' N.output)) (some (enum' N.sparse)) = mkNetwork (ts.map some) (some (A.enum N.output)) (some (A.enum N.sparse)) := by
    unfold mkNetwork
    rcases (ts.map some).mapM id with _ | us
    · rfl
    simp only [Option.getD_some, enum_toFinset he, enum_toFinset he']
  rw [this]

end
end TNCO
