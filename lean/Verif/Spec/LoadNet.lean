import Verif.Model.LoadNet
import Verif.Spec.Einsum
import Verif.Spec.Replay

/-!
# Specification: the value of a network with arrays, and the tags of a contraction
-/

namespace TNCO
variable {ι K T : Type} [DecidableEq ι]

/-- What `TensorNetwork` guarantees of its arguments (C45), with indices that are not repeated in a tensor: `d` are the dimensions. -/
structure ArrNet.Ok (d : ι → ℕ) (N : ArrNet ι K T) : Prop where
  arrays : N.arrays.length = N.tsInds.length
  tags : N.tsTags.length = N.tsInds.length
  dims : ∀ x ∈ N.tsInds.flatten, N.dims x = some (d x) ∧ 0 < d x
  shape : ∀ t ∈ N.arrays.zip N.tsInds, ∀ a, t.1 = some a → a.shape = t.2.map d
  nodup : ∀ xs ∈ N.tsInds, xs.Nodup
  output : ∀ x ∈ N.output, x ∈ N.tsInds.flatten
  sparse : ∀ x ∈ N.sparse, x ∈ N.tsInds.flatten

/-- The indices of a network that are summed. -/
def ArrNet.summed (N : ArrNet ι K T) : List ι := N.tsInds.flatten.dedup.filter fun x => x ∉ N.output

/-- The value of a network whose arrays are all there, as a function of the values of the output indices. -/
def ArrNet.value [CommSemiring K] (d : ι → ℕ) (N : ArrNet ι K T) (f : ι → ℕ) : K :=
  einsum d N.summed (((N.arrays.filterMap id).zip N.tsInds).map fun t g => t.1.get (t.2.map g)) f

/-- The tags of a bracketing of tensors with tags: the tags of the two operands side by side, if both have tags. -/
def Term.tagsOf (tags : ℕ → Option (TagTree T)) : Term → Option (TagTree T)
  | .tensor i => tags i
  | .pair a b =>
    match a.tagsOf tags, b.tagsOf tags with
    | none, t => t
    | t, none => t
    | some x, some y => some (.pair x y)

/-- `N'` is `N` after the contractions of a path that fuses tensors up to the width `w`. -/
structure ArrNet.Fused {W : Type} [Zero W] [Add W] [LT W] (enum : Finset ι → List ι) (log2 : ℕ → W) (d : ι → ℕ) (w : W) (N N' : ArrNet ι K T)
    (path : List (ℕ × ℕ)) : Prop where
  /-- The path is recorded. -/
  recorded : N'.fusePath = some path
  valid : ValidPath N.tsInds.length path
  /-- No contraction is wider than `w`. -/
  width : ∀ i, i < path.length → ∃ inds outR zs xs, contractInds enum (path.take (i + 1)) N.tsInds (some (enum N.output)) (some (.dict N.dims)) = .ok (inds, outR) ∧
    inds.getLast? = some zs ∧ zs.Perm xs ∧ ¬ w < (xs.map fun x => log2 (d x)).foldl (· + ·) 0
  inds : contractInds enum path N.tsInds (some (enum N.output)) (some (.dict N.dims)) = .ok (N'.tsInds, N.output)
  output : N'.output = N.output
  sparse : N'.sparse = N.sparse
  /-- The tags of each tensor are those of the tensors contracted into it. -/
  tags : ∃ F, replay (initTerms N.tsInds.length) path = some F ∧ N'.tsTags = F.map fun t => t.tagsOf fun i => (N.tsTags[i]?).getD none

end TNCO
