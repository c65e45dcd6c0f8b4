import Verif.Model.Anneal

/-! Renaming the indices of a network; changing the order in which sets are listed. -/

namespace TNCO
variable {ι κ τ σ P V C : Type} [DecidableEq ι] [DecidableEq κ]

/-- A tensor with its indices renamed. -/
def TensorRec.rename (f : ι → κ) (t : TensorRec ι) : TensorRec κ := ⟨t.inds.map f, t.dims, t.shape⟩

/-- A network with its indices renamed. -/
def NetworkRec.rename (f : ι → κ) (N : NetworkRec ι) : NetworkRec κ :=
  ⟨N.tensors.map (TensorRec.rename f), N.output.image f, N.sparse.image f, N.dims.map fun e => (f e.1, e.2)⟩

/-- The same outside world, except for the order in which sets are listed (and the type of the names). -/
def SaEnv.withSets (E : SaEnv ι τ σ P V) (enumN : Finset ℕ → List ℕ) (enum : Finset κ → List κ) : SaEnv κ τ σ P V where
  rng := E.rng
  rngSeed := E.rngSeed
  enumN := enumN
  enum := enum
  prng := E.prng
  prngSeed := E.prngSeed
  prob := E.prob
  log2 := E.log2
  ratio := E.ratio
  fuel := E.fuel

/-- A result of the finite-width app with its slices renamed. -/
def FwResultOf.rename (f : ι → κ) (r : FwResultOf C ι) : FwResultOf C κ :=
  ⟨r.cost, r.path, r.costs, r.paths, r.slicesList.map (Finset.image f), r.slices.image f⟩

end TNCO
