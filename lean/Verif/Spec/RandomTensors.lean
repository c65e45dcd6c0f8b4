import Verif.Props.Components

/-!
# Specification: random tensor networks
-/

namespace TNCO
variable {ν : Type} [DecidableEq ν]

/-- In how many tensors an index is. -/
def degree (ts : List (List ν)) (x : ν) : ℕ := ts.countP fun t => decide (x ∈ t)

/-- All indices. -/
def allIndices (ts : List (List ν)) : Finset ν := ts.flatten.toFinset

/-- What the documentation of `generate_random_tensors` promises: the numbers of tensors, indices and output indices; an index which is no output index is in
`k` tensors; output indices are open: `nPlain` per component are in one tensor, the others in `k - 1`. -/
structure RandomNet (n nInds k nOut nPlain nCc : ℕ) (ts : List (List ν)) (out : Finset ν) : Prop where
  tensors : ts.length = n * nCc
  distinct : ts.Nodup
  nodup : ∀ t ∈ ts, t.Nodup
  nonempty : ∀ t ∈ ts, t ≠ []
  inds : (allIndices ts).card = nInds * nCc
  sub : out ⊆ allIndices ts
  outs : out.card = nOut * nCc
  inner : ∀ x ∈ allIndices ts, x ∉ out → degree ts x = k
  outer : ∀ x ∈ out, degree ts x = 1 ∨ degree ts x = k - 1
  plain : 2 < k → (out.filter fun x => degree ts x = 1).card = nPlain * nCc

/-- The components: indices are connected through tensors exactly if they are in the same component, and all components have the same numbers of tensors, indices and
output indices. -/
structure Components (n nInds nOut nCc : ℕ) (ts : List (List ν)) (out : Finset ν) (comp : ν → ℕ) : Prop where
  lt : ∀ x ∈ allIndices ts, comp x < nCc
  linked : ∀ x ∈ allIndices ts, ∀ y ∈ allIndices ts, LinkedInds ts x y ↔ comp x = comp y
  tensors : ∀ c < nCc, (ts.countP fun t => decide (∃ x ∈ t, comp x = c)) = n
  inds : ∀ c < nCc, ((allIndices ts).filter fun x => comp x = c).card = nInds
  outs : ∀ c < nCc, (out.filter fun x => comp x = c).card = nOut

/-- The first `m` results of a random generator. -/
def draws {σ : Type} (get : σ → ν × σ) : ℕ → σ → List ν
  | 0, _ => []
  | m + 1, s => (get s).1 :: draws get m (get s).2

end TNCO
