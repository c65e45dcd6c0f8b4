import Verif.Model.Anneal

/-!
# What a run of simulated annealing should do
-/

namespace TNCO
variable {σ κ ρ V : Type}

/-- A history of updates, numbered from `n` on. -/
def Anneal.runN (A : Anneal σ κ ρ V) : ℕ → List ℚ → σ → Option (Except PyErr σ)
  | _, [], o => some (.ok o)
  | n, b :: bs, o =>
    match A.update n b o with
    | some (.ok o') => A.runN (n + 1) bs o'
    | r => r

/-- The number of updates of a run that is not stopped. -/
def stepsOf (nSteps : Option ℕ) (betas : List ℚ) : ℕ :=
  match nSteps with
  | none => betas.length
  | some n => min n betas.length

/-- Updates left in a budget (`none`: no limit). -/
def spend (B : Option ℕ) (L : ℕ) : ℕ :=
  match B with
  | none => L
  | some b => min b L

/-- The results for the paths `ps`, each optimized with the first `L` temperatures, as long as the budget `B` for the number of
updates lasts. -/
inductive Parts (A : Anneal σ κ ρ V) (betas : List ℚ) (L seed : ℕ) : Option ℕ → List (List (ℕ × ℕ)) → List κ → Prop where
  | nil (B) : Parts A betas L seed B [] []
  | empty {B ps ks} : Parts A betas L seed B ps ks → Parts A betas L seed B ([] :: ps) (A.trivial :: ks)
  | path {B p ps k ks o o'} : p ≠ [] → A.make seed p = some (.ok o) → A.runN 0 (betas.take (spend B L)) o = some (.ok o') →
      A.finish o' = some (.ok k) → Parts A betas L seed (B.map (· - L)) ps ks → Parts A betas L seed B (p :: ps) (k :: ks)

/-- The same, each path with its own number of updates, at most `L`. -/
inductive AnyParts (A : Anneal σ κ ρ V) (betas : List ℚ) (L seed : ℕ) : List (List (ℕ × ℕ)) → List κ → Prop where
  | nil : AnyParts A betas L seed [] []
  | empty {ps ks} : AnyParts A betas L seed ps ks → AnyParts A betas L seed ([] :: ps) (A.trivial :: ks)
  | path {p ps k ks o o' j} : p ≠ [] → A.make seed p = some (.ok o) → j ≤ L → A.runN 0 (betas.take j) o = some (.ok o') →
      A.finish o' = some (.ok k) → AnyParts A betas L seed ps ks → AnyParts A betas L seed (p :: ps) (k :: ks)

/-- Nothing goes wrong in a run, whenever it is stopped. -/
structure Anneal.Safe (A : Anneal σ κ ρ V) (betas : List ℚ) (L seed : ℕ) (ps : List (List (ℕ × ℕ))) : Prop where
  paths : A.paths seed = some (.ok ps)
  make : ∀ p ∈ ps, p ≠ [] → ∃ o, A.make seed p = some (.ok o) ∧
    ∀ k ≤ L, ∃ o' r, A.runN 0 (betas.take k) o = some (.ok o') ∧ A.finish o' = some (.ok r)
  total : ∀ ks, AnyParts A betas L seed ps ks → ∃ r, A.total ks = .ok r

end TNCO
