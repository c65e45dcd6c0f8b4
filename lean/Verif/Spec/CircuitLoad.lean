import Verif.Model.CircuitLoad
import Verif.Spec.Circuit

/-! # Specification: the states before and after a circuit -/

namespace TNCO
variable {Q K : Type} [DecidableEq Q] [Field K] [StarRing K] [DecidableEq K]

/-- What a value in a dictionary of states means. -/
def valVec (r : K) : StateVal K → Option (ℕ → K)
  | .token s => tokenVec r s
  | .vec a => some fun k => a.get [k]

/-- The vector that an argument gives to a qubit; `none` if it is open. -/
def stateOf (r : K) : PyState Q K → Q → Option (ℕ → K)
  | .none, _ => none
  | .str s, _ => tokenVec r s
  | .dict l, q => (l.find? fun e => e.1 = q).bind fun e => valVec r e.2
  | .other, _ => none

/-- The arguments that `load` accepts: nothing, one of the four tokens, or a dictionary of tokens and normalised vectors. -/
def StateOk (r : K) (qubits : List Q) : PyState Q K → Prop
  | .none => True
  | .str s => s ∈ ["0", "1", "+", "-"]
  | .dict l => (l.map Prod.fst).Nodup ∧ ∀ e ∈ l, match e.2 with
    | .token s => s ∈ ["0", "1", "+", "-"]
    | .vec a => e.1 ∈ qubits → a.shape = [2] ∧ star (a.get [0]) * a.get [0] + star (a.get [1]) * a.get [1] = 1
  | .other => False

end TNCO
