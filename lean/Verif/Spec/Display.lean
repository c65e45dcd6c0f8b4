import Verif.Model.Display
import Verif.Spec.Parallel

/-! # What the progress display should show -/

namespace TNCO
variable {A V σ ρ ε : Type}

/-- The line of run `i` with what the memory holds: the status of the run, and its value in each of the buffers. -/
def lineOf (names : List String) (m : Mem V) (i : Nat) : Line V :=
  ⟨i + 1, m.status[i]?, names.map fun b => (b, (dget m.bufs b).bind fun xs => xs[i]?)⟩

/-- The status of run `i` is positive. -/
def Positive (pos : V → Bool) (m : Mem V) (i : Nat) : Prop := ∃ v, m.status[i]? = some v ∧ pos v = true

/-- Buffers whose names are those of arguments of `rich`. -/
def Reserved (names : List String) : Prop := ∃ b ∈ names, b ∈ ["self", "description", "total", "idx", "task_id", "completed"]

instance (names : List String) : Decidable (Reserved names) := by unfold Reserved; infer_instance

end TNCO
