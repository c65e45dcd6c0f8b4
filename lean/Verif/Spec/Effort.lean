import Verif.Model.Calls

/-! What "more effort" means: more temperatures after the same ones, more seeds. -/

namespace TNCO

/-- The inverse temperatures of a run that is not stopped, in order. -/
def usedBetas : Betas → Option ℕ → List ℚ
  | .pair b0 b1, some n => (List.range n).map fun j : ℕ => b0 + j * ((b1 - b0) / n)
  | .pair _ _, none => []
  | .sized l, some n => l.take n
  | .sized l, none => l
  | .unsized l, some n => l.take n
  | .unsized l, none => l

/-- Reporting costs keeps their order. -/
structure Printer.Mono {C : Type} [LinearOrder C] (pr : Printer C) : Prop where
  shown : ∀ a b, a ≤ b → pr.shown a ≤ pr.shown b
  total : ∀ l l' : List C, List.Forall₂ (· ≤ ·) l l' → pr.total l ≤ pr.total l'

end TNCO
