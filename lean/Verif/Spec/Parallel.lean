import Verif.Model.Parallel

/-! # What a parallel run should do -/

namespace TNCO
variable {A V σ ρ ε : Type}

/-- What the step did, apart from the memory. -/
def CoreStep.out : CoreStep σ ρ ε V → σ ⊕ ρ ⊕ ε
  | .next s _ => .inl s
  | .ret r _ => .inr (.inl r)
  | .raise e _ => .inr (.inr e)

/-- The memory after the step. -/
def CoreStep.mem : CoreStep σ ρ ε V → Mem V
  | .next _ m => m
  | .ret _ m => m
  | .raise _ m => m

/-- The slots of worker `i` that it may write to. -/
def own (i : Nat) (m : Mem V) : Option V × List (String × Option V) := (m.status[i]?, m.bufs.map fun b => (b.1, b.2[i]?))

/-- A core that keeps to the rules: it uses only the slots numbered `idx`, and does not write to `stop`. -/
structure Core.Local (core : Core A V σ ρ ε) : Prop where
  /-- What it does depends on its slots only. -/
  reads : ∀ {i s m m'}, own i m = own i m' → m.stop[i]? = m'.stop[i]? →
    (core.step i s m).out = (core.step i s m').out ∧ own i (core.step i s m).mem = own i (core.step i s m').mem
  /-- It leaves the other slots alone. -/
  writes : ∀ {i j s m}, j ≠ i → own j (core.step i s m).mem = own j m
  /-- It does not write to `stop`. -/
  stop : ∀ {i s m}, (core.step i s m).mem.stop = m.stop

/-- Worker `i` on its own, for at most `fuel` steps, the stop flag at each step being given by `sig`. -/
def alone (core : Core A V σ ρ ε) (i : Nat) : (sig : Nat → Bool) → (fuel : Nat) → σ → Mem V → Option (Except ε ρ)
  | _, 0, _, _ => none
  | sig, fuel + 1, s, m =>
    match core.step i s { m with stop := m.stop.set i (sig 0) } with
    | .next s' m' => alone core i (fun k => sig (k + 1)) fuel s' m'
    | .ret r _ => some (.ok r)
    | .raise e _ => some (.error e)

/-- Flags, once set, stay set. -/
def StaysSet (sig : Nat → Bool) : Prop := ∀ k, sig k = true → sig (k + 1) = true

end TNCO
