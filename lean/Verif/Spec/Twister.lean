import Verif.Model.Twister

/-!
# What the generator of the optimizers is to be

The sequence of the Mersenne twister, as the C++ standard defines it ([rand.eng.mers]), with no arrays and no positions.
-/

namespace TNCO

/-- The recurrence: the upper bit of one word and the lower 31 bits of the next, shifted and mixed into a third. -/
def IsTwister (X : ℕ → ℕ) : Prop :=
  (∀ k, X k < 2 ^ 32) ∧
  ∀ k, X (k + 624) = X (k + 397) ^^^ ((2 ^ 31 * (X k / 2 ^ 31) + X (k + 1) % 2 ^ 31) / 2) ^^^
    (if X (k + 1) % 2 = 1 then 2567483615 else 0)

/-- The engine is about to give the word number `t` of the sequence. -/
def Mt.Follows (X : ℕ → ℕ) (t : ℕ) (e : Mt) : Prop :=
  ∃ b, e.words = (List.range 624).map (fun i => X (b + i)) ∧ e.pos ≤ 624 ∧ t = b + e.pos

/-- The next `n` numbers. -/
def Mt.draws : ℕ → Mt → List ℕ
  | 0, _ => []
  | n + 1, e => e.draw.1 :: Mt.draws n e.draw.2

/-- The engine after `n` draws. -/
def Mt.after : ℕ → Mt → Mt
  | 0, e => e
  | n + 1, e => Mt.after n e.draw.2

/-- Words of 32 bits: what seeding with a number gives. -/
def Mt.Proper (e : Mt) : Prop := e.words.length = 624 ∧ (∀ w ∈ e.words, w < 2 ^ 32) ∧ e.pos ≤ 624

/-- Spaces, tabs, ends of lines, vertical tabs, form feeds, carriage returns. -/
def IsGap (g : List ℕ) : Prop := ∀ c ∈ g, c ∈ ([32, 9, 10, 11, 12, 13] : List ℕ)

/-- The text consists of these numbers, with gaps of any length and kind between them and before the first; after the last there may be
anything but a further digit. -/
inductive WrittenAs : List ℕ → List ℕ → Prop
  | last (n : ℕ) (g tail : List ℕ) : IsGap g → (∀ c r, tail = c :: r → ¬ (48 ≤ c ∧ c ≤ 57)) → WrittenAs [n] (g ++ (decText n ++ tail))
  | more (n c : ℕ) (g ns rest : List ℕ) : IsGap g → IsGap [c] → WrittenAs ns (c :: rest) → WrittenAs (n :: ns) (g ++ (decText n ++ c :: rest))

end TNCO
