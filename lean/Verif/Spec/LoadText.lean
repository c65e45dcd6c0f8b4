import Verif.Model.LoadText

/-!
# Specification: the text format for tensor networks
-/

namespace TNCO

/-- `ls` are the lines of `s`. -/
inductive IsLines : List ℕ → List (List ℕ) → Prop where
  | nil : IsLines [] []
  | last (l : List ℕ) : l ≠ [] → (∀ c ∈ l, isBreak c = false) → IsLines l [l]
  | one (l : List ℕ) (b : ℕ) (s : List ℕ) (ls : List (List ℕ)) : (∀ c ∈ l, isBreak c = false) → isBreak b = true → ¬ (b = 13 ∧ s.head? = some 10) →
      IsLines s ls → IsLines (l ++ b :: s) (l :: ls)
  | crlf (l : List ℕ) (s : List ℕ) (ls : List (List ℕ)) : (∀ c ∈ l, isBreak c = false) → IsLines s ls → IsLines (l ++ 13 :: 10 :: s) (l :: ls)

/-- The names in the rest of a line: each comes after at least one space; there may be spaces at the end. -/
inductive IsNames : List ℕ → List (List ℕ) → Prop where
  | nil (ws : List ℕ) : (∀ c ∈ ws, isSpace c = true) → IsNames ws []
  | cons (ws name rest : List ℕ) (names : List (List ℕ)) : ws ≠ [] → (∀ c ∈ ws, isSpace c = true) → name ≠ [] →
      (∀ c ∈ name, isSpace c = false) → IsNames rest names → (∀ c, rest.head? = some c → isSpace c = true) → IsNames (ws ++ name ++ rest) (name :: names)

/-- A line with the number `d` and names. -/
def IsData (digit : ℕ → Option ℕ) (l : List ℕ) (d : ℕ) (names : List (List ℕ)) : Prop :=
  ∃ ds rest : List ℕ, l = ds ++ rest ∧ ds ≠ [] ∧ (∃ vs : List ℕ, ds.map digit = vs.map some ∧ d = vs.foldl (fun n v => 10 * n + v) 0) ∧ IsNames rest names

/-- A line that has no meaning. -/
def IsIgnored (l : List ℕ) : Prop := (∀ c ∈ l, isSpace c = true) ∨ l.head? = some 35

/-- The data in the lines. -/
inductive IsRows (digit : ℕ → Option ℕ) : List (List ℕ) → List (ℕ × List (List ℕ)) → Prop where
  | nil : IsRows digit [] []
  | skip (l : List ℕ) (ls : List (List ℕ)) (rows : List (ℕ × List (List ℕ))) : IsIgnored l → IsRows digit ls rows → IsRows digit (l :: ls) rows
  | data (l : List ℕ) (ls : List (List ℕ)) (d : ℕ) (names : List (List ℕ)) (rows : List (ℕ × List (List ℕ))) : IsData digit l d names →
      IsRows digit ls rows → IsRows digit (l :: ls) ((d, names) :: rows)

/-- What is assumed of the digits: spaces, `#`, `/` and `s` are none. -/
def DigitsOk (digit : ℕ → Option ℕ) : Prop := digit 35 = none ∧ (∀ c, isSpace c = true → digit c = none) ∧ digit 47 = none ∧ digit 115 = none

/-- What is assumed of `upper`: spaces, `#` and digits do not become an `O`. -/
def UpperOk (digit : ℕ → Option ℕ) (upper : ℕ → List ℕ) : Prop :=
  ∀ c, isSpace c = true ∨ c = 35 ∨ (digit c).isSome = true → ∃ d ds, upper c = d :: ds ∧ d ≠ 79

end TNCO
