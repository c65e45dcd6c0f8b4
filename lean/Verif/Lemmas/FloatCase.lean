import Verif.Model.FloatClass

/-! Reading a number does not depend on the case of its letters. -/

namespace TNCO

/-- A fact about a character and its lower case holds if it holds for characters that stay, and for upper case letters. -/
theorem lowerC_cases {Q : Char → Char → Prop} (c : Char) (h1 : lowerC c = c → Q c c)
    (h2 : ∀ n, n < 91 → 65 ≤ n → Q (Char.ofNat n) (lowerC (Char.ofNat n))) : Q c (lowerC c) := by
  by_cases hc : 'A' ≤ c ∧ c ≤ 'Z'
  · have a : 65 ≤ c.toNat := hc.1
    have b : c.toNat ≤ 90 := hc.2
    have := h2 c.toNat (by omega) a
    rwa [Char.ofNat_toNat] at this
  · have : lowerC c = c := if_neg hc
    rw [this]
    exact h1 this

theorem digitVal_lower (base : ℕ) (c : Char) : digitVal base (lowerC c) = digitVal base c := by
  refine lowerC_cases (Q := fun a b => digitVal base b = digitVal base a) c (fun _ => rfl) ?_
  by_cases hb : base = 16
  · subst hb; decide
  · have h : ∀ n, n < 91 → 65 ≤ n → ¬ ('0' ≤ Char.ofNat n ∧ Char.ofNat n ≤ '9') ∧
        ¬ ('0' ≤ lowerC (Char.ofNat n) ∧ lowerC (Char.ofNat n) ≤ '9') := by decide
    intro n h1 h2
    unfold digitVal
    rw [if_neg (h n h1 h2).1, if_neg (h n h1 h2).2]
    simp [hb]

theorem takeDigs_lower (base : ℕ) (cs : List Char) :
    takeDigs base (cs.map lowerC) = ((takeDigs base cs).1, (takeDigs base cs).2.map lowerC) := by
  induction cs with
  | nil => rfl
  | cons c cs ih =>
    simp only [List.map_cons, takeDigs, digitVal_lower]
    cases digitVal base c with
    | none => rfl
    | some d => simp [ih]

theorem lowerC_eq (c x : Char) (hx : ∀ n, n < 91 → 65 ≤ n → (lowerC (Char.ofNat n) = x ↔ Char.ofNat n = x)) :
    lowerC c = x ↔ c = x :=
  lowerC_cases (Q := fun a b => b = x ↔ a = x) c (fun _ => Iff.rfl) hx

theorem takeSign_eq (cs : List Char) : takeSign cs =
    match cs with
    | [] => (false, [])
    | c :: cs => if c = '-' then (true, cs) else if c = '+' then (false, cs) else (false, c :: cs) := by
  cases cs with
  | nil => rfl
  | cons c cs =>
    by_cases h1 : c = '-'
    · subst h1; rfl
    · by_cases h2 : c = '+'
      · subst h2; rfl
      · simp only [if_neg h1, if_neg h2]
        unfold takeSign
        split
        · next h => exact absurd (List.cons.inj h).1 h1
        · next h => exact absurd (List.cons.inj h).1 h2
        · rfl

theorem takeSign_lower (cs : List Char) : takeSign (cs.map lowerC) = ((takeSign cs).1, (takeSign cs).2.map lowerC) := by
  rw [takeSign_eq, takeSign_eq]
  cases cs with
  | nil => rfl
  | cons c cs =>
    simp only [List.map_cons, lowerC_eq c '-' (by decide), lowerC_eq c '+' (by decide)]
    by_cases h1 : c = '-'
    · simp [h1]
    · by_cases h2 : c = '+'
      · simp [h2]
      · simp [h1, h2]

theorem expAfter_lower (cs : List Char) : expAfter (cs.map lowerC) = expAfter cs := by
  unfold expAfter
  simp only [takeSign_lower, takeDigs_lower]

theorem expFactor_lower (base : ℕ) (cs : List Char) : expFactor base (cs.map lowerC) = expFactor base cs := by
  cases cs with
  | nil => rfl
  | cons c cs =>
    simp only [List.map_cons, expFactor, expAfter_lower, lowerC_eq c '@' (by decide)]
    have he : (lowerC c = 'e' ∨ lowerC c = 'E') ↔ (c = 'e' ∨ c = 'E') :=
      lowerC_cases (Q := fun a b => (b = 'e' ∨ b = 'E') ↔ (a = 'e' ∨ a = 'E')) c (fun _ => Iff.rfl) (by decide)
    have hp : (lowerC c = 'p' ∨ lowerC c = 'P') ↔ (c = 'p' ∨ c = 'P') :=
      lowerC_cases (Q := fun a b => (b = 'p' ∨ b = 'P') ↔ (a = 'p' ∨ a = 'P')) c (fun _ => Iff.rfl) (by decide)
    simp only [he, hp]

theorem takeFrac_lower (base : ℕ) (cs : List Char) :
    takeFrac base (cs.map lowerC) = ((takeFrac base cs).1, (takeFrac base cs).2.map lowerC) := by
  have h : ∀ cs : List Char, takeFrac base cs =
      match cs with
      | [] => ([], [])
      | c :: cs => if c = '.' then takeDigs base cs else ([], c :: cs) := by
    intro cs
    cases cs with
    | nil => rfl
    | cons c cs =>
      by_cases h1 : c = '.'
      · subst h1; rfl
      · simp only [if_neg h1]
        unfold takeFrac
        split
        · next h => exact absurd (List.cons.inj h).1 h1
        · rfl
  rw [h, h]
  cases cs with
  | nil => rfl
  | cons c cs =>
    simp only [List.map_cons, lowerC_eq c '.' (by decide)]
    by_cases h1 : c = '.'
    · simp [h1, takeDigs_lower]
    · simp [h1]

theorem readMagnitude_lower (base : ℕ) (cs : List Char) : readMagnitude base (cs.map lowerC) = readMagnitude base cs := by
  unfold readMagnitude
  simp only [takeDigs_lower, takeFrac_lower, expFactor_lower]

theorem lowerC_lowerC (c : Char) : lowerC (lowerC c) = lowerC c :=
  lowerC_cases (Q := fun _ b => lowerC b = b) c (fun h => h) (by decide)

theorem startsWith_lower (w cs : List Char) : startsWith w (cs.map lowerC) = startsWith w cs := by
  unfold startsWith
  rw [← List.map_take, List.map_map]
  have : lowerC ∘ lowerC = lowerC := funext lowerC_lowerC
  rw [this]

theorem takeBase_lower (auto : Bool) (cs : List Char) :
    takeBase auto (cs.map lowerC) = ((takeBase auto cs).1, (takeBase auto cs).2.map lowerC) := by
  have h : ∀ cs : List Char, takeBase auto cs =
      match cs with
      | [] => (10, [])
      | [c] => (10, [c])
      | c :: d :: rest => if c = '0' ∧ auto ∧ (d = 'x' ∨ d = 'X') ∧ (readMagnitude 16 rest).isSome then (16, rest) else (10, c :: d :: rest) := by
    intro cs
    match cs with
    | [] => rfl
    | [c] =>
      unfold takeBase
      split
      · next h => cases h
      · rfl
    | c :: d :: rest =>
      by_cases h1 : c = '0'
      · subst h1
        simp only [true_and]
        rfl
      · simp only [h1, false_and, if_false]
        unfold takeBase
        split
        · next h => exact absurd (List.cons.inj h).1 h1
        · rfl
  rw [h, h]
  match cs with
  | [] => rfl
  | [c] => rfl
  | c :: d :: rest =>
    have hx : (lowerC d = 'x' ∨ lowerC d = 'X') ↔ (d = 'x' ∨ d = 'X') :=
      lowerC_cases (Q := fun a b => (b = 'x' ∨ b = 'X') ↔ (a = 'x' ∨ a = 'X')) d (fun _ => Iff.rfl) (by decide)
    simp only [List.map_cons, lowerC_eq c '0' (by decide), hx, readMagnitude_lower]
    split <;> rfl

theorem readFloat_lower (F : MpfFormat) (auto neg : Bool) (cs : List Char) :
    readFloat F auto neg (cs.map lowerC) = readFloat F auto neg cs := by
  unfold readFloat
  rw [takeBase_lower, readMagnitude_lower]

theorem dropSpace_lower (cs : List Char) : (cs.map lowerC).dropWhile isSpaceC = (cs.dropWhile isSpaceC).map lowerC := by
  induction cs with
  | nil => rfl
  | cons c cs ih =>
    have h : isSpaceC (lowerC c) = isSpaceC c :=
      lowerC_cases (Q := fun a b => isSpaceC b = isSpaceC a) c (fun _ => rfl) (by decide)
    simp only [List.map_cons, List.dropWhile_cons, h]
    split
    · exact ih
    · rfl

theorem readText_lower (F : MpfFormat) (auto : Bool) (s : List Char) : readText F auto (s.map lowerC) = readText F auto s := by
  cases s with
  | nil => rfl
  | cons c cs =>
    have h : ∀ (d : Char) (ds : List Char), readText F auto (d :: ds) =
        if startsWith ['n', 'a', 'n'] (takeSign ((d :: ds).dropWhile isSpaceC)).2 || startsWith ['@', 'n', 'a', 'n', '@'] (takeSign ((d :: ds).dropWhile isSpaceC)).2 then
          .nan (takeSign ((d :: ds).dropWhile isSpaceC)).1
        else if startsWith ['i', 'n', 'f'] (takeSign ((d :: ds).dropWhile isSpaceC)).2 || startsWith ['@', 'i', 'n', 'f', '@'] (takeSign ((d :: ds).dropWhile isSpaceC)).2 then
          .inf (takeSign ((d :: ds).dropWhile isSpaceC)).1
        else readFloat F auto (takeSign ((d :: ds).dropWhile isSpaceC)).1 (takeSign ((d :: ds).dropWhile isSpaceC)).2 := fun _ _ => rfl
    rw [List.map_cons, h, h, ← List.map_cons, dropSpace_lower, takeSign_lower]
    simp only [startsWith_lower, readFloat_lower]

/-- The lower case of Lean's library. -/
theorem lowerC_toLower (c : Char) : lowerC c = c.toLower := by
  by_cases hc : 'A' ≤ c ∧ c ≤ 'Z'
  · have a : 65 ≤ c.toNat := hc.1
    have b : c.toNat ≤ 90 := hc.2
    have h : ∀ n, n < 91 → 65 ≤ n → lowerC (Char.ofNat n) = (Char.ofNat n).toLower := by decide
    have := h c.toNat (by omega) a
    rwa [Char.ofNat_toNat] at this
  · have h : lowerC c = c := if_neg hc
    rw [h]
    unfold Char.toLower
    rw [dif_neg]
    exact hc

end TNCO
