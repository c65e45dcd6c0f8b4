import Verif.Model.FixedFloat
import Mathlib.Order.WithBot
import Mathlib.Tactic.Linarith

/-! # C47 and C54: predicates, comparisons and formatting of the fixed-precision float -/

namespace TNCO

/-- An extended rational: the value of a number that is not NaN. -/
abbrev ExtRat := WithBot (WithTop ℚ)

/-- The value of a number that is not NaN. -/
def Mpf.val : Mpf → ExtRat
  | .nan _ => ⊥
  | .inf true => ⊥
  | .inf false => ((⊤ : WithTop ℚ) : WithBot (WithTop ℚ))
  | .fin s m => (((if s then -m else m : ℚ) : WithTop ℚ) : WithBot (WithTop ℚ))

/-- Magnitudes are not negative. -/
def Mpf.Ok : Mpf → Prop
  | .fin _ m => 0 ≤ m
  | _ => True

theorem mpfrCmp_fin (s t : Bool) (m n : ℚ) (hm : 0 ≤ m) (hn : 0 ≤ n) :
    (mpfrCmp (.fin s m) (.fin t n) < 0 ↔ (if s then -m else m) < (if t then -n else n)) ∧
      (0 < mpfrCmp (.fin s m) (.fin t n) ↔ (if t then -n else n) < (if s then -m else m)) := by
  simp only [mpfrCmp]
  split
  · next h =>
    subst h
    split
    · next h =>
      subst h
      cases s <;> cases t <;> simp
    · next h =>
      have : 0 < n := lt_of_le_of_ne hn (Ne.symm h)
      cases s <;> cases t <;> simp [sgn, this, this.le]
  · next h0 =>
    have h1 : 0 < m := lt_of_le_of_ne hm (Ne.symm h0)
    split
    · next h =>
      subst h
      cases s <;> cases t <;> simp [sgn, h1, h1.le]
    · next h =>
      have h2 : 0 < n := lt_of_le_of_ne hn (Ne.symm h)
      split
      · next hst =>
        cases s <;> cases t <;> simp [sgn] at hst ⊢ <;> constructor <;> linarith
      · next hst =>
        rw [not_not] at hst
        subst hst
        split
        · next hlt => cases s <;> simp [sgn, hlt, hlt.le]
        · next hle =>
          split
          · next hlt => cases s <;> simp [sgn, hlt, hlt.le]
          · next hle' =>
            have : m = n := le_antisymm (not_lt.1 hle') (not_lt.1 hle)
            subst this
            simp

theorem mpfrCmp_val (x y : Mpf) (hx : x.Ok) (hy : y.Ok) (nx : x.isnan = false) (ny : y.isnan = false) :
    (mpfrCmp x y < 0 ↔ x.val < y.val) ∧ (0 < mpfrCmp x y ↔ y.val < x.val) := by
  cases x with
  | nan => simp [Mpf.isnan] at nx
  | inf s =>
    cases y with
    | nan => simp [Mpf.isnan] at ny
    | inf t => cases s <;> cases t <;> simp [mpfrCmp, sgn, Mpf.val]
    | fin t n =>
      have htop : ∀ q : ℚ, ((q : WithTop ℚ) : ExtRat) < ⊤ := fun q => WithBot.coe_lt_coe.2 (WithTop.coe_lt_top q)
      cases s <;> simp [mpfrCmp, sgn, Mpf.val, htop]
  | fin s m =>
    cases y with
    | nan => simp [Mpf.isnan] at ny
    | inf t =>
      have htop : ∀ q : ℚ, ((q : WithTop ℚ) : ExtRat) < ⊤ := fun q => WithBot.coe_lt_coe.2 (WithTop.coe_lt_top q)
      cases t <;> simp [mpfrCmp, sgn, Mpf.val, htop]
    | fin t n =>
      have := mpfrCmp_fin s t m n hx hy
      simp only [Mpf.val, WithBot.coe_lt_coe, WithTop.coe_lt_coe]
      exact this

/-- C47, comparisons: between numbers that are not NaN, all six comparisons are those of the extended rationals. -/
theorem C47_compare_partial (x y : Mpf) (hx : x.Ok) (hy : y.Ok) (nx : x.isnan = false) (ny : y.isnan = false) :
    (x.lt y ↔ x.val < y.val) ∧ (x.le y ↔ x.val ≤ y.val) ∧ (x.gt y ↔ y.val < x.val) ∧ (x.ge y ↔ y.val ≤ x.val) ∧
      (x.eq y ↔ x.val = y.val) ∧ (x.ne y ↔ x.val ≠ y.val) := by
  obtain ⟨h1, h2⟩ := mpfrCmp_val x y hx hy nx ny
  have he : x.val = y.val ↔ mpfrCmp x y = 0 := by
    constructor
    · intro h
      rw [h] at h1 h2
      have a := (not_congr h1).2 (lt_irrefl _)
      have b := (not_congr h2).2 (lt_irrefl _)
      omega
    · intro h
      rw [h] at h1 h2
      exact le_antisymm (not_lt.1 (h2.not.1 (lt_irrefl _))) (not_lt.1 (h1.not.1 (lt_irrefl _)))
  simp only [Mpf.lt, Mpf.le, Mpf.gt, Mpf.ge, Mpf.eq, Mpf.ne, decide_eq_true_eq]
  refine ⟨h1, ?_, h2, ?_, he.symm, he.not.symm⟩
  · rw [← not_lt, h2, not_lt]
  · rw [ge_iff_le, ← not_lt, h1, not_lt]

/-- C47, `isnan` reports NaN. -/
theorem C47_isnan_partial (x : Mpf) : pyIsnan x = true ↔ ∃ s, x = .nan s := by
  cases x <;> simp [pyIsnan, Mpf.isnan]

/-- C47 fails: `isinf` and `signbit` report NaN, whatever the number is. -/
theorem C47_violated : (∀ s, pyIsinf (.inf s) = false) ∧ (∀ s, pyIsinf (.nan s) = true) ∧ (∀ m, pySignbit (.fin true m) = false) ∧
    pySignbit (.inf true) = false ∧ pySignbit (.nan false) = true := by
  simp [pyIsinf, pySignbit, Mpf.isnan]

/-- C47 fails: NaN is equal to everything, and neither less nor greater. -/
theorem C47_nan_violated (s : Bool) (x : Mpf) : (Mpf.nan s).eq x ∧ x.eq (.nan s) ∧ (Mpf.nan s).le x ∧ x.le (.nan s) ∧ (Mpf.nan s).ge x ∧ x.ge (.nan s) ∧
    ¬ (Mpf.nan s).ne x ∧ ¬ (Mpf.nan s).lt x ∧ ¬ x.lt (.nan s) ∧ ¬ (Mpf.nan s).gt x ∧ ¬ x.gt (.nan s) := by
  have h1 : mpfrCmp (.nan s) x = 0 := by cases x <;> rfl
  have h2 : mpfrCmp x (.nan s) = 0 := by cases x <;> rfl
  simp [Mpf.eq, Mpf.le, Mpf.ge, Mpf.ne, Mpf.lt, Mpf.gt, h1, h2]

/-- C47 fails: equality is not transitive, so that a `set` or a search may lose elements. -/
theorem C47_eq_not_transitive : ∃ x y z : Mpf, x.eq y ∧ y.eq z ∧ ¬ x.eq z :=
  ⟨.fin false 1, .nan false, .fin false 2, by decide +kernel⟩

example : (Mpf.fin true 1).lt (.fin false 0) ∧ (Mpf.fin true 0).eq (.fin false 0) ∧ (Mpf.inf true).lt (.fin true 5) ∧ (Mpf.fin true 2).lt (.fin true 1) := by
  decide +kernel

/-! ## C54 -/

/-- The text of a specifier: `[[fill]align][sign][#][0][width][,][.precision][type]`. -/
def FmtSpec.text (s : FmtSpec) : List Char :=
  s.fill.toList ++ (s.align.toList ++ (s.sign.toList ++ ((if s.alt then ['#'] else []) ++ ((if s.zero then ['0'] else []) ++
    (s.width.getD [] ++ ((if s.thousands then [','] else []) ++ (s.prec.getD [] ++ s.type.toList)))))))

/-- The fields of a specifier as they are documented. -/
structure FmtSpec.Valid (s : FmtSpec) : Prop where
  fill : ∀ c ∈ s.fill, c ≠ '\n' ∧ c ≠ '\r' ∧ s.align ≠ none
  align : ∀ c ∈ s.align, c ∈ ['<', '>', '^', '=']
  sign : ∀ c ∈ s.sign, c ∈ ['+', '-', ' ']
  width : ∀ w ∈ s.width, w ≠ [] ∧ ∀ c ∈ w, c.isDigit
  prec : ∀ p ∈ s.prec, ∃ ds, p = '.' :: ds ∧ ds ≠ [] ∧ ∀ c ∈ ds, c.isDigit
  type : ∀ c ∈ s.type, c ∈ ['f', 'F', 'e', 'E', 'g', 'G', '%']

/-- The first character, if any, is not in `p`. -/
def NoHead (p : Char → Bool) (cs : List Char) : Prop := ∀ c ∈ cs.head?, p c = false

theorem NoHead.append {p : Char → Bool} {a b : List Char} (ha : NoHead p a) (hb : NoHead p b) : NoHead p (a ++ b) := by
  cases a with
  | nil => exact hb
  | cons x a => exact ha

theorem NoHead.nil {p : Char → Bool} : NoHead p [] := by intro c h; cases h

theorem takeOne_spec (p : Char → Bool) (cs : List Char) : cs = (takeOne p cs).1.toList ++ (takeOne p cs).2 ∧ (∀ c ∈ (takeOne p cs).1, p c) ∧
    ((takeOne p cs).1 = none → NoHead p (takeOne p cs).2) := by
  cases cs with
  | nil => exact ⟨rfl, by simp [takeOne], fun _ => NoHead.nil⟩
  | cons c cs =>
    simp only [takeOne]
    split
    · next h => exact ⟨rfl, fun d hd => by cases hd; exact h, fun h => (by cases h)⟩
    · next h => exact ⟨rfl, by simp, fun _ d hd => by cases hd; simpa using h⟩

theorem takeOne_eq (p : Char → Bool) (o : Option Char) (r : List Char) (ho : ∀ c ∈ o, p c) (hr : NoHead p r) : takeOne p (o.toList ++ r) = (o, r) := by
  cases o with
  | some c => simp only [Option.toList_some, List.singleton_append, takeOne]; rw [if_pos (ho c rfl)]
  | none =>
    cases r with
    | nil => rfl
    | cons c r => simp only [Option.toList_none, List.nil_append, takeOne]; rw [if_neg (by simp [hr c rfl])]

theorem takeDigits_spec (cs : List Char) : cs = (takeDigits cs).1.getD [] ++ (takeDigits cs).2 ∧
    (∀ w ∈ (takeDigits cs).1, w ≠ [] ∧ ∀ c ∈ w, c.isDigit) ∧ NoHead Char.isDigit (takeDigits cs).2 := by
  have hd : NoHead Char.isDigit (cs.dropWhile Char.isDigit) := by
    intro c hc
    cases h : cs.dropWhile Char.isDigit with
    | nil => rw [h] at hc; cases hc
    | cons x l =>
      rw [h] at hc; cases hc
      have h1 := List.head_dropWhile_not (p := Char.isDigit) (l := cs) (by rw [h]; simp)
      simp only [h, List.head_cons] at h1
      simpa using h1
  have ht := List.takeWhile_append_dropWhile (p := Char.isDigit) (l := cs)
  unfold takeDigits
  split
  · next h =>
    rw [h, List.nil_append] at ht
    exact ⟨rfl, by simp, by rw [← ht]; exact hd⟩
  · next ds h =>
    refine ⟨ht.symm, fun w hw => ?_, hd⟩
    cases hw
    exact ⟨h, fun c hc => (List.all_eq_true.1 (List.all_takeWhile (p := Char.isDigit) (l := cs))) c hc⟩

theorem takeDigits_eq (w : Option (List Char)) (r : List Char) (hw : ∀ x ∈ w, x ≠ [] ∧ ∀ c ∈ x, c.isDigit) (hr : NoHead Char.isDigit r) :
    takeDigits (w.getD [] ++ r) = (w, r) := by
  have hr' : r.takeWhile Char.isDigit = [] ∧ r.dropWhile Char.isDigit = r := by
    cases r with
    | nil => exact ⟨rfl, rfl⟩
    | cons c r => simp [hr c rfl]
  unfold takeDigits
  cases w with
  | none => simp only [Option.getD_none, List.nil_append]; rw [hr'.1]
  | some x =>
    obtain ⟨h1, h2⟩ := hw x rfl
    simp only [Option.getD_some]
    rw [List.takeWhile_append_of_pos h2, List.dropWhile_append_of_pos h2, hr'.1, hr'.2, List.append_nil]
    cases x with
    | nil => exact absurd rfl h1
    | cons a x => rfl

theorem takePrec_spec (cs : List Char) : cs = (takePrec cs).1.getD [] ++ (takePrec cs).2 ∧
    (∀ p ∈ (takePrec cs).1, ∃ ds, p = '.' :: ds ∧ ds ≠ [] ∧ ∀ c ∈ ds, c.isDigit) := by
  unfold takePrec
  split
  · next cs =>
    have h := takeDigits_spec cs
    split
    · next ds rest hd =>
      rw [hd] at h
      refine ⟨congrArg ('.' :: ·) h.1, fun p hp => ?_⟩
      cases hp
      exact ⟨ds, rfl, (h.2.1 ds rfl).1, (h.2.1 ds rfl).2⟩
    · exact ⟨rfl, by simp⟩
  · exact ⟨rfl, by simp⟩

theorem takePrec_eq (p : Option (List Char)) (r : List Char) (hp : ∀ x ∈ p, ∃ ds, x = '.' :: ds ∧ ds ≠ [] ∧ ∀ c ∈ ds, c.isDigit)
    (hr : NoHead (fun c => c.isDigit || c = '.') r) : takePrec (p.getD [] ++ r) = (p, r) := by
  have hr' : NoHead Char.isDigit r := by
    intro c hc
    have := hr c hc
    simp only [Bool.or_eq_false_iff] at this
    exact this.1
  cases p with
  | none =>
    simp only [Option.getD_none, List.nil_append]
    cases r with
    | nil => rfl
    | cons c r =>
      have := hr c rfl
      simp only [Bool.or_eq_false_iff, decide_eq_false_iff_not] at this
      unfold takePrec
      split
      · next h => cases h; exact absurd rfl this.2
      · rfl
  | some x =>
    obtain ⟨ds, rfl, h1, h2⟩ := hp x rfl
    simp only [Option.getD_some, List.cons_append, takePrec]
    have := takeDigits_eq (some ds) r (fun x hx => by cases hx; exact ⟨h1, h2⟩) hr'
    simp only [Option.getD_some] at this
    rw [this]

theorem takeAlign_spec (cs : List Char) : cs = (takeAlign cs).1.1.toList ++ ((takeAlign cs).1.2.toList ++ (takeAlign cs).2) ∧
    (∀ c ∈ (takeAlign cs).1.1, isNl c = false ∧ (takeAlign cs).1.2 ≠ none) ∧ (∀ c ∈ (takeAlign cs).1.2, isAlign c) := by
  match cs with
  | [] => simp [takeAlign]
  | [a] =>
    simp only [takeAlign]
    split
    · next h => simp [h]
    · simp
  | a :: b :: cs =>
    simp only [takeAlign]
    split
    · next h =>
      simp only [Bool.and_eq_true, Bool.not_eq_true'] at h
      simp [h]
    · split
      · next h => simp [h]
      · simp

theorem takeAlign_eq (f a : Option Char) (r : List Char) (hf : ∀ c ∈ f, isNl c = false ∧ a ≠ none) (ha : ∀ c ∈ a, isAlign c)
    (hr : ∀ c ∈ r, isAlign c = false) : takeAlign (f.toList ++ (a.toList ++ r)) = ((f, a), r) := by
  cases a with
  | none =>
    cases f with
    | some c => exact absurd rfl (hf c rfl).2
    | none =>
      simp only [Option.toList_none, List.nil_append]
      match r with
      | [] => rfl
      | [x] => simp only [takeAlign]; rw [if_neg (by simp [hr x])]
      | x :: y :: r => simp only [takeAlign]; rw [if_neg (by simp [hr y]), if_neg (by simp [hr x])]
  | some c =>
    have hc := ha c rfl
    cases f with
    | some d =>
      simp only [Option.toList_some, List.singleton_append, takeAlign]
      rw [if_pos (by simp [hc, (hf d rfl).1])]
    | none =>
      simp only [Option.toList_some, Option.toList_none, List.nil_append, List.singleton_append]
      match r with
      | [] => simp only [takeAlign]; rw [if_pos hc]
      | y :: r => simp only [takeAlign]; rw [if_neg (by simp [hr y]), if_pos hc]

/-- C54, grammar: the specifiers with a parse of the documented form are accepted, with that parse, where a leading 0 is always the flag. -/
theorem C54_parse (cs : List Char) (s : FmtSpec) :
    parseSpec cs = some s ↔ s.Valid ∧ s.text = cs ∧ (s.zero = false → ∀ w ∈ s.width, w.head? ≠ some '0') := by
  constructor
  · intro h
    unfold parseSpec at h
    have h1 := takeAlign_spec cs
    rcases e1 : takeAlign cs with ⟨⟨fill, align⟩, c1⟩
    rw [e1] at h h1
    dsimp only at h h1
    have h2 := takeOne_spec isSign c1
    rcases e2 : takeOne isSign c1 with ⟨sign, c2⟩
    rw [e2] at h h2
    dsimp only at h h2
    have h3 := takeOne_spec (· = '#') c2
    rcases e3 : takeOne (· = '#') c2 with ⟨alt, c3⟩
    rw [e3] at h h3
    dsimp only at h h3
    have h4 := takeOne_spec (· = '0') c3
    rcases e4 : takeOne (· = '0') c3 with ⟨zero, c4⟩
    rw [e4] at h h4
    dsimp only at h h4
    have h5 := takeDigits_spec c4
    rcases e5 : takeDigits c4 with ⟨width, c5⟩
    rw [e5] at h h5
    dsimp only at h h5
    have h6 := takeOne_spec (· = ',') c5
    rcases e6 : takeOne (· = ',') c5 with ⟨th, c6⟩
    rw [e6] at h h6
    dsimp only at h h6
    have h7 := takePrec_spec c6
    rcases e7 : takePrec c6 with ⟨prec, c7⟩
    rw [e7] at h h7
    dsimp only at h h7
    have h8 := takeOne_spec isType c7
    rcases e8 : takeOne isType c7 with ⟨type, c8⟩
    rw [e8] at h h8
    dsimp only at h h8
    have flag : ∀ (o : Option Char) (x : Char), (∀ c ∈ o, decide (c = x) = true) → (if o.isSome then [x] else []) = o.toList := by
      intro o x ho
      cases o with
      | none => rfl
      | some c => have := ho c rfl; simp only [decide_eq_true_eq] at this; subst this; rfl
    cases c8 with
    | cons c c8 => cases h
    | nil =>
      cases h
      refine ⟨⟨fun c hc => ?_, fun c hc => ?_, fun c hc => ?_, h5.2.1, h7.2, fun c hc => ?_⟩, ?_, fun hz w hw hh => ?_⟩
      · have := h1.2.1 c hc
        simp only [isNl, Bool.or_eq_false_iff, decide_eq_false_iff_not] at this
        exact ⟨this.1.1, this.1.2, this.2⟩
      · have := h1.2.2 c hc
        simpa [isAlign, or_assoc] using this
      · have := h2.2.1 c hc
        simpa [isSign, or_assoc] using this
      · have := h8.2.1 c hc
        simpa [isType, or_assoc] using this
      · unfold FmtSpec.text
        dsimp only
        rw [flag alt '#' h3.2.1, flag zero '0' h4.2.1, flag th ',' h6.2.1]
        rw [List.append_nil] at h8
        rw [← h8.1, ← h7.1, ← h6.1, ← h5.1, ← h4.1, ← h3.1, ← h2.1, ← h1.1]
      · dsimp only at hz hw
        subst hw
        cases zero with
        | some c => cases hz
        | none =>
          have hn := h4.2.2 rfl
          have h51 := h5.1
          rw [Option.getD_some] at h51
          have := hn '0' (by rw [h51, List.head?_append, hh]; rfl)
          simp at this
  · rintro ⟨hv, rfl, hz⟩
    obtain ⟨fill, align, sign, alt, zero, width, th, prec, type⟩ := s
    have flag : ∀ (b : Bool) (x : Char), (if b then [x] else []) = (if b then some x else none : Option Char).toList := by
      intro b x; cases b <;> rfl
    have hf : ∀ (b : Bool) (x : Char), ∀ c ∈ (if b then some x else none : Option Char), decide (c = x) = true := by
      intro b x c hc
      cases b
      · cases hc
      · cases hc; simp
    have hb : ∀ (b : Bool) (x : Char), (if b then some x else none : Option Char).isSome = b := by
      intro b x; cases b <;> rfl
    have hal : ∀ c, c ∈ ['<', '>', '^', '='] ↔ isAlign c = true := by intro c; simp [isAlign, or_assoc]
    have hsg : ∀ c, c ∈ ['+', '-', ' '] ↔ isSign c = true := by intro c; simp [isSign, or_assoc]
    have hty : ∀ c, c ∈ ['f', 'F', 'e', 'E', 'g', 'G', '%'] ↔ isType c = true := by intro c; simp [isType, or_assoc]
    have hdig : ∀ c : Char, c.isDigit = true → isAlign c = false ∧ isSign c = false ∧ c ≠ '#' ∧ c ≠ ',' ∧ c ≠ '.' := by
      intro c hc
      refine ⟨?_, ?_, ?_, ?_, ?_⟩
      · rw [Bool.eq_false_iff, ne_eq, ← hal]
        intro h
        rcases h with _ | ⟨_, _ | ⟨_, _ | ⟨_, _ | ⟨_, h⟩⟩⟩⟩ <;> first | (exact absurd hc (by decide)) | cases h
      · rw [Bool.eq_false_iff, ne_eq, ← hsg]
        intro h
        rcases h with _ | ⟨_, _ | ⟨_, _ | ⟨_, h⟩⟩⟩ <;> first | (exact absurd hc (by decide)) | cases h
      all_goals rintro rfl; exact absurd hc (by decide)
    have htyp : ∀ c : Char, isType c = true → isAlign c = false ∧ isSign c = false ∧ c ≠ '#' ∧ c ≠ '0' ∧ c.isDigit = false ∧ c ≠ ',' ∧ c ≠ '.' := by
      intro c hc
      rw [← hty] at hc
      have : ∀ c ∈ ['f', 'F', 'e', 'E', 'g', 'G', '%'], isAlign c = false ∧ isSign c = false ∧ c ≠ '#' ∧ c ≠ '0' ∧ c.isDigit = false ∧ c ≠ ',' ∧ c ≠ '.' := by
        decide
      exact this c hc
    -- the first characters of the parts
    have t8 : ∀ p : Char → Bool, (∀ c, isType c = true → p c = false) → NoHead p type.toList := by
      intro p hp c hc
      cases type with
      | none => cases hc
      | some x => cases hc; exact hp _ ((hty _).1 (hv.type _ rfl))
    have t7 : ∀ p : Char → Bool, p '.' = false → NoHead p (prec.getD []) := by
      intro p hp c hc
      cases prec with
      | none => cases hc
      | some x => obtain ⟨ds, rfl, _⟩ := hv.prec x rfl; cases hc; exact hp
    have tf : ∀ (p : Char → Bool) (b : Bool) (x : Char), p x = false → NoHead p (if b then [x] else []) := by
      intro p b x hp c hc
      cases b
      · cases hc
      · cases hc; exact hp
    have t5 : ∀ p : Char → Bool, (∀ c : Char, c.isDigit = true → p c = false) → NoHead p (width.getD []) := by
      intro p hp c hc
      cases width with
      | none => cases hc
      | some x =>
        have := (hv.width x rfl).2
        cases x with
        | nil => cases hc
        | cons y x => cases hc; exact hp _ (this _ List.mem_cons_self)
    have e1 := takeAlign_eq fill align (sign.toList ++ ((if alt then ['#'] else []) ++ ((if zero then ['0'] else []) ++
        (width.getD [] ++ ((if th then [','] else []) ++ (prec.getD [] ++ type.toList))))))
      (fun c hc => by
        obtain ⟨h1, h2, h3⟩ := hv.fill c hc
        exact ⟨by simp [isNl, h1, h2], h3⟩)
      (fun c hc => (hal c).1 (hv.align c hc))
      (fun c hc => by
        simp only [List.mem_append] at hc
        rcases hc with h | h | h | h | h | h | h
        · have := (hsg c).1 (hv.sign c (by simpa using h))
          rw [← hsg] at this
          have hs : ∀ c ∈ ['+', '-', ' '], isAlign c = false := by decide
          exact hs c this
        · cases alt
          · cases h
          · have : c = '#' := by simpa using h
            subst this; decide
        · cases zero
          · cases h
          · have : c = '0' := by simpa using h
            subst this; decide
        · cases width with
          | none => cases h
          | some w => exact (hdig c ((hv.width w rfl).2 c h)).1
        · cases th
          · cases h
          · have : c = ',' := by simpa using h
            subst this; decide
        · cases prec with
          | none => cases h
          | some w =>
            obtain ⟨ds, rfl, _, h2⟩ := hv.prec w rfl
            rcases List.mem_cons.1 h with rfl | h
            · decide
            · exact (hdig c (h2 c h)).1
        · cases type with
          | none => cases h
          | some t =>
            have : c = t := by simpa using h
            subst this
            exact (htyp c ((hty c).1 (hv.type c rfl))).1)
    have e2 := takeOne_eq isSign sign ((if alt then ['#'] else []) ++ ((if zero then ['0'] else []) ++
        (width.getD [] ++ ((if th then [','] else []) ++ (prec.getD [] ++ type.toList)))))
      (fun c hc => (hsg c).1 (hv.sign c hc))
      ((tf _ _ _ (by decide)).append ((tf _ _ _ (by decide)).append ((t5 _ fun c hc => (hdig c hc).2.1).append ((tf _ _ _ (by decide)).append
        ((t7 _ (by decide)).append (t8 _ fun c hc => (htyp c hc).2.1))))))
    have e3 := takeOne_eq (· = '#') (if alt then some '#' else none) ((if zero then ['0'] else []) ++
        (width.getD [] ++ ((if th then [','] else []) ++ (prec.getD [] ++ type.toList))))
      (hf alt '#')
      ((tf _ _ _ (by decide)).append ((t5 _ fun c hc => by simp [(hdig c hc).2.2.1]).append ((tf _ _ _ (by decide)).append
        ((t7 _ (by decide)).append (t8 _ fun c hc => by simp [(htyp c hc).2.2.1])))))
    have e5 := takeDigits_eq width ((if th then [','] else []) ++ (prec.getD [] ++ type.toList)) hv.width
      ((tf _ _ _ (by decide)).append ((t7 _ (by decide)).append (t8 _ fun c hc => (htyp c hc).2.2.2.2.1)))
    have e6 := takeOne_eq (· = ',') (if th then some ',' else none) (prec.getD [] ++ type.toList) (hf th ',')
      ((t7 _ (by decide)).append (t8 _ fun c hc => by simp [(htyp c hc).2.2.2.2.2.1]))
    have e7 := takePrec_eq prec type.toList hv.prec (t8 _ fun c hc => by simp [(htyp c hc).2.2.2.2])
    have e8 := takeOne_eq isType type [] (fun c hc => (hty c).1 (hv.type c hc)) NoHead.nil
    have e4 : takeOne (· = '0') ((if zero then some '0' else none : Option Char).toList ++
        (width.getD [] ++ ((if th then [','] else []) ++ (prec.getD [] ++ type.toList)))) =
        ((if zero then some '0' else none), width.getD [] ++ ((if th then [','] else []) ++ (prec.getD [] ++ type.toList))) := by
      cases zero with
      | true => rfl
      | false =>
        refine takeOne_eq (· = '0') none _ (by simp) (NoHead.append ?_ ((tf _ _ _ (by decide)).append ((t7 _ (by decide)).append
          (t8 _ fun c hc => by simp [(htyp c hc).2.2.2.1]))))
        intro c hc
        cases width with
        | none => cases hc
        | some w =>
          have := hz rfl w rfl
          rw [Option.getD_some] at hc
          rw [decide_eq_false_iff_not]
          rintro rfl
          exact this hc
    rw [List.append_nil] at e8
    rw [← flag] at e3 e4 e6
    unfold parseSpec FmtSpec.text
    dsimp only
    rw [e1]
    dsimp only
    rw [e2]
    dsimp only
    rw [e3]
    dsimp only
    rw [e4]
    dsimp only
    rw [e5]
    dsimp only
    rw [e6]
    dsimp only
    rw [e7]
    dsimp only
    rw [e8]
    dsimp only
    rw [hb, hb, hb]

/-- C54, grammar: a specifier of the documented form is never rejected. -/
theorem C54_accepts (cs : List Char) (h : ∃ s : FmtSpec, s.Valid ∧ s.text = cs) : ∃ s, parseSpec cs = some s := by
  obtain ⟨s, hv, rfl⟩ := h
  by_cases hz : s.zero = false → ∀ w ∈ s.width, w.head? ≠ some '0'
  · exact ⟨s, (C54_parse _ s).2 ⟨hv, rfl, hz⟩⟩
  · push Not at hz
    obtain ⟨hz, w, hw, h0⟩ := hz
    obtain ⟨fill, align, sign, alt, zero, width, th, prec, type⟩ := s
    dsimp only at hz hw
    subst hz
    obtain rfl : width = some w := hw
    cases w with
    | nil => cases h0
    | cons c w =>
      obtain rfl : c = '0' := by simpa using h0
      refine ⟨⟨fill, align, sign, alt, true, if w = [] then none else some w, th, prec, type⟩, (C54_parse _ _).2 ⟨?_, ?_, fun h => (by cases h)⟩⟩
      · refine ⟨hv.fill, hv.align, hv.sign, fun x hx => ?_, hv.prec, hv.type⟩
        dsimp only at hx
        split at hx
        · cases hx
        · next hne => cases hx; exact ⟨hne, fun c hc => (hv.width _ rfl).2 c (List.mem_cons_of_mem _ hc)⟩
      · unfold FmtSpec.text
        dsimp only
        cases w with
        | nil => rfl
        | cons x w => simp

/-- Python's padding of the text of a number: with the flag 0, the default fill is 0 and the default alignment is `=`; with alignment `=`,
the padding is behind the sign. -/
def pyPad (s : FmtSpec) (width : ℕ) (num : List Char) : List Char :=
  let fill := s.fill.getD (if s.zero then '0' else ' ')
  let align := s.align.getD (if s.zero then '=' else '>')
  let n := width - num.length
  if align = '<' then num ++ List.replicate n fill
  else if align = '>' then List.replicate n fill ++ num
  else if align = '^' then List.replicate (n / 2) fill ++ num ++ List.replicate (n - n / 2) fill
  else (takeOne isSign num).1.toList ++ List.replicate n fill ++ (takeOne isSign num).2

/-- The text of the number itself. -/
def FmtSpec.num (s : FmtSpec) (print : List Char → Bool → List Char) : List Char :=
  if s.type = some '%' then print s.core true ++ ['%'] else print s.core false

/-- C54, padding: without the flag 0 and without the alignment `=`, the result is padded as Python does. -/
theorem C54_padding_partial (print : List Char → Bool → List Char) (digits : List Char) (s : FmtSpec) (hv : s.Valid) (hne : s.text ≠ [])
    (hz : s.zero = false) (h0 : ∀ w ∈ s.width, w.head? ≠ some '0') (ha : s.align ≠ some '=') (hw : digitsVal (s.width.getD []) < 2 ^ 31) :
    fixedFormat print digits s.text = .ok (pyPad s (digitsVal (s.width.getD [])) (s.num print)) := by
  unfold fixedFormat
  dsimp only
  rw [if_neg hne, (C54_parse s.text s).2 ⟨hv, rfl, fun _ => h0⟩]
  dsimp only
  rw [if_neg (by omega)]
  congr 1
  unfold pyPad padText FmtSpec.alignChar FmtSpec.num
  generalize hn : (if s.type = some '%' then print s.core true ++ ['%'] else print s.core false) = num
  have hcase : s.align.getD '>' = '<' ∨ s.align.getD '>' = '>' ∨ s.align.getD '>' = '^' := by
    cases hal : s.align with
    | none => simp
    | some c =>
      have hc := hv.align c hal
      have : c ≠ '=' := by rintro rfl; exact ha hal
      simp only [List.mem_cons, List.not_mem_nil, or_false] at hc
      simp only [Option.getD_some]
      rcases hc with h | h | h | h
      · exact .inl h
      · exact .inr (.inl h)
      · exact .inr (.inr h)
      · exact absurd h this
  rw [hz]
  dsimp only
  simp only [Bool.false_eq_true, if_false]
  have h1 : ('>' : Char) ≠ '<' := by decide
  have h2 : ('^' : Char) ≠ '<' := by decide
  have h3 : ('^' : Char) ≠ '>' := by decide
  have h4 : ('>' : Char) ≠ '^' := by decide
  by_cases hle : digitsVal (s.width.getD []) ≤ num.length
  · rw [if_pos hle, Nat.sub_eq_zero_of_le hle]
    rcases hcase with h | h | h <;> simp [h]
  · rw [if_neg hle]
    rcases hcase with h | h | h <;> simp [h, h1, h2, h3, h4]

/-- C54: the length of the result is the width, or that of the number if it is longer. -/
theorem C54_length (print : List Char → Bool → List Char) (digits : List Char) (s : FmtSpec) (hv : s.Valid) (hne : s.text ≠ [])
    (h0 : s.zero = false → ∀ w ∈ s.width, w.head? ≠ some '0') (hw : digitsVal (s.width.getD []) < 2 ^ 31) :
    ∃ r, fixedFormat print digits s.text = .ok r ∧ r.length = max (digitsVal (s.width.getD [])) (s.num print).length := by
  unfold fixedFormat
  dsimp only
  rw [if_neg hne, (C54_parse s.text s).2 ⟨hv, rfl, h0⟩]
  dsimp only
  rw [if_neg (by omega)]
  refine ⟨_, rfl, ?_⟩
  unfold padText FmtSpec.num
  generalize hn : (if s.type = some '%' then print s.core true ++ ['%'] else print s.core false) = num
  dsimp only
  split
  · omega
  · split
    · simp; omega
    · split
      · simp; omega
      · simp; omega

/-- C54: specifiers of any other form are rejected, and so are widths that do not fit. -/
theorem C54_rejects (print : List Char → Bool → List Char) (digits cs : List Char) (hne : cs ≠ []) :
    ((¬ ∃ s : FmtSpec, s.Valid ∧ s.text = cs) → fixedFormat print digits cs = .error .invalid) ∧
      (∀ s, parseSpec cs = some s → 2 ^ 31 ≤ digitsVal (s.width.getD []) → fixedFormat print digits cs = .error .outOfRange) := by
  unfold fixedFormat
  dsimp only
  rw [if_neg hne]
  constructor
  · intro h
    cases hp : parseSpec cs with
    | none => rfl
    | some s => exact absurd ⟨s, ((C54_parse cs s).1 hp).1, ((C54_parse cs s).1 hp).2.1⟩ h
  · intro s hs hw
    rw [hs]
    dsimp only
    rw [if_pos hw]

/-- C54: the width is the number that its digits denote. -/
theorem C54_width (n k : ℕ) : digitsVal (List.replicate k '0' ++ Nat.toDigits 10 n) = n := by
  have : digitsVal (List.replicate k '0' ++ Nat.toDigits 10 n) = Nat.ofDigitChars 10 (List.replicate k '0' ++ Nat.toDigits 10 n) 0 :=
    Nat.ofDigitChars_eq_foldl.symm
  rw [this, Nat.ofDigitChars_append, Nat.ofDigitChars_replicate_zero, Nat.mul_zero]
  exact Nat.ofDigitChars_toDigits (by omega) (by omega)

/-- C54: MPFR is asked for the given sign, form, grouping, precision and type; `%` is a fixed-point number with 6 decimals by default. -/
theorem C54_core (s : FmtSpec) : ∃ flags prec t, s.core = '%' :: (flags ++ prec ++ ['R', 'N', t]) ∧
    (∀ c, c ∈ flags ↔ s.sign = some c ∨ (c = '#' ∧ s.alt = true) ∨ (c = '0' ∧ (s.align = some '=' ∨ (s.zero = true ∧ (s.align = none ∨ ∃ a, s.align = some a ∧ a ≠ '<' ∧ a ≠ '^')))) ∨
      (c = '\'' ∧ s.thousands = true)) ∧
    (∀ p, s.prec = some p → prec = p) ∧ (s.prec = none → prec = if s.type = some '%' then ['.', '6'] else []) ∧
    (s.type = none → t = 'g') ∧ (∀ c, s.type = some c → t = if c = '%' then 'f' else c) := by
  refine ⟨s.sign.toList ++ (if s.alt then ['#'] else []) ++ (if (s.zero || s.alignChar = '=') && s.alignChar ≠ '<' && s.alignChar ≠ '^' then ['0'] else []) ++
    (if s.thousands then ['\''] else []), if s.type = some '%' then s.prec.getD ['.', '6'] else s.prec.getD [], if s.type.getD 'g' = '%' then 'f' else s.type.getD 'g',
    ?_, ?_, ?_, ?_, ?_, ?_⟩
  · have ht : (s.type.getD 'g' = '%') ↔ s.type = some '%' := by cases s.type <;> simp
    simp only [FmtSpec.core, ht]
    simp
  · intro c
    simp only [List.mem_append, Option.mem_toList, or_assoc]
    refine or_congr Iff.rfl (or_congr ?_ (or_congr ?_ ?_))
    · cases s.alt <;> simp
    · have key : ∀ (z : Bool) (al : Option Char), (c ∈ if (z || al.getD '>' = '=') && al.getD '>' ≠ '<' && al.getD '>' ≠ '^' then ['0'] else []) ↔
          c = '0' ∧ (al = some '=' ∨ (z = true ∧ (al = none ∨ ∃ a, al = some a ∧ a ≠ '<' ∧ a ≠ '^'))) := by
        intro z al
        cases al with
        | none => cases z <;> simp
        | some a =>
          by_cases h1 : a = '='
          · subst h1; simp
          · cases z <;> simp [h1, and_comm]
      exact key s.zero s.align
    · cases s.thousands <;> simp
  · intro p h; simp [h]
  · intro h; simp [h]
  · intro h; rw [h]; rfl
  · intro c h; rw [h]; rfl

/-- `1.5` printed with two decimals, whatever the flags are. -/
def print150 : List Char → Bool → List Char := fun _ _ => ['-', '1', '.', '5', '0']

/-- C54 fails for the flag 0 and for the alignment `=`: `format(-1.5, '08.2f')` gives `   -1.50` instead of `-0001.50`, and
`format(-1.5, '*=8.2f')` gives `***-1.50` instead of `-***1.50`. The width is not given to MPFR, so that its flag 0 has no effect. -/
theorem C54_violated :
    fixedFormat print150 ['3', '0'] ['0', '8', '.', '2', 'f'] = .ok [' ', ' ', ' ', '-', '1', '.', '5', '0'] ∧
      (parseSpec ['0', '8', '.', '2', 'f']).map (fun s => pyPad s 8 (s.num print150)) = some ['-', '0', '0', '0', '1', '.', '5', '0'] ∧
      fixedFormat print150 ['3', '0'] ['*', '=', '8', '.', '2', 'f'] = .ok ['*', '*', '*', '-', '1', '.', '5', '0'] ∧
      (parseSpec ['*', '=', '8', '.', '2', 'f']).map (fun s => pyPad s 8 (s.num print150)) = some ['-', '*', '*', '*', '1', '.', '5', '0'] := by
  decide +kernel

example : ∃ s : FmtSpec, s.Valid ∧ s.text = ['*', '<', '+', '1', '2', '.', '3', 'e'] :=
  have h : parseSpec ['*', '<', '+', '1', '2', '.', '3', 'e'] = some ⟨some '*', some '<', some '+', false, false, some ['1', '2'], false, some ['.', '3'], some 'e'⟩ := by
    decide +kernel
  ⟨_, ((C54_parse _ _).1 h).1, ((C54_parse _ _).1 h).2.1⟩

example : fixedFormat print150 ['3', '0'] ['*', '<', '+', '1', '2', '.', '3', 'e'] =
    .ok ['-', '1', '.', '5', '0', '*', '*', '*', '*', '*', '*', '*'] ∧ fixedFormat print150 ['3', '0'] ['1', '2', 'd'] = .error .invalid := by
  decide +kernel

end TNCO
