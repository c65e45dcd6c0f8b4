import Verif.Model.PyNode
import Mathlib.Data.Nat.Digits.Lemmas
import Mathlib.Tactic.SplitIfs

/-!
# C90: nodes

Which nodes `Node` makes, what they show, and that they survive pickling, `repr` and the constructor of `ContractionTree`.
-/

namespace TNCO

/-- C90: `Node((x, y), p)` makes a node if both children are given (not negative) and different and the parent is none of them, or if none is given; a negative
number stands for none. The properties `children` and `parent` are then the numbers given, 0 included. -/
theorem C90_make (x y p : ℤ) (n : Node) : nodeMake x y p = .ok n ↔
    ((x < 0 ∧ y < 0) ∨ (0 ≤ x ∧ 0 ≤ y ∧ x ≠ y ∧ p ≠ x ∧ p ≠ y)) ∧
      (n.c0 = none ↔ x < 0) ∧ (∀ a, n.c0 = some a ↔ (a : ℤ) = x) ∧ (n.c1 = none ↔ y < 0) ∧ (∀ a, n.c1 = some a ↔ (a : ℤ) = y) ∧
      (n.parent = none ↔ p < 0) ∧ ∀ a, n.parent = some a ↔ (a : ℤ) = p := by
  have hn : ∀ z : ℤ, z < 0 → Node.ofInt z = none := fun z h => if_pos h
  have hs : ∀ z : ℤ, 0 ≤ z → Node.ofInt z = some z.toNat := fun z h => if_neg (by omega)
  have key : ∀ (o : Option ℕ) (z : ℤ), o = Node.ofInt z ↔ (o = none ↔ z < 0) ∧ ∀ a, o = some a ↔ (a : ℤ) = z := by
    intro o z
    by_cases hz : z < 0
    · rw [hn z hz]
      constructor
      · rintro rfl
        exact ⟨⟨fun _ => hz, fun _ => rfl⟩, fun a => ⟨fun h => (by cases h), fun h => (by omega)⟩⟩
      · exact fun h => h.1.2 hz
    · rw [hs z (by omega)]
      constructor
      · rintro rfl
        refine ⟨⟨fun h => (by cases h), fun h => absurd h hz⟩, fun a => ⟨fun h => ?_, fun h => ?_⟩⟩
        · have := Option.some.inj h
          omega
        · congr 1
          omega
      · exact fun h => (h.2 z.toNat).2 (by omega)
  have valid : ∀ m : Node, m = ⟨Node.ofInt x, Node.ofInt y, Node.ofInt p⟩ →
      (m.isValid = true ↔ ((x < 0 ∧ y < 0) ∨ (0 ≤ x ∧ 0 ≤ y ∧ x ≠ y ∧ p ≠ x ∧ p ≠ y))) := by
    rintro m rfl
    unfold Node.isValid Node.isLeaf Node.isRoot
    dsimp only
    rcases lt_or_ge x 0 with hx | hx <;> rcases lt_or_ge y 0 with hy | hy <;> rcases lt_or_ge p 0 with hp | hp <;>
      simp only [hn x, hs x, hn y, hs y, hn p, hs p, hx, hy, hp] <;> simp <;> omega
  have e : nodeMake x y p = .ok n ↔ (⟨Node.ofInt x, Node.ofInt y, Node.ofInt p⟩ : Node).isValid = true ∧ n = ⟨Node.ofInt x, Node.ofInt y, Node.ofInt p⟩ := by
    unfold nodeMake Node.make
    dsimp only
    by_cases hv : (⟨Node.ofInt x, Node.ofInt y, Node.ofInt p⟩ : Node).isValid = true
    · rw [if_pos hv]
      dsimp only
      exact ⟨fun h => ⟨hv, (Except.ok.inj h).symm⟩, fun h => by rw [h.2]⟩
    · rw [if_neg hv]
      exact ⟨fun h => by simp at h, fun h => absurd h.1 hv⟩
  rw [e, valid _ rfl]
  have e2 : n = ⟨Node.ofInt x, Node.ofInt y, Node.ofInt p⟩ ↔ n.c0 = Node.ofInt x ∧ n.c1 = Node.ofInt y ∧ n.parent = Node.ofInt p := by
    cases n
    simp
  rw [e2, key, key, key]
  constructor
  · rintro ⟨h, ⟨a1, a2⟩, ⟨b1, b2⟩, c1, c2⟩
    exact ⟨h, a1, a2, b1, b2, c1, c2⟩
  · rintro ⟨h, a1, a2, b1, b2, c1, c2⟩
    exact ⟨h, ⟨a1, a2⟩, ⟨b1, b2⟩, c1, c2⟩

example : nodeMake 0 1 2 = .ok ⟨some 0, some 1, some 2⟩ ∧ nodeMake (-7) (-1) 0 = .ok ⟨none, none, some 0⟩ ∧ nodeMake 0 (-1) 2 = .error .invalidArgument ∧
    nodeMake 3 3 (-1) = .error .invalidArgument ∧ nodeMake 3 4 4 = .error .invalidArgument := ⟨rfl, rfl, rfl, rfl, rfl⟩

/-- C90: no other exception than `ValueError` (`invalidArgument`). -/
theorem C90_error (x y p : ℤ) (er : PyErr) (h : nodeMake x y p = .error er) : er = .invalidArgument := by
  unfold nodeMake at h
  split at h
  · exact (Except.error.inj h).symm
  · simp at h

/-- C90: what is not given is none: `Node()`, `Node(parent)` and `Node(children)` are `Node(children, parent)` with -1, and `Node(node)` is a copy. -/
theorem C90_overloads (x y p : ℤ) (n : Node) (hx : fitsIndex x = true) (hy : fitsIndex y = true) (hp : fitsIndex p = true) :
    nodeCall [] = nodeCall [.seq [-1, -1], .int (-1)] ∧ nodeCall [.int p] = nodeCall [.seq [-1, -1], .int p] ∧
      nodeCall [.seq [x, y]] = nodeCall [.seq [x, y], .int (-1)] ∧ nodeCall [.seq [x, y], .int p] = nodeMake x y p ∧ nodeCall [.node n] = .ok n := by
  have h1 : fitsIndex (-1) = true := by decide
  simp only [nodeCall, hx, hy, hp, h1, Bool.and_true, if_true, and_self]

example : fitsIndex 0 = true ∧ fitsIndex (2 ^ 63 - 1) = true ∧ fitsIndex (2 ^ 63) = false := by decide

private theorem stored (o : Option ℕ) : Node.ofInt (storedIndex o) = o := by
  cases o with
  | none => rfl
  | some a =>
    rw [show storedIndex (some a) = (a : ℤ) from rfl]
    unfold Node.ofInt
    rw [if_neg (by omega), Int.toNat_natCast]

private theorem make_valid {x y p : ℤ} {n : Node} (h : nodeMake x y p = .ok n) : n.isValid = true := by
  unfold nodeMake Node.make at h
  dsimp only at h
  by_cases hv : (⟨Node.ofInt x, Node.ofInt y, Node.ofInt p⟩ : Node).isValid = true
  · rw [if_pos hv] at h
    rw [← Except.ok.inj h]
    exact hv
  · rw [if_neg hv] at h
    simp at h

/-- The nodes that a program can have: made by a call, where nodes given are nodes it has. -/
inductive Made : Node → Prop
  | call {args : List NodeArg} {n : Node} (h : ∀ m, NodeArg.node m ∈ args → Made m) (hc : nodeCall args = .ok n) : Made n

/-- C90: every node that can be made is valid (`is_valid`), and pickling restores it. -/
theorem C90_pickle (n : Node) (h : Made n) : n.isValid = true ∧ Node.ofState n.state = .ok n := by
  have hv : n.isValid = true := by
    induction h with
    | call ha hc ih =>
      rename_i args n
      unfold nodeCall at hc
      split at hc
      · exact make_valid hc
      · split at hc
        · exact make_valid hc
        · simp at hc
      · split at hc
        · exact make_valid hc
        · simp at hc
      · split at hc
        · exact make_valid hc
        · simp at hc
      · rw [← Except.ok.inj hc]
        exact ih _ (by simp)
      · simp at hc
  refine ⟨hv, ?_⟩
  unfold Node.ofState Node.state nodeMake Node.make
  dsimp only
  rw [stored, stored, stored, if_pos hv]

example : Made ⟨some 0, some 1, some 2⟩ ∧ Made ⟨none, none, none⟩ :=
  ⟨.call (args := [.seq [0, 1], .int 2]) (by simp) rfl, .call (args := []) (by simp) rfl⟩

/-- C90: `ContractionTree` takes a node, or its children and parent as Python shows them (numbers or `None`), and gets the same node; also negative numbers
for none. -/
theorem C90_entry (n : Node) (h : n.isValid = true) (h0 : ∀ a, n.c0 = some a → a < 2 ^ 63) (h1 : ∀ a, n.c1 = some a → a < 2 ^ 63)
    (hp : ∀ a, n.parent = some a → a < 2 ^ 63) :
    getNode (.node n) = .ok n ∧ getNode (.items [n.c0.map Int.ofNat, n.c1.map Int.ofNat, n.parent.map Int.ofNat]) = .ok n ∧
      getNode (.items [some (storedIndex n.c0), some (storedIndex n.c1), some (storedIndex n.parent)]) = .ok n := by
  have e : ∀ o : Option ℕ, (o.map Int.ofNat).getD (-1) = storedIndex o := by
    intro o
    cases o <;> rfl
  have f : ∀ o : Option ℕ, (∀ a, o = some a → a < 2 ^ 63) → fitsIndex (storedIndex o) = true := by
    intro o ho
    cases o with
    | none => decide
    | some a =>
      have := ho a rfl
      rw [show storedIndex (some a) = (a : ℤ) from rfl]
      unfold fitsIndex
      rw [decide_eq_true_iff]
      omega
  have main : nodeCall [.seq [storedIndex n.c0, storedIndex n.c1], .int (storedIndex n.parent)] = .ok n := by
    rw [nodeCall, f _ h0, f _ h1, f _ hp]
    unfold nodeMake Node.make
    dsimp only
    rw [stored, stored, stored, if_pos h]
    rfl
  refine ⟨rfl, ?_, ?_⟩
  · rw [getNode, e, e, e]
    exact main
  · rw [getNode]
    exact main

example : getNode (.items [some 0, some 1, none]) = .ok ⟨some 0, some 1, none⟩ ∧ getNode (.items [none, some (-5), some 0]) = .ok ⟨none, none, some 0⟩ ∧
    getNode (.items [none, none]) = .error .valueError := ⟨rfl, rfl, rfl⟩

/-- C90: `Node` itself takes no `None`, so that what the properties of a leaf or of the root show cannot be given back to it; nor does it take
sequences of another length, numbers beyond the range, or three arguments: `TypeError`. -/
theorem C90_rejected (a b p : NodeArg) (l : List ℤ) (hl : l.length ≠ 2) (z : ℤ) (hz : fitsIndex z = false) :
    nodeCall [.other, p] = .error .typeError ∧ nodeCall [.seq [0, 1], .other] = .error .typeError ∧ nodeCall [.seq l] = .error .typeError ∧
      nodeCall [.seq l, p] = .error .typeError ∧ nodeCall [.int z] = .error .typeError ∧ nodeCall [a, b, p] = .error .typeError := by
  have h2 : ∀ x y, l ≠ [x, y] := fun x y h => hl (by rw [h]; rfl)
  refine ⟨rfl, rfl, ?_, ?_, ?_, ?_⟩
  · unfold nodeCall
    split <;> simp_all
  · unfold nodeCall
    split <;> simp_all
  · unfold nodeCall
    simp [hz]
  · unfold nodeCall
    split <;> simp_all

/-! ## `repr` -/

private theorem digit_char : ∀ d < 10, (Char.ofNat (48 + d)).toNat = 48 + d := by decide

theorem decChars_digit {n : ℕ} {c : Char} (h : c ∈ decChars n) : 48 ≤ c.toNat ∧ c.toNat < 58 := by
  unfold decChars at h
  split at h
  · rw [List.mem_singleton.1 h]
    decide
  · obtain ⟨d, hd, rfl⟩ := List.mem_map.1 h
    have := Nat.digits_lt_base (b := 10) (by norm_num) (List.mem_reverse.1 hd)
    rw [digit_char d this]
    omega

theorem decChars_value (n : ℕ) : Nat.ofDigits 10 ((decChars n).reverse.map fun c => c.toNat - 48) = n := by
  unfold decChars
  split
  · next h => rw [h]; decide
  · simp only [List.map_reverse, List.reverse_reverse, List.map_map]
    have : (Nat.digits 10 n).map ((fun c : Char => c.toNat - 48) ∘ fun d => Char.ofNat (48 + d)) = (Nat.digits 10 n).map id := by
      refine List.map_congr_left fun d hd => ?_
      have := Nat.digits_lt_base (b := 10) (by norm_num) hd
      rw [Function.comp_apply, digit_char d this, id]
      omega
    rw [this, List.map_id, Nat.ofDigits_digits]

private theorem posText_inj {o o' : Option ℕ} (h : posText o = posText o') : o = o' := by
  have hN : ∀ x, decChars x ≠ "None".toList := by
    intro x hx
    have : 'N' ∈ decChars x := by rw [hx]; decide
    have := (decChars_digit this).2
    revert this
    decide
  cases o with
  | none =>
    cases o' with
    | none => rfl
    | some y => exact absurd h.symm (hN y)
  | some x =>
    cases o' with
    | none => exact absurd h (hN x)
    | some y =>
      have h' : decChars x = decChars y := h
      rw [← decChars_value x, ← decChars_value y, h']

private theorem posText_plain {o : Option ℕ} {c : Char} (h : c ∈ posText o) : c ≠ ',' ∧ c ≠ ')' := by
  cases o with
  | none =>
    have h' : c ∈ "None".toList := h
    revert h'
    have : ∀ c ∈ "None".toList, c ≠ ',' ∧ c ≠ ')' := by decide
    exact this c
  | some x =>
    have := decChars_digit (show c ∈ decChars x from h)
    constructor
    · rintro rfl
      revert this
      decide
    · rintro rfl
      revert this
      decide

private theorem cut {a b s t : List Char} {c : Char} (ha : c ∉ a) (hb : c ∉ b) (h : a ++ c :: s = b ++ c :: t) : a = b ∧ s = t := by
  induction a generalizing b with
  | nil =>
    cases b with
    | nil => exact ⟨rfl, by simpa using h⟩
    | cons y b =>
      rw [List.nil_append, List.cons_append] at h
      exact absurd (List.cons.inj h).1 fun e => hb (by rw [e]; simp)
  | cons x a ih =>
    cases b with
    | nil =>
      rw [List.nil_append, List.cons_append] at h
      exact absurd (List.cons.inj h).1 fun e => ha (by rw [← e]; simp)
    | cons y b =>
      rw [List.cons_append, List.cons_append] at h
      obtain ⟨e1, e2⟩ := List.cons.inj h
      obtain ⟨e3, e4⟩ := ih (fun g => ha (List.mem_cons_of_mem _ g)) (fun g => hb (List.mem_cons_of_mem _ g)) e2
      exact ⟨by rw [e1, e3], e4⟩

/-- C90: `repr` shows everything: nodes with the same text are equal. -/
theorem C90_repr (m n : Node) : m.text = n.text ↔ m = n := by
  refine ⟨fun h => ?_, fun h => by rw [h]⟩
  have form : ∀ n : Node, n.text = "Node(parent=".toList ++ (posText n.parent ++ ',' :: (" children=(".toList ++ (posText n.c0 ++ ',' :: (' ' :: (posText n.c1 ++
      ')' :: [')']))))) := by
    intro n
    unfold Node.text
    simp only [List.append_assoc]
    rfl
  rw [form, form] at h
  have hc : ∀ o : Option ℕ, ',' ∉ posText o := fun o hm => (posText_plain hm).1 rfl
  have hp : ∀ o : Option ℕ, ')' ∉ posText o := fun o hm => (posText_plain hm).2 rfl
  obtain ⟨e1, h⟩ := cut (hc _) (hc _) (List.append_cancel_left h)
  obtain ⟨e2, h⟩ := cut (hc _) (hc _) (List.append_cancel_left h)
  obtain ⟨e3, -⟩ := cut (hp _) (hp _) (List.cons.inj h).2
  cases m
  cases n
  simp only [Node.mk.injEq]
  exact ⟨posText_inj e2, posText_inj e3, posText_inj e1⟩

example : (⟨some 10, some 0, none⟩ : Node).text = "Node(parent=None, children=(10, 0))".toList := by
  decide +kernel

end TNCO
