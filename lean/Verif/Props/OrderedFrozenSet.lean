import Verif.Lemmas.Unique
import Mathlib.Data.Finset.SymmDiff
import Mathlib.Data.List.Nodup
import Mathlib.Data.Finset.Card

/-!
# Properties C03, C04: `OrderedFrozenSet`
-/

namespace TNCO
variable {α : Type} [DecidableEq α]

/-- Specification: the elements of `l` at the positions where they occur for the first time. -/
def firstOccurrences (l : List α) : List α :=
  (List.range l.length).filterMap fun i =>
    match l[i]? with
    | some x => if x ∈ l.take i then none else some x
    | none => none

theorem firstOccurrences_append_one (l : List α) (x : α) :
    firstOccurrences (l ++ [x]) = firstOccurrences l ++ (if x ∈ l then [] else [x]) := by
  unfold firstOccurrences
  rw [List.length_append, List.length_singleton, List.range_succ, List.filterMap_append]
  congr 1
  · refine List.filterMap_congr fun i hi => ?_
    rw [List.mem_range] at hi
    rw [List.getElem?_append_left hi, List.take_append_of_le_length hi.le]
  · by_cases hx : x ∈ l <;> simp [hx]

theorem uniqueEverseen_eq (l : List α) : uniqueEverseen l = firstOccurrences l := by
  induction l using List.reverseRecOn with
  | nil => rfl
  | append_singleton l x ih =>
    rw [firstOccurrences_append_one, ← ih]
    unfold uniqueEverseen
    rw [uniqueLoop_append]
    by_cases hx : x ∈ l <;> simp [uniqueLoop, hx]

/-- C03: iteration yields the distinct elements of the input, each once, in the order of their
first occurrence; `len` counts them and membership is membership in the input. -/
theorem C03_iteration (l : List α) :
    (OFS.make l).iter = firstOccurrences l ∧ (OFS.make l).iter.Nodup ∧
    (∀ x, x ∈ (OFS.make l).iter ↔ x ∈ l) ∧ (OFS.make l).set = l.toFinset ∧
    (OFS.make l).len = l.toFinset.card ∧ (OFS.make l).copy.iter = (OFS.make l).iter := by
  have hn : (OFS.make l).iter.Nodup := uniqueLoop_nodup _ _
  have hm : ∀ x, x ∈ (OFS.make l).iter ↔ x ∈ l := by
    intro x
    show x ∈ uniqueLoop [] l ↔ _
    rw [uniqueLoop_mem]; simp
  have hs : (OFS.make l).set = l.toFinset := by
    ext x
    rw [OFS.set, List.mem_toFinset, List.mem_toFinset]
    exact hm x
  refine ⟨uniqueEverseen_eq l, hn, hm, hs, ?_, uniqueEverseen_of_nodup hn⟩
  rw [← hs]
  exact (List.toFinset_card_of_nodup hn).symm

/-- C03: the results of the operations as sequences: elements of the left operand in its order,
then (for union and symmetric difference) the new elements of the right operand in order of
first occurrence. `a` and `b` are arbitrary input sequences. -/
theorem C03_operations_order (a b : List α) :
    ((OFS.make a).union b).iter =
      firstOccurrences a ++ (firstOccurrences b).filter (· ∉ a) ∧
    ((OFS.make a).intersection b).iter = (firstOccurrences a).filter (· ∈ b) ∧
    ((OFS.make a).difference b).iter = (firstOccurrences a).filter (· ∉ b) ∧
    ((OFS.make a).symmetricDifference b).iter =
      (firstOccurrences a).filter (· ∉ b) ++ (firstOccurrences b).filter (· ∉ a) := by
  obtain ⟨ea, na, ma, sa, -⟩ := C03_iteration a
  obtain ⟨eb, nb, mb, sb, -⟩ := C03_iteration b
  have fa : (OFS.make a).order = firstOccurrences a := ea
  have fb : (OFS.make b).order = firstOccurrences b := eb
  rw [ea] at na ma
  rw [eb] at nb mb
  have hfilter : ∀ (l seen : List α), l.Nodup → uniqueLoop seen l = l.filter (· ∉ seen) := by
    intro l
    induction l with
    | nil => intros; rfl
    | cons x l ih =>
      intro seen h
      unfold uniqueLoop
      have hx := (List.nodup_cons.1 h).1
      by_cases hs : x ∈ seen
      · rw [if_pos hs, ih _ h.of_cons, List.filter_cons_of_neg (by simpa using hs)]
      · rw [if_neg hs, ih _ h.of_cons, List.filter_cons_of_pos (by simpa using hs)]
        congr 1
        refine List.filter_congr fun y hy => ?_
        have : y ≠ x := fun e => hx (e ▸ hy)
        simp [this]
  refine ⟨?_, ?_, ?_, ?_⟩
  · show uniqueLoop [] ((OFS.make a).order ++ (OFS.make b).order) = _
    rw [fa, fb, uniqueLoop_append, hfilter _ _ na, hfilter _ _ nb]
    congr 1
    · simp
    · refine List.filter_congr fun y _ => ?_
      simp [ma]
  · show uniqueLoop [] ((OFS.make a).order.filter _) = _
    rw [fa, hfilter _ _ (na.filter _), List.filter_filter]
    refine List.filter_congr fun y _ => ?_
    simp [sb]
  · show uniqueLoop [] ((OFS.make a).order.filter _) = _
    rw [fa, hfilter _ _ (na.filter _), List.filter_filter]
    refine List.filter_congr fun y _ => ?_
    simp [sb]
  · show uniqueLoop [] (((OFS.make a).order ++ (OFS.make b).order).filter _) = _
    rw [fa, fb, sa, sb, hfilter]
    · rw [List.filter_filter, List.filter_append]
      congr 1
      · refine List.filter_congr fun y hy => ?_
        have := (ma y).1 hy
        simp [this]
      · refine List.filter_congr fun y hy => ?_
        have := (mb y).1 hy
        simp [this]
    · rw [List.filter_append]
      refine List.Nodup.append (na.filter _) (nb.filter _) ?_
      intro x h1 h2
      simp only [List.mem_filter, ma, mb] at h1 h2
      obtain ⟨p, q⟩ := h1
      simp [p, h2.1] at q

/-- C03: the operators agree with the operations on mathematical sets, for any kind of right
operand; other types are rejected. -/
theorem C03_operators (a b : List α) (s : OFS.Operand α) (hs : s = .ofs (OFS.make b) ∨ s = .set b) :
    (∃ r, (OFS.make a).or s = some r ∧ r.set = a.toFinset ∪ b.toFinset) ∧
    (∃ r, (OFS.make a).and s = some r ∧ r.set = a.toFinset ∩ b.toFinset) ∧
    (∃ r, (OFS.make a).sub s = some r ∧ r.set = a.toFinset \ b.toFinset) ∧
    (∃ r, (OFS.make a).xor s = some r ∧
      r.set = symmDiff a.toFinset b.toFinset) ∧
    (OFS.make a).lt s = some (decide (a.toFinset ⊂ b.toFinset)) ∧
    (OFS.make a).le s = some (decide (a.toFinset ⊆ b.toFinset)) ∧
    (OFS.make a).gt s = some (decide (b.toFinset ⊂ a.toFinset)) ∧
    (OFS.make a).ge s = some (decide (b.toFinset ⊆ a.toFinset)) ∧
    (OFS.make a).eq s = some (decide (a.toFinset = b.toFinset)) ∧
    ((OFS.make a).isdisjoint b = true ↔ Disjoint a.toFinset b.toFinset) ∧
    ((OFS.make a).issubset b = true ↔ a.toFinset ⊆ b.toFinset) ∧
    ((OFS.make a).issuperset b = true ↔ b.toFinset ⊆ a.toFinset) := by
  have sa := (C03_iteration a).2.2.2.1
  have setOf : ∀ (l l' : List α), (OFS.make l).iter = l' → (OFS.make l).set = l'.toFinset := by
    intro l l' h; rw [← h]; rfl
  -- the right operand reaches the method as a list with the same elements
  obtain ⟨b', hb', hu⟩ : ∃ b' : List α, b'.toFinset = b.toFinset ∧
      ∀ f, OFS.binop f (OFS.make a) s = some (f (OFS.make a) b') := by
    rcases hs with rfl | rfl
    · exact ⟨(OFS.make b).iter, (C03_iteration b).2.2.2.1, fun f => rfl⟩
    · exact ⟨b, rfl, fun f => rfl⟩
  have hc : ∀ r, OFS.cmp r (OFS.make a) s = some (r a.toFinset b.toFinset) := by
    intro r
    rcases hs with rfl | rfl
    · simp only [OFS.cmp, sa, (C03_iteration b).2.2.2.1]
    · simp only [OFS.cmp, sa]
  have mb : ∀ x, x ∈ b' ↔ x ∈ b := fun x => by
    rw [← List.mem_toFinset, hb', List.mem_toFinset]
  have mfa : ∀ x, x ∈ firstOccurrences a ↔ x ∈ a := fun x => by
    rw [← (C03_iteration a).1]; exact (C03_iteration a).2.2.1 x
  have mfb : ∀ x, x ∈ firstOccurrences b' ↔ x ∈ b := fun x => by
    rw [← (C03_iteration b').1, (C03_iteration b').2.2.1 x, mb]
  obtain ⟨o1, o2, o3, o4⟩ := C03_operations_order a b'
  have toSet : ∀ (r : OFS α) l, r.iter = l → r.set = l.toFinset := by
    intro r l h; rw [← h]; rfl
  refine ⟨⟨_, hu _, ?_⟩, ⟨_, hu _, ?_⟩, ⟨_, hu _, ?_⟩, ⟨_, hu _, ?_⟩, hc _, hc _, hc _, hc _, hc _, ?_, ?_, ?_⟩
  · rw [toSet _ _ o1]; ext x; simp [mfa, mfb]; tauto
  · rw [toSet _ _ o2]; ext x; simp [mfa, mb]
  · rw [toSet _ _ o3]; ext x; simp [mfa, mb]
  · rw [toSet _ _ o4]; ext x; simp [mfa, mfb, mb, Finset.mem_symmDiff]
  · simp only [OFS.isdisjoint, sa, List.all_eq_true, decide_eq_true_eq, Finset.disjoint_right,
      List.mem_toFinset]
  · simp [OFS.issubset, sa]
  · simp [OFS.issuperset, sa]

/-- C03: operands that are not sets are a `TypeError`. -/
theorem C03_type_error (s : OFS α) :
    s.or .other = none ∧ s.and .other = none ∧ s.xor .other = none ∧ s.sub .other = none ∧ s.lt .other = none ∧ s.le .other = none ∧
      s.gt .other = none ∧ s.ge .other = none ∧ s.eq .other = none := ⟨rfl, rfl, rfl, rfl, rfl, rfl, rfl, rfl, rfl⟩

example : (OFS.make [3, 1, 2, 1]).iter = [3, 1, 2] ∧
    ((OFS.make [3, 1, 2, 1]).symmetricDifference [4, 1, 5, 4]).iter = [3, 2, 4, 5] := by decide

/-- **C04 is violated**: two equal sets built in a different order have different hashes for
every injective (collision-free) hash of tuples. -/
theorem C04_violated {H : Type} (h : List ℕ → H) (hinj : Function.Injective h) :
    (OFS.make [1, 2]).eq (.ofs (OFS.make [2, 1])) = some true ∧
    (OFS.make [1, 2]).hash h ≠ (OFS.make [2, 1]).hash h := by
  refine ⟨by decide, fun e => ?_⟩
  have := hinj e
  revert this
  decide

/-- C04 (partial): sets with the same iteration order (in particular copies) compare equal and
have equal hashes, for every hash function. Missing: equal sets with different insertion order
(see the witness). -/
theorem C04_hash_partial {H : Type} (h : List α → H) (a b : List α)
    (ho : (OFS.make a).iter = (OFS.make b).iter) :
    (OFS.make a).eq (.ofs (OFS.make b)) = some true ∧
    (OFS.make a).hash h = (OFS.make b).hash h := by
  have : OFS.make a = OFS.make b := congrArg OFS.mk ho
  rw [this]
  exact ⟨by simp [OFS.eq, OFS.cmp], rfl⟩

example : (OFS.make [3, 1, 3, 2]).iter = (OFS.make [3, 1, 2, 1]).iter := by decide
/-- Collision-free hashes exist. -/
example : Function.Injective (id : List ℕ → List ℕ) := Function.injective_id

end TNCO
