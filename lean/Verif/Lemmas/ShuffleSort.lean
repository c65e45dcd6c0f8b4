import Verif.Lemmas.Shuffle
import Mathlib.Data.List.Sort
import Mathlib.Data.Prod.Lex
import Mathlib.Order.WithBot
import Mathlib.Logic.Equiv.Basic

namespace TNCO

/-! ## All choices -/

theorem mem_allChoices : ∀ k i cs, cs ∈ allChoices i k ↔ cs.length = k ∧ ChoicesOk i cs := by
  intro k
  induction k with
  | zero =>
    intro i cs
    rw [allChoices, List.mem_singleton]
    constructor
    · rintro rfl; exact ⟨rfl, trivial⟩
    · exact fun h => List.length_eq_zero_iff.1 h.1
  | succ k ih =>
    intro i cs
    rw [allChoices]
    simp only [List.mem_flatMap, List.mem_range, List.mem_map, ih]
    constructor
    · rintro ⟨c, hc, ds, ⟨h1, h2⟩, rfl⟩
      exact ⟨by rw [List.length_cons, h1], ⟨by omega, h2⟩⟩
    · rintro ⟨h1, h2⟩
      cases cs with
      | nil => cases h1
      | cons c cs =>
        rw [ChoicesOk] at h2
        exact ⟨c, by omega, cs, ⟨by simpa using h1, h2.2⟩, rfl⟩

theorem allChoices_nodup : ∀ k i, (allChoices i k).Nodup := by
  intro k
  induction k with
  | zero => intro i; rw [allChoices]; simp
  | succ k ih =>
    intro i
    rw [allChoices, List.nodup_flatMap]
    refine ⟨fun c _ => (ih _).map fun a b h => (List.cons.inj h).2, ?_⟩
    refine (List.nodup_range (n := i + 1)).imp fun {c d} hcd => ?_
    rw [Function.onFun, List.disjoint_left]
    intro cs h1 h2
    obtain ⟨_, _, rfl⟩ := List.mem_map.1 h1
    obtain ⟨_, _, h⟩ := List.mem_map.1 h2
    exact hcd (List.cons.inj h).1.symm

theorem choices_permutations {l : List ℕ} (hn : l.Nodup) :
    ((allChoices 1 (l.length - 1)).map fun cs => arrange 1 cs l).Perm l.permutations := by
  refine (List.perm_ext_iff_of_nodup ?_ (List.nodup_permutations _ hn)).2 fun l' => ?_
  · refine (allChoices_nodup _ _).map_on fun cs h1 ds h2 h => ?_
    rw [mem_allChoices] at h1 h2
    have hp : (arrange 1 ds l).Perm l := by
      cases l with
      | nil => rw [List.length_eq_zero_iff.1 h2.1, arrange]
      | cons a t => exact arrange_perm _ _ _ h2.2 (by rw [h2.1, List.length_cons]; omega)
    exact (arrange_unique hn hp).unique ⟨h1, h⟩ ⟨h2, rfl⟩
  · rw [List.mem_map, List.mem_permutations]
    constructor
    · rintro ⟨cs, h, rfl⟩
      rw [mem_allChoices] at h
      cases l with
      | nil => rw [List.length_eq_zero_iff.1 h.1, arrange]
      | cons a t => exact arrange_perm _ _ _ h.2 (by rw [h.1, List.length_cons]; omega)
    · intro hp
      obtain ⟨cs, ⟨h1, h2⟩, -⟩ := arrange_unique hn hp
      exact ⟨cs, (mem_allChoices _ _ _).2 h1, h2⟩

/-! ## Sorting -/

section
variable {W : Type} [LinearOrder W]

/-- What `greater` looks at. -/
def sliceKey (wm : WidthModel W) (big : ℕ → ℕ) (x : ℕ) : ℕ ×ₗ WithBot W := toLex (big x, if wm.scalar then ⊥ else (wm.log2d x : WithBot W))

theorem sliceGreater_key (wm : WidthModel W) (big : ℕ → ℕ) (x y : ℕ) :
    sliceGreater wm big x y = decide (sliceKey wm big y < sliceKey wm big x) := by
  rw [Bool.eq_iff_iff, decide_eq_true_eq]
  unfold sliceGreater sliceKey
  rw [Prod.Lex.toLex_lt_toLex]
  dsimp only
  split
  · simp
  · split
    · next h => simp [h]
    · next h =>
      rw [decide_eq_true_eq]
      constructor
      · exact Or.inl
      · rintro (h1 | ⟨h1, -⟩)
        · exact h1
        · exact absurd h1.symm h

theorem sortSlices_perm (wm : WidthModel W) (big : ℕ → ℕ) (l : List ℕ) : (sliceSort wm big l).Perm l := List.perm_insertionSort _ _

theorem sliceSort_sorted (wm : WidthModel W) (big : ℕ → ℕ) (l : List ℕ) :
    (sliceSort wm big l).Pairwise fun x y => sliceKey wm big y ≤ sliceKey wm big x := by
  have e : ∀ a b, (sliceGreater wm big b a = false) ↔ sliceKey wm big b ≤ sliceKey wm big a := by
    intro a b
    rw [sliceGreater_key, decide_eq_false_iff_not, not_lt]
  unfold sliceSort
  have : Std.Total fun a b => sliceGreater wm big b a = false := ⟨fun a b => by rw [e, e]; exact le_total _ _⟩
  have : IsTrans ℕ fun a b => sliceGreater wm big b a = false := ⟨fun a b c h1 h2 => by rw [e] at *; exact le_trans h2 h1⟩
  have := List.pairwise_insertionSort (r := fun a b => sliceGreater wm big b a = false) l
  exact this.imp fun {a b} h => (e a b).1 h

theorem sliceSort_of_sorted (wm : WidthModel W) (big : ℕ → ℕ) {l : List ℕ} (h : l.Pairwise fun x y => sliceKey wm big y ≤ sliceKey wm big x) :
    sliceSort wm big l = l := by
  unfold sliceSort
  refine List.Pairwise.insertionSort_eq (h.imp fun {a b} h => ?_)
  rw [sliceGreater_key, decide_eq_false_iff_not, not_lt]
  exact h

theorem sliceSort_map (wm : WidthModel W) (big : ℕ → ℕ) (π : ℕ → ℕ) (l : List ℕ)
    (h : ∀ x ∈ l, sliceKey wm big (π x) = sliceKey wm big x) : (sliceSort wm big l).map π = sliceSort wm big (l.map π) := by
  unfold sliceSort
  refine List.map_insertionSort _ _ π l fun a ha b hb => ?_
  rw [sliceGreater_key, sliceGreater_key, h a ha, h b hb]

/-- New names for indices of the same rank do not change how often something happens. -/
theorem relabel_count (wm : WidthModel W) (big : ℕ → ℕ) (π : ℕ → ℕ) (xs : List ℕ) (hp : (xs.map π).Perm xs)
    (h : ∀ x ∈ xs, sliceKey wm big (π x) = sliceKey wm big x) (P : List ℕ → Bool) :
    xs.permutations.countP (fun l => P (sliceSort wm big l)) = xs.permutations.countP (fun l => P ((sliceSort wm big l).map π)) := by
  have e1 : xs.permutations.countP (fun l => P ((sliceSort wm big l).map π)) =
      xs.permutations.countP ((fun l => P (sliceSort wm big l)) ∘ List.map π) := by
    refine List.countP_congr fun l hl => ?_
    rw [List.mem_permutations] at hl
    rw [Function.comp, sliceSort_map wm big π l fun x hx => h x (hl.mem_iff.1 hx)]
  rw [e1, ← List.countP_map, List.map_permutations]
  exact (hp.permutations.countP_eq _).symm

theorem keys_eq (wm : WidthModel W) (big : ℕ → ℕ) {a b : List ℕ} (hab : a.Perm b)
    (ha : a.Pairwise fun x y => sliceKey wm big y ≤ sliceKey wm big x) (hb : b.Pairwise fun x y => sliceKey wm big y ≤ sliceKey wm big x) :
    a.map (sliceKey wm big) = b.map (sliceKey wm big) := by
  have h1 : (a.map (sliceKey wm big)).Pairwise (fun x y => y ≤ x) := List.pairwise_map.2 ha
  have h2 : (b.map (sliceKey wm big)).Pairwise (fun x y => y ≤ x) := List.pairwise_map.2 hb
  exact List.Perm.eq_of_pairwise (fun _ _ _ _ x y => le_antisymm y x) h1 h2 (hab.map _)

/-- Two sorted orders are equally frequent. -/
theorem sorted_count (wm : WidthModel W) (big : ℕ → ℕ) {xs a b : List ℕ} (hn : xs.Nodup) (ha : a.Perm xs) (hb : b.Perm xs)
    (sa : sliceSort wm big a = a) (sb : sliceSort wm big b = b) :
    xs.permutations.countP (fun l => sliceSort wm big l = a) = xs.permutations.countP (fun l => sliceSort wm big l = b) := by
  have hk := keys_eq wm big (ha.trans hb.symm) (sa ▸ sliceSort_sorted wm big a) (sb ▸ sliceSort_sorted wm big b)
  have na : a.Nodup := ha.nodup_iff.2 hn
  have hl : a.length = b.length := (ha.trans hb.symm).length_eq
  have hmap : a.map (fun v => b.getD (a.idxOf v) 0) = b := by
    refine List.ext_getElem (by simp [hl]) fun i h1 h2 => ?_
    rw [List.getElem_map, List.Nodup.idxOf_getElem na, List.getD_eq_getElem _ _ h2]
  have key : ∀ x ∈ xs, sliceKey wm big (b.getD (a.idxOf x) 0) = sliceKey wm big x := by
    intro x hx
    have hxa := ha.mem_iff.2 hx
    have hi := List.idxOf_lt_length_iff.2 hxa
    have := congrArg (fun l => l[a.idxOf x]?) hk
    simp only [List.getElem?_map, List.getElem?_eq_getElem hi, List.getElem?_eq_getElem (hl ▸ hi), Option.map_some, Option.some.injEq] at this
    rw [List.getElem_idxOf] at this
    rw [List.getD_eq_getElem _ _ (hl ▸ hi)]
    exact this.symm
  have := relabel_count wm big (fun v => b.getD (a.idxOf v) 0) xs
    (((ha.map _).symm.trans (List.Perm.of_eq hmap)).trans hb) key (fun l => l = b)
  rw [this]
  refine List.countP_congr fun l hl' => ?_
  rw [List.mem_permutations] at hl'
  rw [decide_eq_true_eq, decide_eq_true_eq]
  constructor
  · intro h; rw [h]; exact hmap
  · intro h
    have hp := (sortSlices_perm wm big l).trans (hl'.trans ha.symm)
    replace h := h.trans hmap.symm
    have hinj := List.inj_on_of_nodup_map (show (a.map (fun v => b.getD (a.idxOf v) 0)).Nodup by rw [hmap]; exact hb.nodup_iff.2 hn)
    refine List.ext_getElem hp.length_eq fun i h1 h2 => ?_
    have e := congrArg (fun l => l[i]?) h
    simp only [List.getElem?_map, List.getElem?_eq_getElem h1, List.getElem?_eq_getElem h2, Option.map_some, Option.some.injEq] at e
    exact hinj (hp.mem_iff.1 (List.getElem_mem _)) (List.getElem_mem _) e

/-- Two indices of the same rank are equally often among the first. -/
theorem first_count (wm : WidthModel W) (big : ℕ → ℕ) {xs : List ℕ} {x y : ℕ} (hn : xs.Nodup) (hx : x ∈ xs) (hy : y ∈ xs)
    (hk : sliceKey wm big x = sliceKey wm big y) (m : ℕ) :
    xs.permutations.countP (fun l => x ∈ (sliceSort wm big l).take m) = xs.permutations.countP (fun l => y ∈ (sliceSort wm big l).take m) := by
  have hp : (xs.map (Equiv.swap x y)).Perm xs := by
    refine (List.perm_ext_iff_of_nodup (hn.map (Equiv.swap x y).injective) hn).2 fun v => ?_
    rw [List.mem_map]
    constructor
    · rintro ⟨u, hu, rfl⟩
      rw [Equiv.swap_apply_def]
      split_ifs <;> assumption
    · intro hv
      refine ⟨Equiv.swap x y v, ?_, Equiv.swap_apply_self x y v⟩
      rw [Equiv.swap_apply_def]
      split_ifs <;> assumption
  rw [relabel_count wm big (Equiv.swap x y) xs hp (fun v _ => by
    rw [Equiv.swap_apply_def]
    split_ifs with h1 h2
    · rw [h1, hk]
    · rw [h2, hk]
    · rfl) (fun l => x ∈ l.take m)]
  refine List.countP_congr fun l _ => ?_
  rw [decide_eq_true_eq, decide_eq_true_eq, ← List.map_take, List.mem_map]
  constructor
  · rintro ⟨u, hu, he⟩
    have : u = y := by
      rw [← Equiv.swap_apply_self x y u, he, Equiv.swap_apply_left]
    rwa [this] at hu
  · exact fun h => ⟨y, h, Equiv.swap_apply_right x y⟩

end

end TNCO
