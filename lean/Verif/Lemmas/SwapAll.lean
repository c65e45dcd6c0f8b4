import Verif.Lemmas.SwapRun
import Verif.Lemmas.TreeCheckMain
import Verif.Props.Tree

/-! Helper lemmas: `swap_with_nn` at every position of a tree with three or more leaves never gives back the tree. -/

namespace TNCO
open PTree

/-- The parent of a node, and whether it is the second child; the root is below the position after the last. -/
def Tree.slot (T : Tree) (x : ℕ) : ℕ × Bool :=
  match (T.nodes x).parent with
  | none => (T.size, false)
  | some p => (p, !((T.nodes p).c0 == some x))

theorem slot_root {T : Tree} {x : ℕ} (h : (T.nodes x).parent = none) : T.slot x = (T.size, false) := by
  simp only [Tree.slot, h]

theorem slot_some {T : Tree} {x p : ℕ} (h : (T.nodes x).parent = some p) : T.slot x = (p, !((T.nodes p).c0 == some x)) := by
  simp only [Tree.slot, h]

theorem slot_fst {T : Tree} (hl : Linked T) {x p : ℕ} (hp : p < T.size) :
    (T.slot x).1 = p ↔ (T.nodes x).parent = some p := by
  unfold Tree.slot
  cases h : (T.nodes x).parent with
  | none => simp; omega
  | some q => simp

theorem slot_inj {T : Tree} (hl : Linked T) {x y : ℕ} (hx : x < T.size) (hy : y < T.size) (h : T.slot x = T.slot y) : x = y := by
  cases h1 : (T.nodes x).parent with
  | none =>
    have hxr := (hl.root x hx).1 h1
    cases h2 : (T.nodes y).parent with
    | none => have := (hl.root y hy).1 h2; omega
    | some q =>
      rw [slot_root h1, slot_some h2] at h
      have := (hl.parent y hy q h2).1
      have := congrArg Prod.fst h
      simp only at this
      omega
  | some p =>
    obtain ⟨hp, hp'⟩ := hl.parent x hx p h1
    cases h2 : (T.nodes y).parent with
    | none =>
      rw [slot_root h2, slot_some h1] at h
      have := congrArg Prod.fst h
      simp only at this
      omega
    | some q =>
      obtain ⟨hq, hq'⟩ := hl.parent y hy q h2
      rw [slot_some h1, slot_some h2] at h
      have e1 : p = q := congrArg Prod.fst h
      have e2 := congrArg Prod.snd h
      subst e1
      simp only [Bool.not_eq_eq_eq_not, Bool.not_not] at e2
      by_cases h3 : (T.nodes p).c0 = some x
      · rw [h3] at e2
        simp only [beq_self_eq_true] at e2
        have := beq_iff_eq.1 e2.symm
        simpa using this
      · have h4 : (T.nodes p).c0 ≠ some y := by
          intro h5
          rw [h5] at e2 h3
          simp only [beq_self_eq_true, beq_iff_eq] at e2
          exact h3 e2
        have h5 := hp'.resolve_left h3
        have h6 := hq'.resolve_left h4
        rw [h5] at h6
        simpa using h6

/-- The effect of a swap on the slots. -/
theorem slot_swap {T : Tree} (h : IsTree T) {E B A C : ℕ} (hE : E < T.size) (hB : (T.nodes E).parent = some B)
    (hA : (T.nodes B).parent = some A) (hC : T.IsChild C A) (hCB : C ≠ B) :
    (T.swapWithNN E).slot E = T.slot C ∧ (T.swapWithNN E).slot C = T.slot E ∧
      ∀ x, x < T.size → x ≠ E → x ≠ C → (T.swapWithNN E).slot x = T.slot x := by
  obtain ⟨t, ht⟩ := h
  have hl := ht.linked
  have hsz := (C06_swap_keeps_tree T ⟨t, ht⟩ E).2
  obtain ⟨e1, e2, e3, e4, e5⟩ := C06_swap_exchanges T ⟨t, ht⟩ E B A C hE hB hA hC hCB
  obtain ⟨hBs, hEB⟩ := hl.parent E hE B hB
  obtain ⟨hAs, hBA⟩ := hl.parent B hBs A hA
  have hCs : C < T.size ∧ (T.nodes C).parent = some A := by
    rcases hC with hC | hC
    · exact hl.child0 A hAs C hC
    · exact hl.child1 A hAs C hC
  obtain ⟨hCs, hCA⟩ := hCs
  have hrank := (IsTree.facts ⟨t, ht⟩).2.2.2
  obtain ⟨rank, hrank⟩ := hrank
  have r1 := hrank B hBs E hEB
  have r2 := hrank A hAs B hBA
  have r3 := hrank A hAs C hC
  have hAB : A ≠ B := by rintro rfl; omega
  have hAC : A ≠ C := by rintro rfl; omega
  have hAE : A ≠ E := by rintro rfl; omega
  have hBE : B ≠ E := by rintro rfl; omega
  have hCE : C ≠ E := by
    rintro rfl
    rw [hCA] at hB
    exact hAB (by simpa using hB)
  have pA : ((T.swapWithNN E).nodes A).parent = (T.nodes A).parent := by
    rw [e3]; unfold Node.substChild; simp
  have pB : ((T.swapWithNN E).nodes B).parent = (T.nodes B).parent := by
    rw [e4]; unfold Node.substChild; simp
  refine ⟨?_, ?_, ?_⟩
  · rw [slot_some (p := A) (by rw [e1]), slot_some hCA, e3]
    unfold Node.substChild
    simp only [Prod.mk.injEq, true_and]
    by_cases h1 : (T.nodes A).c0 = some C
    · simp [h1]
    · have h2 := hC.resolve_left h1
      have h3 : (T.nodes A).c0 ≠ some E := by
        intro h3
        have := (hl.child0 A hAs E h3).2
        rw [hB] at this
        exact hAB (by simpa using this.symm)
      simp [h1, h3]
  · rw [slot_some (p := B) (by rw [e2]), slot_some hB, e4]
    unfold Node.substChild
    simp only [Prod.mk.injEq, true_and]
    by_cases h1 : (T.nodes B).c0 = some E
    · simp [h1]
    · have h2 := hEB.resolve_left h1
      have h3 : (T.nodes B).c0 ≠ some C := by
        intro h3
        have := (hl.child0 B hBs C h3).2
        rw [hCA] at this
        exact hAB (by simpa using this)
      simp [h1, h3]
  · intro x hx hxE hxC
    have hpar : ((T.swapWithNN E).nodes x).parent = (T.nodes x).parent := by
      by_cases h1 : x = A
      · rw [h1]; exact pA
      by_cases h2 : x = B
      · rw [h2]; exact pB
      rw [e5 x h1 h2 hxC hxE]
    cases hp : (T.nodes x).parent with
    | none => rw [slot_root hp, slot_root (hpar.trans hp), hsz]
    | some q =>
      rw [slot_some hp, slot_some (hpar.trans hp)]
      have : (((T.swapWithNN E).nodes q).c0 == some x) = ((T.nodes q).c0 == some x) := by
        by_cases h1 : q = A
        · subst h1
          rw [e3]; unfold Node.substChild
          by_cases h4 : (T.nodes q).c0 = some C
          · simp [h4, Ne.symm hxE, Ne.symm hxC]
          · simp [h4]
        by_cases h2 : q = B
        · subst h2
          rw [e4]; unfold Node.substChild
          by_cases h4 : (T.nodes q).c0 = some E
          · simp [h4, Ne.symm hxE, Ne.symm hxC]
          · simp [h4]
        by_cases h3 : q = C
        · subst h3; rw [e2]
        by_cases h4 : q = E
        · subst h4; rw [e1]
        rw [e5 q h1 h2 h3 h4]
      rw [this]

/-- The trees during the loop. -/
def swapTo (T : Tree) (t : ℕ) : Tree := (List.range t).foldl Tree.swapWithNN T

theorem swapTo_succ (T : Tree) (t : ℕ) : swapTo T (t + 1) = (swapTo T t).swapWithNN t := by
  unfold swapTo
  rw [List.range_succ, List.foldl_append]
  rfl

theorem swapTo_ok {T : Tree} (h : IsTree T) (t : ℕ) : IsTree (swapTo T t) ∧ (swapTo T t).size = T.size := by
  induction t with
  | zero => exact ⟨h, rfl⟩
  | succ t ih =>
    rw [swapTo_succ]
    have := C06_swap_keeps_tree _ ih.1 t
    exact ⟨this.1, this.2.trans ih.2⟩

/-- The sibling of `B`. -/
def Tree.other (T : Tree) (B : ℕ) : ℕ :=
  match (T.nodes B).parent with
  | none => 0
  | some A => (if (T.nodes A).c0 == some B then (T.nodes A).c1 else (T.nodes A).c0).getD 0

theorem other_spec {T : Tree} (hl : Linked T) {A B : ℕ} (hB : B < T.size) (hA : (T.nodes B).parent = some A) :
    T.IsChild (T.other B) A ∧ T.other B ≠ B ∧ T.other B < T.size ∧ (T.nodes (T.other B)).parent = some A := by
  obtain ⟨hAs, hBA⟩ := hl.parent B hB A hA
  have key : T.IsChild (T.other B) A ∧ T.other B ≠ B := by
    simp only [Tree.other, hA]
    rcases hBA with h | h
    · rw [if_pos (by rw [h]; simp)]
      cases h1 : (T.nodes A).c1 with
      | none =>
        rw [hl.leaf1 A hAs, ← hl.leaf0 A hAs, h] at h1
        simp at h1
      | some C =>
        refine ⟨.inr h1, ?_⟩
        rintro rfl
        exact hl.distinct A hAs _ h h1
    · cases h1 : (T.nodes A).c0 with
      | none =>
        rw [hl.leaf0 A hAs, ← hl.leaf1 A hAs, h] at h1
        simp at h1
      | some C =>
        have hne : C ≠ B := by rintro rfl; exact hl.distinct A hAs _ h1 h
        rw [if_neg (by simpa using hne)]
        exact ⟨.inl h1, hne⟩
  refine ⟨key.1, key.2, ?_⟩
  rcases key.1 with h | h
  · exact hl.child0 A hAs _ h
  · exact hl.child1 A hAs _ h

theorem swapRun {T : Tree} (h : IsTree T) (h3 : 3 ≤ T.nLeaves) :
    SwapRun T.nLeaves T.size (T.size - 1) (fun t => (swapTo T t).slot)
      (fun t => t < T.size ∧ t ≠ T.size - 1 ∧ ((swapTo T t).slot t).1 ≠ T.size - 1)
      (fun t => (swapTo T t).other ((swapTo T t).slot t).1) := by
  have hlt : ∀ t, Linked (swapTo T t) := fun t => by
    obtain ⟨u, hu⟩ := (swapTo_ok h t).1
    exact hu.linked
  have hsz : ∀ t, (swapTo T t).size = T.size := fun t => (swapTo_ok h t).2
  have hl : Linked T := hlt 0
  have hrank := h.facts.2.2.2
  obtain ⟨rank, hrank⟩ := hrank
  have hsz0 := hl.size
  -- the situation of a node that is swapped
  have heff : ∀ t, (t < T.size ∧ t ≠ T.size - 1 ∧ ((swapTo T t).slot t).1 ≠ T.size - 1) →
      ∃ B A, ((swapTo T t).nodes t).parent = some B ∧ ((swapTo T t).nodes B).parent = some A ∧ B < T.size ∧
        ((swapTo T t).slot t).1 = B := by
    rintro t ⟨h1, h2, h4⟩
    have hl := hlt t
    have hs := hsz t
    cases hp : ((swapTo T t).nodes t).parent with
    | none =>
      have := (hl.root t (by omega)).1 hp
      omega
    | some B =>
      have hB := hl.parent t (by omega) B hp
      have hs1 : ((swapTo T t).slot t).1 = B := by rw [slot_some hp]
      cases hq : ((swapTo T t).nodes B).parent with
      | none =>
        have := (hl.root B hB.1).1 hq
        rw [hs1] at h4
        omega
      | some A => exact ⟨B, A, rfl, hq, by omega, hs1⟩
  refine ⟨fun t x y hx hy hxy => slot_inj (hlt t) (by rw [hsz]; exact hx) (by rw [hsz]; exact hy) hxy, fun t => Iff.rfl,
    fun t x hx he => ?_, fun t he => ?_, fun t he => ?_, ?_, ⟨hsz0, ?_, ?_⟩, ?_, ?_, ?_⟩
  · have hnoop : (swapTo T t).swapWithNN t = swapTo T t := by
      refine C06_swap_noop _ _ ?_
      by_cases h1 : t < T.size
      · right
        cases hp : ((swapTo T t).nodes t).parent with
        | none => exact .inl rfl
        | some B =>
          refine .inr ⟨B, rfl, ?_⟩
          have hB := (hlt t).parent t (by rw [hsz]; exact h1) B hp
          rw [(hlt t).root B hB.1, hsz]
          by_contra hne
          refine he ⟨h1, ?_, ?_⟩
          · intro h2
            have := ((hlt t).root t (by rw [hsz]; exact h1)).2 (by rw [hsz]; exact h2)
            rw [hp] at this
            simp at this
          · rw [slot_some hp]; exact hne
      · exact .inl (by rw [hsz]; omega)
    show (swapTo T (t + 1)).slot x = _
    rw [swapTo_succ, hnoop]
  · obtain ⟨B, A, h1, h2, h4, h5⟩ := heff t he
    rw [h5]
    obtain ⟨o1, o2, o3, o4⟩ := other_spec (hlt t) (B := B) (A := A) (by rw [hsz]; exact h4) h2
    obtain ⟨q, hq⟩ := (swapTo_ok h t).1
    obtain ⟨rk, hrk⟩ := (IsTree.facts ⟨q, hq⟩).2.2.2
    have hBs : B < (swapTo T t).size := by rw [hsz]; exact h4
    have hAs := ((hlt t).parent B hBs A h2)
    have hts := (hlt t).parent t (by rw [hsz]; exact he.1) B h1
    have r1 := hrk B hBs t hts.2
    have r2 := hrk A hAs.1 B hAs.2
    have r3 := hrk A hAs.1 _ o1
    refine ⟨by rw [← hsz t]; exact o3, ?_, o2, h4, ?_, ?_⟩
    · intro hh
      rw [hh, h1] at o4
      have : B = A := by simpa using o4
      subst this
      omega
    · rw [slot_some o4, slot_some h2]
    · rw [slot_some h2]
      show A ≠ B
      rintro rfl
      omega
  · obtain ⟨B, A, h1, h2, h4, h5⟩ := heff t he
    simp only [h5]
    obtain ⟨o1, o2, o3, o4⟩ := other_spec (hlt t) (B := B) (A := A) (by rw [hsz]; exact h4) h2
    have := slot_swap (swapTo_ok h t).1 (by rw [hsz]; exact he.1) h1 h2 o1 o2
    rw [← swapTo_succ, hsz t] at this
    exact this
  · show (T.slot (T.size - 1)).1 = T.size
    rw [slot_root ((hl.root _ (by have := hl.pos; omega)).2 rfl)]
  · omega
  · have := hl.pos; omega
  · intro x hx y hy hh
    have hh : (T.slot y).1 = x := hh
    rw [slot_fst hl (by omega)] at hh
    obtain ⟨g1, g2⟩ := hl.parent y hy x hh
    rcases g2 with g2 | g2
    · rw [(hl.leaf0 x g1).2 hx] at g2; simp at g2
    · rw [(hl.leaf1 x g1).2 hx] at g2; simp at g2
  · intro x hx hxs
    cases h0 : (T.nodes x).c0 with
    | none => have := (hl.leaf0 x hxs).1 h0; omega
    | some u =>
      cases h1 : (T.nodes x).c1 with
      | none => have := (hl.leaf1 x hxs).1 h1; omega
      | some w =>
        obtain ⟨u1, u2⟩ := hl.child0 x hxs u h0
        obtain ⟨w1, w2⟩ := hl.child1 x hxs w h1
        refine ⟨u, w, ?_, u1, w1, (slot_fst hl hxs).2 u2, (slot_fst hl hxs).2 w2⟩
        rintro rfl
        exact hl.distinct x hxs _ h0 h1
  · -- an inner node of the largest rank is below the root
    have hne : ((Finset.range T.size).filter fun x => T.nLeaves ≤ x ∧ x ≠ T.size - 1).Nonempty :=
      ⟨T.nLeaves, by simp; omega⟩
    obtain ⟨y, hy, hmax⟩ := Finset.exists_max_image _ rank hne
    simp only [Finset.mem_filter, Finset.mem_range] at hy hmax
    obtain ⟨y1, y2, y3⟩ := hy
    refine ⟨y, y2, y1, y3, ?_⟩
    show (T.slot y).1 = T.size - 1
    rw [slot_fst hl (by omega)]
    cases hp : (T.nodes y).parent with
    | none => exact absurd ((hl.root y y1).1 hp) y3
    | some q =>
      obtain ⟨q1, q2⟩ := hl.parent y y1 q hp
      have hr := hrank q q1 y q2
      have hqn : T.nLeaves ≤ q := by
        by_contra hlt'
        rcases q2 with q2 | q2
        · rw [(hl.leaf0 q q1).2 (by omega)] at q2; simp at q2
        · rw [(hl.leaf1 q q1).2 (by omega)] at q2; simp at q2
      by_contra hne'
      have := hmax q ⟨q1, hqn, fun hh => hne' (by rw [hh])⟩
      omega

/-- With three or more leaves the swapped copy is never the tree. -/
theorem swapAll_ne {T : Tree} (h : IsTree T) (h3 : 3 ≤ T.nLeaves) : (swapAll T).same T = false := by
  by_contra hs
  simp only [Bool.not_eq_false] at hs
  simp only [Tree.same, Bool.and_eq_true, decide_eq_true_eq, beq_iff_eq, List.all_eq_true, List.mem_range] at hs
  obtain ⟨e1, e2⟩ := hs
  have R := swapRun h h3
  refine SwapRun.Back.false (⟨R, fun x hx => ?_⟩ : SwapRun.Back _ _ _ _ _ _)
  show (swapAll T).slot x = T.slot x
  have hx' : x < (swapAll T).size := by rw [e1]; exact hx
  unfold Tree.slot
  rw [e2 x hx', e1]
  cases hp : (T.nodes x).parent with
  | none => rfl
  | some q =>
    obtain ⟨t, ht⟩ := h
    have := (ht.linked.parent x hx q hp).1
    simp only [e2 q (by rw [e1]; exact this)]

/-- With one or two leaves nothing is swapped. -/
theorem swapAll_small {T : Tree} (h : IsTree T) (h2 : T.nLeaves ≤ 2) : swapAll T = T := by
  obtain ⟨t, ht⟩ := h
  have hl := ht.linked
  have hs := hl.size
  have hstep : ∀ p, T.swapWithNN p = T := by
    intro p
    refine C06_swap_noop T p ?_
    by_cases hp : p < T.size
    · cases hq : (T.nodes p).parent with
      | none => exact .inr (.inl rfl)
      | some q =>
        refine .inr (.inr ⟨q, rfl, ?_⟩)
        obtain ⟨q1, q2⟩ := hl.parent p hp q hq
        have hqn : T.nLeaves ≤ q := by
          by_contra hlt
          rcases q2 with q2 | q2
          · rw [(hl.leaf0 q q1).2 (by omega)] at q2; simp at q2
          · rw [(hl.leaf1 q q1).2 (by omega)] at q2; simp at q2
        exact (hl.root q q1).2 (by omega)
    · exact .inl (by omega)
  have hall : ∀ l : List ℕ, l.foldl Tree.swapWithNN T = T := by
    intro l
    induction l with
    | nil => rfl
    | cons p l ih => rw [List.foldl_cons, hstep, ih]
  exact hall _

theorem swapAll_same_iff {T : Tree} (h : IsTree T) : (swapAll T).same T = true ↔ T.nLeaves ≤ 2 := by
  constructor
  · intro hs
    by_contra h3
    rw [swapAll_ne h (by omega)] at hs
    simp at hs
  · intro h2
    rw [swapAll_small h h2]
    exact Tree.same_refl _

end TNCO
