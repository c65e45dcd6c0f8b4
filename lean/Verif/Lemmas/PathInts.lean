import Verif.Model.PathInts
import Verif.Spec.PathInts
import Verif.Lemmas.PathMain
import Verif.Lemmas.Contract

/-! Paths of integers. -/

namespace TNCO
open PTree

theorem pyPlace_iff {k : ℕ} {i : ℤ} {j : ℕ} : pyPlace k i = some j ↔ Names k i j := by
  unfold pyPlace Names
  by_cases h : 0 ≤ i
  · rw [if_pos h]
    by_cases h2 : i.toNat < k
    · rw [if_pos h2, Option.some.injEq]
      constructor <;> intro h3 <;> omega
    · rw [if_neg h2]
      constructor
      · simp
      · intro h3; omega
  · rw [if_neg h]
    by_cases h2 : (-i).toNat ≤ k
    · rw [if_pos h2, Option.some.injEq]
      constructor <;> intro h3 <;> omega
    · rw [if_neg h2]
      constructor
      · simp
      · intro h3; omega

theorem pyPlace_nat (k x : ℕ) : pyPlace k (x : ℤ) = if x < k then some x else none := by
  unfold pyPlace
  rw [if_pos (by omega)]; rfl

theorem names_unique {k : ℕ} {i : ℤ} {j j' : ℕ} (h : Names k i j) (h' : Names k i j') : j = j' := by
  unfold Names at h h'; omega

theorem pyPop_iff {α : Type} {l : List α} {i : ℤ} {a : α} {r : List α} :
    pyPop l i = some (a, r) ↔ ∃ j, Names l.length i j ∧ l[j]? = some a ∧ r = l.eraseIdx j := by
  unfold pyPop
  constructor
  · intro h
    split at h
    · cases h
    next j hj =>
      split at h
      · cases h
      next b hb =>
        cases h
        exact ⟨j, pyPlace_iff.1 hj, hb, rfl⟩
  · rintro ⟨j, h1, h2, rfl⟩
    rw [pyPlace_iff.2 h1]
    simp only [h2]

theorem pyPop_nat {α : Type} (l : List α) (x : ℕ) :
    pyPop l (x : ℤ) = (l[x]?).map fun a => (a, l.eraseIdx x) := by
  unfold pyPop
  rw [pyPlace_nat]
  by_cases h : x < l.length
  · rw [if_pos h]
    simp [List.getElem?_eq_getElem h]
  · rw [if_neg h, List.getElem?_eq_none (by omega)]; rfl

theorem pyPop_map {α β : Type} (f : α → β) (l : List α) (i : ℤ) :
    pyPop (l.map f) i = (pyPop l i).map fun r => (f r.1, r.2.map f) := by
  unfold pyPop
  rw [List.length_map]
  cases pyPlace l.length i with
  | none => rfl
  | some j =>
    simp only [List.getElem?_map]
    cases l[j]? with
    | none => rfl
    | some a => simp [List.eraseIdx_map]

theorem pyPop_perm {α : Type} {l : List α} {i : ℤ} {a : α} {r : List α} (h : pyPop l i = some (a, r)) : l.Perm (a :: r) := by
  obtain ⟨j, -, h2, rfl⟩ := pyPop_iff.1 h
  obtain ⟨h1, e1⟩ := List.getElem?_eq_some_iff.1 h2
  have := List.getElem_cons_eraseIdx_perm h1
  rw [e1] at this
  exact this.symm

theorem pyPop_length {α : Type} {l : List α} {i : ℤ} {a : α} {r : List α} (h : pyPop l i = some (a, r)) :
    l.length = r.length + 1 := by simpa using (pyPop_perm h).length_eq

theorem popStep_ok {α : Type} {F : List α} {s : List ℤ} {a b : α} {r : List α} :
    popStep F s = .ok (a, b, r) ↔ ∃ x y i j, s = [x, y] ∧ Names F.length (max x y) j ∧ F[j]? = some b ∧
      Names (F.length - 1) (min x y) i ∧ (F.eraseIdx j)[i]? = some a ∧ r = (F.eraseIdx j).eraseIdx i := by
  constructor
  · intro h
    unfold popStep at h
    split at h
    next x y =>
      split at h
      · cases h
      next py rest hy =>
        split at h
        · cases h
        next px rest' hx =>
          cases h
          have hl := pyPop_length hy
          obtain ⟨j, h1, h2, rfl⟩ := pyPop_iff.1 hy
          obtain ⟨i, h3, h4, rfl⟩ := pyPop_iff.1 hx
          exact ⟨x, y, i, j, rfl, h1, h2, by rw [hl]; exact h3, h4, rfl⟩
    · cases h
  · rintro ⟨x, y, i, j, rfl, h1, h2, h3, h4, rfl⟩
    have hy := (pyPop_iff (l := F) (i := max x y) (a := b) (r := F.eraseIdx j)).2 ⟨j, h1, h2, rfl⟩
    have hl := pyPop_length hy
    rw [hl] at h3
    have hx := (pyPop_iff (l := F.eraseIdx j) (i := min x y) (a := a)).2 ⟨i, h3, h4, rfl⟩
    simp only [popStep, hy, hx]

theorem popStep_map {α β : Type} (f : α → β) (F : List α) (s : List ℤ) :
    popStep (F.map f) s = (popStep F s).map fun r => (f r.1, f r.2.1, r.2.2.map f) := by
  unfold popStep
  split
  next x y =>
    rw [pyPop_map]
    cases pyPop F (max x y) with
    | none => rfl
    | some r =>
      simp only [Option.map_some, pyPop_map]
      cases pyPop r.2 (min x y) with
      | none => rfl
      | some r' => rfl
  · rfl

theorem popStep_perm {α : Type} {F : List α} {s : List ℤ} {a b : α} {r : List α} (h : popStep F s = .ok (a, b, r)) :
    F.Perm (a :: b :: r) := by
  unfold popStep at h
  split at h
  next x y =>
    split at h
    · cases h
    next py rest hy =>
      split at h
      · cases h
      next px rest' hx =>
        cases h
        exact ((pyPop_perm hy).trans ((pyPop_perm hx).cons _)).trans (List.Perm.swap _ _ _)
  · cases h

theorem popStep_length {α : Type} {F : List α} {s : List ℤ} {a b : α} {r : List α} (h : popStep F s = .ok (a, b, r)) :
    F.length = r.length + 2 := by simpa using (popStep_perm h).length_eq

/-- Whether a step can be taken depends only on the length. -/
theorem popStep_error {α β : Type} {F : List α} {G : List β} (hl : F.length = G.length) {s : List ℤ} {e : PyErr}
    (h : popStep F s = .error e) : popStep G s = .error e := by
  have h1 : (F.map fun _ => ()) = G.map fun _ => () := by
    rw [List.map_const', List.map_const', hl]
  have h2 := popStep_map (fun _ => ()) F s
  rw [h, h1, popStep_map] at h2
  cases hg : popStep G s with
  | error e' => rw [hg] at h2; simpa [Except.map] using h2
  | ok r => rw [hg] at h2; simp [Except.map] at h2

theorem popStep_errors {α : Type} {F : List α} {s : List ℤ} {e : PyErr} (h : popStep F s = .error e) :
    (e = .valueError ∧ s.length ≠ 2) ∨ (e = .indexError ∧ s.length = 2) := by
  unfold popStep at h
  split at h
  · right
    split at h
    · cases h; exact ⟨rfl, rfl⟩
    · split at h
      · cases h; exact ⟨rfl, rfl⟩
      · cases h
  next hs =>
    left
    cases h
    refine ⟨rfl, fun hl => ?_⟩
    obtain ⟨a, b, rfl⟩ := List.length_eq_two.1 hl
    exact hs a b rfl

/-! ## Natural numbers -/

theorem popStep_nat {α : Type} (F : List α) (x y : ℕ) :
    popStep F [(x : ℤ), (y : ℤ)] = match popPair F x y with
      | none => .error .indexError
      | some r => .ok r := by
  have e1 : max (x : ℤ) (y : ℤ) = ((max x y : ℕ) : ℤ) := by omega
  have e2 : min (x : ℤ) (y : ℤ) = ((min x y : ℕ) : ℤ) := by omega
  unfold popStep popPair
  dsimp only
  rw [e1, e2, pyPop_nat]
  cases F[max x y]? with
  | none => rfl
  | some b =>
    simp only [Option.map_some, pyPop_nat]
    cases (F.eraseIdx (max x y))[min x y]? <;> rfl

theorem contractionLoopZ_nat (n : ℕ) (path : List (ℕ × ℕ)) (i : ℕ) (pos : List ℕ) :
    contractionLoopZ n i pos (intPath path) = match contractionLoop n i pos path with
      | none => .error .indexError
      | some c => .ok c := by
  induction path generalizing i pos with
  | nil => rfl
  | cons s path ih =>
    obtain ⟨x, y⟩ := s
    simp only [intPath, List.map_cons, contractionLoopZ, contractionLoop, popStep_nat]
    cases popPair pos x y with
    | none => rfl
    | some r =>
      simp only [intPath] at ih
      simp only [ih]
      cases contractionLoop n (i + 1) (r.2.2 ++ [i + n]) path <;> rfl

section
variable {ι : Type} [DecidableEq ι]

theorem contractLoopZ_nat {R : Type} [CommSemiring R] (enum : Finset ι → List ι) (out : Finset ι) (path : List (ℕ × ℕ))
    (hc : ι → ℤ) (ts : List (NDArray R × List ι)) :
    contractLoopZ enum out hc ts (intPath path) = contractLoop enum out hc ts path := by
  induction path generalizing hc ts with
  | nil => rfl
  | cons s path ih =>
    obtain ⟨x, y⟩ := s
    simp only [intPath, List.map_cons, contractLoopZ, contractLoop, popStep_nat, sameEntries, beq_iff_eq, Nat.cast_inj]
    by_cases hxy : x = y
    · rw [if_pos hxy, if_pos hxy]
    · rw [if_neg hxy, if_neg hxy]
      cases popPair ts x y with
      | none => rfl
      | some r =>
        obtain ⟨⟨ax, xs⟩, ⟨ay, ys⟩, rest⟩ := r
        dsimp only
        by_cases hco : (!countsOk hc xs ys) = true
        · rw [if_pos hco, if_pos hco]
        · rw [if_neg hco, if_neg hco]
          cases tensordot ax xs ay ys (enum (keptInds hc out xs ys)) with
          | error e => rfl
          | ok z => exact ih _ _

end

theorem mergeLoopZ_nat (i : ℕ) (path : List (ℕ × ℕ)) (pos mpos : List Lbl) :
    mergeLoopZ i pos mpos (intPath path) = mergeLoop i pos mpos path := by
  induction path generalizing pos mpos with
  | nil => rfl
  | cons s path ih =>
    obtain ⟨x, y⟩ := s
    simp only [intPath, List.map_cons, mergeLoopZ, mergeLoop, popStep_nat]
    cases popPair pos x y with
    | none => rfl
    | some r =>
      simp only [intPath] at ih
      simp only [ih]
      rfl

theorem mergeAllZ_nat (n : ℕ) (paths : List (List (ℕ × ℕ))) (i : ℕ) (mpos : List Lbl) :
    mergeAllZ n i mpos (paths.map intPath) = mergeAll n i mpos paths := by
  induction paths generalizing i mpos with
  | nil => rfl
  | cons p paths ih => simp only [List.map_cons, mergeAllZ, mergeAll, mergeLoopZ_nat, ih]; rfl

theorem colorLoopZ_nat (path : List (ℕ × ℕ)) (m : ℕ) (s : Colors) :
    colorLoopZ m s (intPath path) = colorLoop m s path := by
  induction path generalizing m s with
  | nil => rfl
  | cons st path ih =>
    obtain ⟨x, y⟩ := st
    simp only [intPath, List.map_cons, colorLoopZ, colorLoop, popStep_nat]
    cases popPair s.tensors x y with
    | none => rfl
    | some r =>
      simp only [intPath] at ih
      simp only [ih]
      rfl

theorem readStep_nat {α : Type} (l : List α) (a b : ℕ) :
    readStep l [(a : ℤ), (b : ℤ)] = match l[min a b]?, l[max a b]? with
      | some x, some y => .ok (x, y)
      | _, _ => .error .indexError := by
  have e1 : max (a : ℤ) (b : ℤ) = ((max a b : ℕ) : ℤ) := by omega
  have e2 : min (a : ℤ) (b : ℤ) = ((min a b : ℕ) : ℤ) := by omega
  have h : ∀ x : ℕ, pyAt l (x : ℤ) = l[x]? := by
    intro x
    unfold pyAt
    rw [pyPlace_nat]
    by_cases hx : x < l.length
    · rw [if_pos hx]; rfl
    · rw [if_neg hx, List.getElem?_eq_none (by omega)]; rfl
  simp only [readStep, e1, e2, h]
  cases l[min a b]? <;> cases l[max a b]? <;> rfl

theorem splitLoopZ_nat (cc : List (Finset ℕ)) (path : List (ℕ × ℕ)) (m : ℕ) (tensors : List ℕ)
    (lists : List (List ℕ)) (paths : List (List (ℕ × ℕ))) :
    splitLoopZ cc m tensors lists paths (intPath path) = splitLoop cc m tensors lists paths path := by
  induction path generalizing m tensors lists paths with
  | nil => rfl
  | cons st path ih =>
    obtain ⟨a, b⟩ := st
    have e3 : ∀ (l : List ℕ) (a b : ℕ), popPair l (min a b) (max a b) = popPair l a b := by
      intro l a b
      unfold popPair
      rw [show max (min a b) (max a b) = max a b by omega, show min (min a b) (max a b) = min a b by omega]
    simp only [intPath, List.map_cons, splitLoopZ, splitLoop, popStep_nat, readStep_nat, e3]
    cases h1 : tensors[min a b]? with
    | none => rfl
    | some tx =>
      cases h2 : tensors[max a b]? with
      | none => rfl
      | some ty =>
        dsimp only
        cases cc.findIdx? (tx ∈ ·) with
        | none => rfl
        | some k =>
          dsimp only
          by_cases hc : ¬ ty ∈ cc.getD k ∅
          · rw [if_pos hc, if_pos hc]
          · rw [if_neg hc, if_neg hc]
            cases hp : popPair tensors a b with
            | none => rfl
            | some r =>
              obtain ⟨p1, p2, rest⟩ := r
              dsimp only
              generalize lists.getD k [] = l
              by_cases hin : ¬ (tx ∈ l ∧ ty ∈ l)
              · rw [if_pos hin, if_pos hin]
              · rw [if_neg hin, if_neg hin]
                generalize l.idxOf tx = i
                generalize l.idxOf ty = j
                rw [pyPop_nat]
                unfold popPair
                cases l[max i j]? with
                | none => rfl
                | some v =>
                  dsimp only [Option.map_some]
                  rw [pyPop_nat]
                  cases (l.eraseIdx (max i j))[min i j]? with
                  | none => rfl
                  | some w => exact ih _ _ _ _

theorem popped_cons {F : List Term} {s : List ℤ} {a b : Term} {r : List Term} (h : popStep F s = .ok (a, b, r))
    (path : List (List ℤ)) (F' : List Term) : Popped F (s :: path) F' ↔ Popped (r ++ [.pair a b]) path F' := by
  obtain ⟨x, y, i, j, rfl, h1, h2, h3, h4, rfl⟩ := popStep_ok.1 h
  constructor
  · intro hp
    cases hp with
    | cons g1 g2 g3 g4 g5 =>
      cases names_unique h1 g1
      cases names_unique h3 g3
      rw [h2, Option.some.injEq] at g2
      rw [h4, Option.some.injEq] at g4
      subst g2 g4
      exact g5
  · exact .cons h1 h2 h3 h4

theorem not_popped {F : List Term} {s : List ℤ} {e : PyErr} (h : popStep F s = .error e) (path : List (List ℤ)) (F' : List Term) :
    ¬ Popped F (s :: path) F' := by
  intro hp
  cases hp with
  | cons g1 g2 g3 g4 g5 =>
    rw [popStep_ok.2 ⟨_, _, _, _, rfl, g1, g2, g3, g4, rfl⟩] at h
    cases h

theorem contractionLoopZ_spec (n : ℕ) (path : List (List ℤ)) (i : ℕ) (F : List PTree) :
    (∀ c, contractionLoopZ n i (F.map root) path = .ok c → ∃ F', Run F c F' ∧
      c.map (fun t => t.2.2) = List.range' (i + n) path.length ∧
      ∀ f, Popped (F.map (toTerm f)) path (F'.map (toTerm f))) ∧
    (∀ e, contractionLoopZ n i (F.map root) path = .error e →
      (e = .indexError ∨ e = .valueError ∧ ∃ s ∈ path, s.length ≠ 2) ∧ ∀ f F', ¬ Popped (F.map (toTerm f)) path F') := by
  induction path generalizing i F with
  | nil =>
    refine ⟨?_, by simp [contractionLoopZ]⟩
    intro c hc
    simp only [contractionLoopZ, Except.ok.injEq] at hc
    subst hc
    exact ⟨F, .nil (List.Perm.refl _), by simp, fun f => .nil⟩
  | cons s path ih =>
    simp only [contractionLoopZ, popStep_map]
    cases hp : popStep F s with
    | error e =>
      refine ⟨by simp [Except.map], fun e' he' => ⟨?_, fun f F' => ?_⟩⟩
      · simp only [Except.map, Except.error.injEq] at he'
        subst he'
        rcases popStep_errors hp with ⟨rfl, h⟩ | ⟨rfl, -⟩
        · exact Or.inr ⟨rfl, s, by simp, h⟩
        · exact Or.inl rfl
      · refine not_popped (e := e) ?_ _ _
        rw [popStep_map, hp]; rfl
    | ok r =>
      obtain ⟨a, b, rest⟩ := r
      simp only [Except.map]
      have e : rest.map root ++ [i + n] = (rest ++ [PTree.node (i + n) a b]).map root := by simp [root]
      rw [e]
      obtain ⟨ih1, ih2⟩ := ih (i + 1) (rest ++ [PTree.node (i + n) a b])
      have hrep : ∀ f F', Popped (F.map (toTerm f)) (s :: path) F' ↔
          Popped ((rest ++ [PTree.node (i + n) a b]).map (toTerm f)) path F' := by
        intro f F'
        rw [popped_cons (a := a.toTerm f) (b := b.toTerm f) (r := rest.map (toTerm f)) (by rw [popStep_map, hp]; rfl)]
        simp [toTerm]
      constructor
      · intro c hc
        cases h2 : contractionLoopZ n (i + 1) ((rest ++ [PTree.node (i + n) a b]).map root) path with
        | error e => rw [h2] at hc; simp at hc
        | ok c' =>
          rw [h2] at hc
          simp only [Except.ok.injEq] at hc
          subst hc
          obtain ⟨F', hr, ht, hrp⟩ := ih1 c' h2
          refine ⟨F', .cons (popStep_perm hp) (hr.perm_left (List.perm_append_singleton _ _).symm), ?_, fun f => (hrep f _).2 (hrp f)⟩
          rw [List.map_cons, ht, List.length_cons, List.range'_succ]
          congr 2; omega
      · intro e' hc
        cases h2 : contractionLoopZ n (i + 1) ((rest ++ [PTree.node (i + n) a b]).map root) path with
        | ok c' => rw [h2] at hc; simp at hc
        | error e =>
          rw [h2] at hc
          simp only [Except.error.injEq] at hc
          subst hc
          obtain ⟨g1, g2⟩ := ih2 e h2
          refine ⟨?_, fun f F' h => g2 f F' ((hrep f F').1 h)⟩
          rcases g1 with h | ⟨h, s', hs', h'⟩
          · exact Or.inl h
          · exact Or.inr ⟨h, s', by simp [hs'], h'⟩

/-! ## The two ways of reading -/

theorem erase_place {α : Type} (F : List α) (i j : ℕ) :
    (F.eraseIdx j)[i]? = F[if i < j then i else i + 1]? ∧
    (F.eraseIdx j).eraseIdx i = (F.eraseIdx (max (if i < j then i else i + 1) j)).eraseIdx (min (if i < j then i else i + 1) j) := by
  by_cases h : i < j
  · rw [if_pos h, List.getElem?_eraseIdx_of_lt h, max_eq_right h.le, min_eq_left h.le]
    exact ⟨rfl, rfl⟩
  · rw [if_neg h, List.getElem?_eraseIdx_of_ge (by omega), max_eq_left (by omega), min_eq_right (by omega)]
    refine ⟨rfl, ?_⟩
    apply List.ext_getElem?
    intro k
    simp only [List.getElem?_eraseIdx]
    split_ifs <;> first | rfl | omega

/-- When the two ways of reading one step agree. -/
theorem names_right {k : ℕ} {x y : ℤ} (hxy : x ≠ y) {i' j : ℕ} (hi : Names k (min x y) i') (hj : Names k (max x y) j) (hne : i' ≠ j) :
    (0 ≤ min x y ∨ (0 ≤ max x y ∧ max x y < k + min x y)) ↔
      ∃ i, Names (k - 1) (min x y) i ∧ i' = if i < j then i else i + 1 := by
  have hlt : min x y < max x y := by omega
  unfold Names at hi hj ⊢
  generalize min x y = u at *
  generalize max x y = v at *
  constructor
  · intro hh
    by_cases h : 0 ≤ u
    · refine ⟨i', ?_, ?_⟩
      · omega
      · rw [if_pos (by omega)]
    · refine ⟨i' - 1, ?_, ?_⟩
      · omega
      · rw [if_neg (by omega)]; omega
  · rintro ⟨i, h1, h2⟩
    split_ifs at h2 <;> omega

theorem right_places {k : ℕ} {x y : ℤ} (hxy : x ≠ y) (hr : 0 ≤ min x y ∨ (0 ≤ max x y ∧ max x y < k + min x y)) {i j : ℕ}
    (hi : Names (k - 1) (min x y) i) (hj : Names k (max x y) j) :
    Names k (min x y) (if i < j then i else i + 1) := by
  have hlt : min x y < max x y := by omega
  unfold Names at hi hj ⊢
  generalize min x y = u at *
  generalize max x y = v at *
  split_ifs <;> omega

theorem length_step {F : List Term} {i j : ℕ} {b a c : Term} (hj : F[j]? = some b) (hi : (F.eraseIdx j)[i]? = some a) :
    ((F.eraseIdx j).eraseIdx i ++ [c]).length = F.length - 1 := by
  obtain ⟨h1, -⟩ := List.getElem?_eq_some_iff.1 hj
  obtain ⟨h2, -⟩ := List.getElem?_eq_some_iff.1 hi
  rw [List.length_append, List.length_eraseIdx_of_lt h2, List.length_eraseIdx_of_lt h1]
  rw [List.length_eraseIdx_of_lt h1] at h2
  simp; omega

theorem popped_iff_named {F F' : List Term} {path : List (List ℤ)} (hr : RightPath F.length path) :
    Popped F path F' ↔ Named F path F' := by
  induction path generalizing F with
  | nil =>
    constructor
    · intro h; cases h; exact .nil
    · intro h; cases h; exact .nil
  | cons s path ih =>
    obtain ⟨hs, hr⟩ := hr
    constructor
    · intro h
      cases h with
      | cons h1 h2 h3 h4 h5 =>
        rename_i x y i j a b
        obtain ⟨hxy, hs⟩ := hs x y rfl
        obtain ⟨e1, e2⟩ := erase_place F i j
        have hl := length_step (c := .pair a b) h2 h4
        rw [ih (by rw [hl]; exact hr), e2] at h5
        refine .cons (right_places hxy hs h3 h1) h1 ?_ (by rw [← e1]; exact h4) h2 h5
        split_ifs <;> omega
    · intro h
      cases h with
      | cons h1 h2 hne h3 h4 h5 =>
        rename_i x y i' j a b
        obtain ⟨hxy, hs⟩ := hs x y rfl
        obtain ⟨i, hi, rfl⟩ := (names_right hxy h1 h2 hne).1 hs
        obtain ⟨e1, e2⟩ := erase_place F i j
        rw [← e1] at h3
        have hl := length_step (c := .pair a b) h4 h3
        rw [← e2, ← ih (by rw [hl]; exact hr)] at h5
        exact .cons h2 h4 hi h3 h5

/-! ## The path of natural numbers -/

theorem popStep_places {α : Type} {F : List α} {x y : ℤ} {i j : ℕ} (h1 : Names F.length (max x y) j)
    (h2 : Names (F.length - 1) (min x y) i) : ∃ a b r, popStep F [x, y] = .ok (a, b, r) ∧
      (popPair F (if i < j then i else i + 1) j = some (a, b, r) ∨ popPair F (if i < j then i else i + 1) j = some (b, a, r)) := by
  have hj : j < F.length := h1.1
  have hi : i < (F.eraseIdx j).length := by rw [List.length_eraseIdx_of_lt hj]; exact h2.1
  refine ⟨_, _, _, popStep_ok.2 ⟨x, y, i, j, rfl, h1, List.getElem?_eq_getElem hj, h2, List.getElem?_eq_getElem hi, rfl⟩, ?_⟩
  obtain ⟨e1, e2⟩ := erase_place F i j
  rw [List.getElem?_eq_getElem hi] at e1
  rw [e2]
  unfold popPair
  by_cases h : i < j
  · left
    rw [if_pos h] at e1 ⊢
    rw [max_eq_right h.le, min_eq_left h.le, List.getElem?_eq_getElem hj]
    simp only
    rw [List.getElem?_eraseIdx_of_lt h, ← e1]
  · right
    rw [if_neg h] at e1 ⊢
    rw [max_eq_left (by omega), min_eq_right (by omega), ← e1]
    simp only
    rw [List.getElem?_eraseIdx_of_lt (by omega), List.getElem?_eq_getElem hj]

theorem mergeLoopZ_places (i : ℕ) {path : List (List ℤ)} {q : List (ℕ × ℕ)} {k : ℕ} (h : Places k path q) (pos mpos : List Lbl)
    (hk : pos.length = k) : mergeLoopZ i pos mpos path = mergeLoop i pos mpos q := by
  induction h generalizing pos mpos with
  | nil => rfl
  | cons h1 h2 _ ih =>
    subst hk
    obtain ⟨a, b, r, g1, g2⟩ := popStep_places h1 h2
    have hl := popStep_length g1
    have hk' : ∀ z : Lbl, (r ++ [z]).length = pos.length - 1 := by intro z; simp; omega
    rw [mergeLoopZ, g1, mergeLoop]
    rcases g2 with g2 | g2
    · rw [g2]
      dsimp only
      simp only [ih _ _ (hk' _)]
      rfl
    · rw [g2]
      dsimp only
      simp only [ih _ _ (hk' _), and_comm (a := a ∈ mpos), max_comm (mpos.idxOf a), min_comm (mpos.idxOf a)]
      rfl

theorem mergeAllZ_places (n : ℕ) {paths : List (List (List ℤ))} {qs : List (List (ℕ × ℕ))} (h : List.Forall₂ (Places n) paths qs)
    (i : ℕ) (mpos : List Lbl) : mergeAllZ n i mpos paths = mergeAll n i mpos qs := by
  induction h generalizing i mpos with
  | nil => rfl
  | cons h1 _ ih =>
    rw [mergeAllZ, mergeAll, mergeLoopZ_places i h1 _ _ (by simp)]
    simp only [ih]
    rfl

theorem places_of_popped {F F' : List Term} {path : List (List ℤ)} (h : Popped F path F') : ∃ q, Places F.length path q := by
  induction h with
  | nil => exact ⟨_, .nil⟩
  | cons h1 h2 h3 h4 _ ih =>
    obtain ⟨q, hq⟩ := ih
    rw [length_step h2 h4] at hq
    exact ⟨_, .cons h1 h3 hq⟩

theorem popped_of_places {path : List (List ℤ)} {q : List (ℕ × ℕ)} {k : ℕ} (h : Places k path q) (F : List Term) (hk : F.length = k) :
    ∃ F', Popped F path F' := by
  induction h generalizing F with
  | nil => exact ⟨F, .nil⟩
  | cons h1 h2 _ ih =>
    subst hk
    obtain ⟨a, b, r, g1, -⟩ := popStep_places h1 h2
    have hl := popStep_length g1
    obtain ⟨F', hF'⟩ := ih (r ++ [.pair a b]) (by simp; omega)
    exact ⟨F', (popped_cons g1 _ _).2 hF'⟩

theorem popped_unique {F F' F'' : List Term} {path : List (List ℤ)} (h : Popped F path F') (h' : Popped F path F'') : F' = F'' := by
  induction h with
  | nil => cases h'; rfl
  | cons g1 g2 g3 g4 _ ih =>
    refine ih ?_
    rwa [popped_cons (popStep_ok.2 ⟨_, _, _, _, rfl, g1, g2, g3, g4, rfl⟩)] at h'

/-- The path of natural numbers contracts the same tensors, up to the order of the two operands. -/
theorem replay_places {path : List (List ℤ)} {q : List (ℕ × ℕ)} {k : ℕ} (h : Places k path q) (Z : List (Term × Term))
    (hk : Z.length = k) (hs : ∀ p ∈ Z, p.1.Same p.2) {F' : List Term} (hp : Popped (Z.map Prod.fst) path F') :
    ∃ Z' : List (Term × Term), F' = Z'.map Prod.fst ∧ replay (Z.map Prod.snd) q = some (Z'.map Prod.snd) ∧ ∀ p ∈ Z', p.1.Same p.2 := by
  induction h generalizing Z with
  | nil => cases hp; exact ⟨Z, rfl, rfl, hs⟩
  | cons h1 h2 _ ih =>
    rename_i k x y i j path q _
    subst hk
    obtain ⟨a, b, r, g1, g2⟩ := popStep_places h1 h2
    have hl := popStep_length g1
    have hperm := popStep_perm g1
    have ha := hs a (hperm.mem_iff.2 (by simp))
    have hb := hs b (hperm.mem_iff.2 (by simp))
    have hr : ∀ p ∈ r, p.1.Same p.2 := fun p hp => hs p (hperm.mem_iff.2 (by simp [hp]))
    rw [popped_cons (a := a.1) (b := b.1) (r := r.map Prod.fst) (by rw [popStep_map, g1]; rfl)] at hp
    have hne : (if i < j then i else i + 1) ≠ j := by split_ifs <;> omega
    rw [replay_cons hne, popPair_map]
    rcases g2 with g2 | g2
    · rw [g2]
      obtain ⟨Z', e1, e2, e3⟩ := ih (r ++ [(.pair a.1 b.1, .pair a.2 b.2)]) (by simp; omega)
        (by
          intro p hp
          rcases List.mem_append.1 hp with hp | hp
          · exact hr p hp
          · rw [List.mem_singleton] at hp; subst hp; exact .pair ha hb)
        (by simpa using hp)
      exact ⟨Z', e1, by simpa using e2, e3⟩
    · rw [g2]
      obtain ⟨Z', e1, e2, e3⟩ := ih (r ++ [(.pair a.1 b.1, .pair b.2 a.2)]) (by simp; omega)
        (by
          intro p hp
          rcases List.mem_append.1 hp with hp | hp
          · exact hr p hp
          · rw [List.mem_singleton] at hp; subst hp; exact .swap ha hb)
        (by simpa using hp)
      exact ⟨Z', e1, by simpa using e2, e3⟩

theorem pathForestZ {n : ℕ} {path : List (List ℤ)} {c} (h : contractionLoopZ n 0 (List.range n) path = .ok c) :
    ∃ F' : List PTree, c.length = path.length ∧ PathForest n c (F'.filter fun t => decide (t.root ∈ flattenTriples c)) ∧
      (∀ t ∈ F', t.root ∉ flattenTriples c → ∃ p, t = .leaf p) ∧ Popped (initTerms n) path (F'.map (toTerm id)) := by
  have e : (List.range n) = ((List.range n).map PTree.leaf).map root := by
    rw [List.map_map]; simp [Function.comp_def, root]
  obtain ⟨F', hr, hth, hrep⟩ := (contractionLoopZ_spec n path 0 ((List.range n).map .leaf)).1 c (by rw [← e]; exact h)
  have hlen : c.length = path.length := by
    have := congrArg List.length hth; simpa using this
  rw [Nat.zero_add, ← hlen] at hth
  obtain ⟨h1, h2⟩ := forest_of_run hr hth
  refine ⟨F', hlen, h1, h2, ?_⟩
  have := hrep id
  rw [List.map_map] at this
  exact this

theorem contractionLoopZ_error {n : ℕ} {path : List (List ℤ)} {e} (h : contractionLoopZ n 0 (List.range n) path = .error e) :
    (e = .indexError ∨ e = .valueError ∧ ∃ s ∈ path, s.length ≠ 2) ∧ ∀ F', ¬ Popped (initTerms n) path F' := by
  have e' : (List.range n) = ((List.range n).map PTree.leaf).map root := by
    rw [List.map_map]; simp [Function.comp_def, root]
  obtain ⟨h1, h2⟩ := (contractionLoopZ_spec n path 0 ((List.range n).map .leaf)).2 e (by rw [← e']; exact h)
  refine ⟨h1, fun F' => ?_⟩
  have := h2 id F'
  rw [List.map_map] at this
  exact this

/-! ## `contract` -/

section
variable {ι : Type} [DecidableEq ι] {R : Type} [CommSemiring R]

theorem contractLoopZ_spec {enum : Finset ι → List ι} (he : EnumOk enum) {d : ι → ℕ} {out : Finset ι}
    (path : List (List ℤ)) {hc : ι → ℤ} {ts : List (NDArray R × List ι)} {F : List Term} (h : CInv d hc ts)
    (hF : F.length = ts.length) :
    (∃ ts', contractLoopZ enum out hc ts path = .ok ts' ∧ (∀ s ∈ path, sameEntries s = false) ∧
        (∃ F', Popped F path F' ∧ F'.length = ts'.length) ∧ (∃ hc', CInv d hc' ts') ∧ CStep d out ts ts') ∨
    (∃ e, (e = .valueError ∨ e = .indexError) ∧ contractLoopZ enum out hc ts path = .error e ∧
      ((∃ s ∈ path, sameEntries s = true) ∨ ∀ F', ¬ Popped F path F')) := by
  induction path generalizing hc ts F with
  | nil => exact Or.inl ⟨ts, rfl, by simp, ⟨F, .nil, hF⟩, ⟨hc, h⟩, CStep.refl (.refl _)⟩
  | cons s path ih =>
    rw [contractLoopZ]
    by_cases hs : sameEntries s = true
    · rw [if_pos hs]
      exact Or.inr ⟨.valueError, Or.inl rfl, rfl, Or.inl ⟨s, by simp, hs⟩⟩
    · rw [if_neg hs]
      cases hp : popStep ts s with
      | error e =>
        refine Or.inr ⟨e, ?_, rfl, Or.inr (not_popped (popStep_error hF.symm hp) _)⟩
        rcases popStep_errors hp with h | h
        · exact Or.inl h.1
        · exact Or.inr h.1
      | ok r =>
        obtain ⟨⟨ax, xs⟩, ⟨ay, ys⟩, rest⟩ := r
        have hperm := popStep_perm hp
        obtain ⟨c1, az, zs, c2, c3, c4, c5, c6, c7⟩ := contract_step (out := out) he (h.perm hperm)
        obtain ⟨a, b, rF, h2⟩ : ∃ a b rF, popStep F s = .ok (a, b, rF) := by
          cases hq : popStep F s with
          | error e => rw [popStep_error hF hq] at hp; cases hp
          | ok r => exact ⟨r.1, r.2.1, r.2.2, rfl⟩
        have hst : CStep d out ts (rest ++ [(az, zs)]) :=
          (CStep.refl hperm).trans (cstep ((h.perm hperm).nodup (ax, xs) (by simp)) c5 c6 c7)
        have hl1 := popStep_length hp
        have hl2 := popStep_length h2
        simp only [c1, c2, Bool.not_true, Bool.false_eq_true, if_false]
        rcases ih (F := rF ++ [.pair a b]) c4 (by simp; omega) with ⟨ts', i1, i2, ⟨F', i3, i3'⟩, i4, i5⟩ | ⟨e, i1, i2, i3⟩
        · refine Or.inl ⟨ts', i1, ?_, ⟨F', (popped_cons h2 _ _).2 i3, i3'⟩, i4, hst.trans i5⟩
          intro s' hs'
          rcases List.mem_cons.1 hs' with rfl | hs'
          · simpa using hs
          · exact i2 s' hs'
        · refine Or.inr ⟨e, i1, i2, ?_⟩
          rcases i3 with ⟨s', hs', h'⟩ | h'
          · exact Or.inl ⟨s', by simp [hs'], h'⟩
          · exact Or.inr fun F' hF' => h' F' ((popped_cons h2 _ _).1 hF')

end

end TNCO
