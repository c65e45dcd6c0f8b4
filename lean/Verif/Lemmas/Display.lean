import Verif.Spec.Display
import Verif.Lemmas.ParallelRun
import Mathlib.Tactic.Ring

/-! # Lemmas about the progress display -/

namespace TNCO
variable {A V σ ρ ε : Type}

/-! ## The workers do not depend on the display -/

theorem runShow_fst (core : Core A V σ ρ ε) (seq : Bool) (rows : List (List A × List (String × A))) (p : ShowPar V) :
    ∀ (es : List ShowEvent) (s : World A V σ ρ ε × Display V), (runShow core seq rows p es s).1 = runSched core seq rows (withoutLooks es) s.1
  | [], _ => rfl
  | .run e :: es, s => by
    rw [runShow, runShow_fst core seq rows p es]
    show _ = runSched core seq rows (e :: withoutLooks es) s.1
    rw [show e :: withoutLooks es = [e] ++ withoutLooks es from rfl, runSched_append]
  | .look :: es, s => by
    rw [runShow, runShow_fst core seq rows p es]
    rfl

theorem runShow_append (core : Core A V σ ρ ε) (seq : Bool) (rows : List (List A × List (String × A))) (p : ShowPar V) :
    ∀ (es fs : List ShowEvent) (s : World A V σ ρ ε × Display V), runShow core seq rows p (es ++ fs) s = runShow core seq rows p fs (runShow core seq rows p es s)
  | [], _, _ => rfl
  | .run e :: es, fs, s => by rw [List.cons_append, runShow, runShow, runShow_append core seq rows p es]
  | .look :: es, fs, s => by rw [List.cons_append, runShow, runShow, runShow_append core seq rows p es]

theorem withoutLooks_append (es fs : List ShowEvent) : withoutLooks (es ++ fs) = withoutLooks es ++ withoutLooks fs := List.filterMap_append

/-! ## Completed runs -/

/-- What is known about the world: a run is marked as completed if and only if it is finished, and there are no runs but `n`. -/
structure World.Marks (n : Nat) (w : World A V σ ρ ε) : Prop where
  tasks : w.tasks.length = n
  marks : w.completed.length = n
  comp : ∀ i : Nat, w.completed[i]? = some true ↔ ∃ r, w.tasks[i]? = some (.finished r)
  out : ∀ i : Nat, n ≤ i → w.mem.status[i]? = none

/-- In the later world the completed runs are as they were. -/
def Later (w w' : World A V σ ρ ε) : Prop := ∀ i : Nat, w.completed[i]? = some true → w'.completed[i]? = some true ∧ own i w'.mem = own i w.mem

theorem Later.refl (w : World A V σ ρ ε) : Later w w := fun _ h => ⟨h, rfl⟩

theorem init_marks (zero : V) (n : Nat) (names : List String) : (World.init zero n names : World A V σ ρ ε).Marks n where
  tasks := List.length_replicate
  marks := List.length_replicate
  comp i := by
    constructor
    · intro h
      simp only [World.init, List.getElem?_replicate] at h
      split at h <;> cases h
    · rintro ⟨r, h⟩
      simp only [World.init, List.getElem?_replicate] at h
      split at h <;> cases h
  out i hi := by
    simp only [World.init, List.getElem?_replicate, if_neg (not_lt.2 hi)]

theorem marks_put {w : World A V σ ρ ε} {n i : Nat} (h : w.Marks n) {t t' : Task σ ρ ε} {m : Mem V} (ht : w.tasks[i]? = some t) (hf : ∀ r, t ≠ .finished r)
    (hf' : ∀ r, t' ≠ .finished r) (hm : ∀ j : Nat, n ≤ j → m.status[j]? = none) {f : Option ε} {c : List (Nat × List A × List (String × A))} :
    ({ w.put i t' m with failed := f, calls := c } : World A V σ ρ ε).Marks n where
  tasks := by simp [World.put, h.tasks]
  marks := h.marks
  comp j := by
    rw [show ({ w.put i t' m with failed := f, calls := c } : World A V σ ρ ε).completed = w.completed from rfl, h.comp]
    dsimp only [World.put]
    by_cases hj : i = j
    · subst hj
      have hlt := (List.getElem?_eq_some_iff.1 ht).1
      rw [List.getElem?_set_self hlt, ht]
      exact ⟨fun ⟨r, h⟩ => (hf r (Option.some.inj h)).elim, fun ⟨r, h⟩ => (hf' r (Option.some.inj h)).elim⟩
    · rw [List.getElem?_set_ne hj]
  out := hm

theorem workStep_marks {core : Core A V σ ρ ε} (hl : core.Local) {rows : List (List A × List (String × A))} {n i : Nat} {w : World A V σ ρ ε} (h : w.Marks n) :
    (workStep core rows i w).Marks n ∧ Later w (workStep core rows i w) := by
  have hlater : ∀ w' : World A V σ ρ ε, w' = workStep core rows i w → (∀ r, w.tasks[i]? ≠ some (.finished r)) → (∀ j : Nat, w.completed[j]? = some true → w'.completed[j]? = some true) →
      Later w w' := by
    rintro w' rfl hn hc j hj
    refine ⟨hc j hj, ?_⟩
    have hij : j ≠ i := by
      rintro rfl
      obtain ⟨r, hr⟩ := (h.comp j).1 hj
      exact hn r hr
    exact (workStep_other hl rows hij w).2.1
  have hin : ∀ {t : Task σ ρ ε}, w.tasks[i]? = some t → i < n := fun ht => by rw [← h.tasks]; exact (List.getElem?_eq_some_iff.1 ht).1
  unfold workStep at hlater ⊢
  split
  · next xs d ht hr =>
    rw [ht, hr] at hlater
    exact ⟨marks_put h ht (by simp) (by simp) h.out, hlater _ rfl (by simp) fun _ => id⟩
  · next s ht =>
    rw [ht] at hlater
    dsimp only at hlater
    have hw : ∀ j : Nat, n ≤ j → (core.step i s w.mem).mem.status[j]? = none := by
      intro j hj
      have hij : j ≠ i := by have := hin ht; omega
      have := congrArg Prod.fst (hl.writes (i := i) (s := s) (m := w.mem) hij)
      dsimp only [own] at this
      rw [this]; exact h.out j hj
    cases hs : core.step i s w.mem with
    | next s' m =>
      rw [hs] at hlater hw
      exact ⟨marks_put h ht (by simp) (by simp) hw, hlater _ rfl (by simp) fun _ => id⟩
    | ret r m =>
      rw [hs] at hlater hw
      exact ⟨marks_put h ht (by simp) (by simp) hw, hlater _ rfl (by simp) fun _ => id⟩
    | raise e m =>
      rw [hs] at hlater hw
      exact ⟨marks_put h ht (by simp) (by simp) hw, hlater _ rfl (by simp) fun _ => id⟩
  · next r ht =>
    rw [ht] at hlater
    dsimp only at hlater
    have hlt := (List.getElem?_eq_some_iff.1 ht).1
    have hlc : i < w.completed.length := by rw [h.marks, ← h.tasks]; exact hlt
    refine ⟨⟨by simp [World.put, h.tasks], by simp [h.marks], fun j => ?_, h.out⟩, hlater _ rfl (by simp) fun j hj => ?_⟩
    · dsimp only [World.put]
      by_cases hj : i = j
      · subst hj
        rw [List.getElem?_set_self hlt, List.getElem?_set_self hlc]
        exact ⟨fun _ => ⟨r, rfl⟩, fun _ => rfl⟩
      · rw [List.getElem?_set_ne hj, List.getElem?_set_ne hj]
        exact h.comp j
    · dsimp only
      by_cases hij : i = j
      · subst hij; rw [List.getElem?_set_self hlc]
      · rw [List.getElem?_set_ne hij, hj]
  · exact ⟨h, Later.refl w⟩

theorem tickStep_marks {n : Nat} {w : World A V σ ρ ε} (h : w.Marks n) : (tickStep w).Marks n ∧ Later w (tickStep w) := by
  obtain ⟨h1, h2, -, -, h5, -⟩ := tickStep_spec w
  refine ⟨⟨by rw [h1, h.tasks], by rw [h5, h.marks], fun i => by rw [h1, h5]; exact h.comp i, fun i hi => ?_⟩, fun i hi => ⟨by rw [h5, hi], h2 i⟩⟩
  have := congrArg Prod.fst (h2 i)
  dsimp only [own] at this
  rw [this]; exact h.out i hi

theorem event_marks {core : Core A V σ ρ ε} (hl : core.Local) {seq : Bool} {rows : List (List A × List (String × A))} {n : Nat} {w : World A V σ ρ ε} (h : w.Marks n)
    (e : Event) : (runSched core seq rows [e] w).Marks n ∧ Later w (runSched core seq rows [e] w) := by
  cases e with
  | tick => exact tickStep_marks h
  | work i =>
    rw [runSched, runSched]
    split
    · exact workStep_marks hl h
    · exact ⟨h, Later.refl w⟩

/-- The line of a run and whether it is positive depend only on its slots. -/
theorem lineOf_congr {names : List String} {m m' : Mem V} {i : Nat} (h : own i m = own i m') : lineOf names m i = lineOf names m' i := by
  obtain ⟨h1, h2⟩ := Prod.ext_iff.1 h
  dsimp only [own] at h1 h2
  have hb : ∀ (m : Mem V) (b : String), (dget m.bufs b).bind (fun xs => xs[i]?) = (dget (m.bufs.map fun b => (b.1, b.2[i]?)) b).join := by
    intro m b
    unfold dget
    rw [List.find?_map]
    simp only [Function.comp_def]
    cases m.bufs.find? fun e => decide (e.1 = b) <;> rfl
  unfold lineOf
  simp only [hb, h1, h2]

theorem positive_congr {pos : V → Bool} {m m' : Mem V} {i : Nat} (h : own i m = own i m') : Positive pos m i ↔ Positive pos m' i := by
  have := congrArg Prod.fst h
  dsimp only [own] at this
  unfold Positive
  rw [this]

theorem positive_any {pos : V → Bool} {m : Mem V} {i : Nat} : (m.status[i]?).any pos = true ↔ Positive pos m i := by
  unfold Positive
  cases m.status[i]? <;> simp

end TNCO
