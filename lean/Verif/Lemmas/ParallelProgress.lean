import Verif.Lemmas.ParallelRun
import Mathlib.Algebra.BigOperators.Group.Finset.Basic
import Mathlib.Algebra.Order.BigOperators.Group.Finset

/-! # Parallel runs end -/

namespace TNCO
variable {A V σ ρ ε : Type}

/-- Worker `i` needs at most `N` steps, whatever the stop signal. -/
def Ends (core : Core A V σ ρ ε) (i N : Nat) (s : σ) (m : Mem V) : Prop := ∀ sig, ∃ x, alone core i sig N s m = some x

theorem alone_congr {core : Core A V σ ρ ε} (hl : core.Local) {i : Nat} :
    ∀ (N : Nat) (sig : Nat → Bool) (s : σ) {m m' : Mem V}, own i m = own i m' → i < m.stop.length → i < m'.stop.length →
      alone core i sig N s m = alone core i sig N s m'
  | 0, _, _, _, _, _, _, _ => rfl
  | N + 1, sig, s, m, m', ho, hm, hm' => by
    have hst : { m with stop := m.stop.set i (sig 0) }.stop[i]? = { m' with stop := m'.stop.set i (sig 0) }.stop[i]? := by
      dsimp only
      rw [List.getElem?_set_self hm, List.getElem?_set_self hm']
    have ho' : own i { m with stop := m.stop.set i (sig 0) } = own i { m' with stop := m'.stop.set i (sig 0) } := ho
    obtain ⟨hout, hown⟩ := hl.reads (s := s) ho' hst
    have h1 := hl.stop (i := i) (s := s) (m := { m with stop := m.stop.set i (sig 0) })
    have h2 := hl.stop (i := i) (s := s) (m := { m' with stop := m'.stop.set i (sig 0) })
    rw [alone, alone]
    cases h : core.step i s { m with stop := m.stop.set i (sig 0) } <;> cases h' : core.step i s { m' with stop := m'.stop.set i (sig 0) } <;>
      rw [h, h'] at hout <;> cases hout <;> try rfl
    rw [h] at h1 hown
    rw [h'] at h2 hown
    refine alone_congr hl N _ _ hown ?_ ?_
    · dsimp only [CoreStep.mem] at h1; rw [h1, List.length_set]; exact hm
    · dsimp only [CoreStep.mem] at h2; rw [h2, List.length_set]; exact hm'

theorem Ends.congr {core : Core A V σ ρ ε} (hl : core.Local) {i N : Nat} {s : σ} {m m' : Mem V} (h : Ends core i N s m) (ho : own i m = own i m')
    (hm : i < m.stop.length) (hm' : i < m'.stop.length) : Ends core i N s m' := fun sig => by
  rw [← alone_congr hl N sig s ho hm hm']; exact h sig

theorem Ends.next {core : Core A V σ ρ ε} {i N : Nat} {s s' : σ} {m m' : Mem V} (h : Ends core i (N + 1) s m) (hi : i < m.stop.length)
    (hs : core.step i s m = .next s' m') : Ends core i N s' m' := fun sig => by
  obtain ⟨x, hx⟩ := h fun k => match k with | 0 => m.stop[i] | k + 1 => sig k
  have : ({ m with stop := m.stop.set i m.stop[i] } : Mem V) = m := by rw [List.set_getElem_self]
  rw [alone] at hx
  dsimp only at hx
  rw [this, hs] at hx
  exact ⟨x, hx⟩

/-- How many more steps a task may take at most. -/
def Budget (core : Core A V σ ρ ε) (rows : List (List A × List (String × A))) (N : Nat) (w : World A V σ ρ ε) (i c : Nat) : Prop :=
  match w.tasks[i]? with
  | some .pending => c = N + 2 ∧ ∀ row, rows[i]? = some row → Ends core i N (core.start row.1 row.2 i) w.mem
  | some (.running s) => ∃ k, c = k + 1 ∧ Ends core i k s w.mem
  | some (.returned _) => c = 1
  | _ => c = 0

theorem budget_congr {core : Core A V σ ρ ε} (hl : core.Local) {rows : List (List A × List (String × A))} {N : Nat} {w w' : World A V σ ρ ε} {i c : Nat}
    (h : Budget core rows N w i c) (ht : w'.tasks[i]? = w.tasks[i]?) (ho : own i w.mem = own i w'.mem) (hi : i < w.mem.stop.length)
    (hi' : i < w'.mem.stop.length) : Budget core rows N w' i c := by
  unfold Budget at h ⊢
  rw [ht]
  split
  · next h1 => rw [h1] at h; exact ⟨h.1, fun row hrow => (h.2 row hrow).congr hl ho hi hi'⟩
  · next h1 => rw [h1] at h; obtain ⟨k, hk, he⟩ := h; exact ⟨k, hk, he.congr hl ho hi hi'⟩
  · next h1 => rw [h1] at h; exact h
  · next h1 h2 h3 =>
    split at h
    · next h' => exact (h1 h').elim
    · next h' => exact (h2 _ h').elim
    · next h' => exact (h3 _ h').elim
    · exact h

theorem evStep_stop {core : Core A V σ ρ ε} (hl : core.Local) (seq : Bool) (rows : List (List A × List (String × A))) (e : Event) (w : World A V σ ρ ε) :
    (evStep core seq rows e w).mem.stop.length = w.mem.stop.length := by
  cases e with
  | tick =>
    rw [evStep, tickStep]
    split
    · rfl
    · split
      · exact List.length_set
      · rfl
    · rfl
  | work i =>
    rw [evStep]
    split
    · rw [workStep_stop hl]
    · rfl

theorem ev_budget {core : Core A V σ ρ ε} (hl : core.Local) {seq : Bool} {rows : List (List A × List (String × A))} {N : Nat} {w : World A V σ ρ ε} {i c : Nat}
    (hi : i < rows.length) (hw : rows.length = w.mem.stop.length) (h : Budget core rows N w i c) (e : Event) :
    ∃ c', Budget core rows N (evStep core seq rows e w) i c' ∧ c' ≤ c ∧ (e = .work i → mayRun seq w i = true → 0 < c → c' < c) := by
  have hstop := evStep_stop hl seq rows e w
  cases e with
  | tick =>
    obtain ⟨h1, h2, -⟩ := tickStep_spec w
    exact ⟨c, budget_congr hl h (by rw [evStep, h1]) (by rw [evStep, h2]) (by omega) (by omega), le_rfl, fun h => by cases h⟩
  | work j =>
    rw [evStep] at hstop ⊢
    split
    · next hm =>
      rw [if_pos hm] at hstop
      by_cases hj : i = j
      · subst hj
        unfold Budget at h
        unfold workStep at hstop ⊢
        cases ht : w.tasks[i]? with
        | none => rw [ht] at h; exact ⟨c, by simpa only [Budget, ht] using h, le_rfl, fun _ _ h0 => by dsimp only at h; omega⟩
        | some t =>
          have hlt := (List.getElem?_eq_some_iff.1 ht).1
          have hget : ∀ t, (w.tasks.set i t)[i]? = some t := fun t => List.getElem?_set_self hlt
          rw [ht] at h hstop
          cases t with
          | pending =>
            obtain ⟨rfl, he⟩ := h
            rw [List.getElem?_eq_getElem hi]
            exact ⟨N + 1, by simp only [Budget, World.put, hget]; exact ⟨N, rfl, he _ (List.getElem?_eq_getElem hi)⟩, by omega, fun _ _ _ => by omega⟩
          | running s =>
            obtain ⟨k, rfl, he⟩ := h
            cases k with
            | zero => obtain ⟨x, hx⟩ := he fun _ => false; cases hx
            | succ k =>
              dsimp only at hstop ⊢
              cases hs : core.step i s w.mem with
              | next s' m' =>
                exact ⟨k + 1, by simp only [Budget, World.put, hget]; exact ⟨k, rfl, he.next (by omega) hs⟩, by omega, fun _ _ _ => by omega⟩
              | ret r m' => exact ⟨1, by simp only [Budget, World.put, hget], by omega, fun _ _ _ => by omega⟩
              | raise e m' => exact ⟨0, by simp only [Budget, World.put, hget], by omega, fun _ _ _ => by omega⟩
          | returned r =>
            obtain rfl : c = 1 := h
            exact ⟨0, by simp only [Budget, World.put, hget], by omega, fun _ _ _ => by omega⟩
          | finished r =>
            obtain rfl : c = 0 := h
            exact ⟨0, by simp only [Budget, ht], by omega, fun _ _ h => by omega⟩
          | raised e =>
            obtain rfl : c = 0 := h
            exact ⟨0, by simp only [Budget, ht], by omega, fun _ _ h => by omega⟩
      · obtain ⟨h1, h2, h3⟩ := workStep_other hl rows hj w
        exact ⟨c, budget_congr hl h h1 h2.symm (by omega) (by omega), le_rfl, fun h => by cases h; exact absurd rfl hj⟩
    · next hm => exact ⟨c, h, le_rfl, fun h h' => by cases h; exact absurd h' hm⟩

/-- All budgets. -/
def Budgets (core : Core A V σ ρ ε) (rows : List (List A × List (String × A))) (N : Nat) (w : World A V σ ρ ε) (c : Nat → Nat) : Prop :=
  ∀ i < rows.length, Budget core rows N w i (c i)

theorem ev_budgets {core : Core A V σ ρ ε} (hl : core.Local) {seq : Bool} {rows : List (List A × List (String × A))} {N : Nat} {w : World A V σ ρ ε} {c : Nat → Nat}
    (hw : rows.length = w.mem.stop.length) (h : Budgets core rows N w c) (e : Event) :
    ∃ c', Budgets core rows N (evStep core seq rows e w) c' ∧ (∀ i, c' i ≤ c i) ∧
      ∀ i < rows.length, e = .work i → mayRun seq w i = true → 0 < c i → c' i < c i := by
  classical
  have : ∀ i, ∃ c', (i < rows.length → Budget core rows N (evStep core seq rows e w) i c') ∧ c' ≤ c i ∧
      (i < rows.length → e = .work i → mayRun seq w i = true → 0 < c i → c' < c i) := by
    intro i
    by_cases hi : i < rows.length
    · obtain ⟨c', h1, h2, h3⟩ := ev_budget hl (seq := seq) hi hw (h i hi) e
      exact ⟨c', fun _ => h1, h2, fun _ => h3⟩
    · exact ⟨c i, fun h => absurd h hi, le_rfl, fun h => absurd h hi⟩
  choose c' h1 h2 h3 using this
  exact ⟨c', fun i hi => h1 i hi, h2, fun i hi => h3 i hi⟩

/-- Within a sequence of events that contains a step of worker `i`, its budget gets smaller, provided that it may run. -/
theorem round_budgets {core : Core A V σ ρ ε} (hl : core.Local) {seq : Bool} {rows : List (List A × List (String × A))} {N i : Nat} (hi : i < rows.length) :
    ∀ (es : List Event) {w : World A V σ ρ ε} {c : Nat → Nat}, rows.length = w.mem.stop.length → Budgets core rows N w c →
      ∃ c', Budgets core rows N (runSched core seq rows es w) c' ∧ (∀ j, c' j ≤ c j) ∧
        (.work i ∈ es → (∀ j < i, ∃ r, w.tasks[j]? = some (.finished r)) → i < w.tasks.length → 0 < c i → c' i < c i)
  | [], _, c, _, h => ⟨c, h, fun _ => le_rfl, fun h => (List.not_mem_nil h).elim⟩
  | e :: es, w, c, hw, h => by
    rw [runSched_cons]
    obtain ⟨c1, hb1, hle1, hlt1⟩ := ev_budgets hl (seq := seq) hw h e
    obtain ⟨c2, hb2, hle2, hlt2⟩ := round_budgets hl hi es (w := evStep core seq rows e w) (by rw [evStep_stop hl]; exact hw) hb1
    refine ⟨c2, hb2, fun j => (hle2 j).trans (hle1 j), fun hmem hfin hilt h0 => ?_⟩
    by_cases he : e = .work i
    · refine lt_of_le_of_lt (hle2 i) (hlt1 i hi he ?_ h0)
      rw [mayRun, Bool.or_eq_true]
      right
      rw [List.all_eq_true]
      intro t ht
      obtain ⟨j, hj, rfl⟩ := List.mem_take_iff_getElem.1 ht
      obtain ⟨r, hr⟩ := hfin j (by omega)
      rw [List.getElem?_eq_getElem (by omega)] at hr
      rw [Option.some.inj hr]; rfl
    · have hmem' : .work i ∈ es := by
        rcases List.mem_cons.1 hmem with h | h
        · exact absurd h.symm he
        · exact h
      by_cases hc : c1 i < c i
      · exact lt_of_le_of_lt (hle2 i) hc
      · have hc1 : c1 i = c i := le_antisymm (hle1 i) (not_lt.1 hc)
        rw [← hc1] at h0 ⊢
        refine hlt2 hmem' (fun j hj => ?_) ?_ h0
        · obtain ⟨r, hr⟩ := hfin j hj
          -- finished tasks stay as they are
          cases e with
          | tick => exact ⟨r, by rw [evStep, (tickStep_spec w).1, hr]⟩
          | work k =>
            rw [evStep]
            split
            · by_cases hk : j = k
              · subst hk
                exact ⟨r, by rw [workStep, hr]; exact hr⟩
              · exact ⟨r, by rw [(workStep_other hl rows hk w).1, hr]⟩
            · exact ⟨r, hr⟩
        · cases e with
          | tick => rw [evStep, (tickStep_spec w).1]; exact hilt
          | work k =>
            rw [evStep]
            split
            · rw [workStep]
              split
              · simpa [World.put] using hilt
              · split <;> simpa [World.put] using hilt
              · simpa [World.put] using hilt
              · exact hilt
            · exact hilt

/-- Failures are not forgotten. -/
theorem sched_failed {core : Core A V σ ρ ε} {seq : Bool} {rows : List (List A × List (String × A))} :
    ∀ (es : List Event) {w : World A V σ ρ ε}, (runSched core seq rows es w).failed = none → w.failed = none
  | [], _, h => h
  | e :: es, w, h => by
    rw [runSched_cons] at h
    have := sched_failed es h
    cases e with
    | tick => rw [evStep, (tickStep_spec w).2.2.1] at this; exact this
    | work i =>
      rw [evStep] at this
      split at this
      · unfold workStep at this
        split at this
        · exact this
        · split at this
          · exact this
          · exact this
          · cases hw : w.failed with
            | none => rfl
            | some _ => dsimp only at this; rw [hw] at this; cases this
        · exact this
        · exact this
      · exact this

/-- A run through rounds, in each of which every worker gets a turn, ends. -/
theorem rounds_end {core : Core A V σ ρ ε} (hl : core.Local) {seq : Bool} {rows : List (List A × List (String × A))} {N : Nat} :
    ∀ (rounds : List (List Event)) {w : World A V σ ρ ε} {c : Nat → Nat}, w.Inv rows seq → rows.length = w.mem.stop.length → Budgets core rows N w c →
      (∀ r ∈ rounds, ∀ i < rows.length, .work i ∈ r) → (∑ i ∈ Finset.range rows.length, c i) ≤ rounds.length →
      collect (runSched core seq rows rounds.flatten w) ≠ none
  | [], w, c, hinv, hw, hb, _, hle => by
    have hz : ∀ i < rows.length, c i = 0 := by
      intro i hi
      have := Finset.single_le_sum (f := c) (fun _ _ => Nat.zero_le _) (Finset.mem_range.2 hi)
      simp only [List.length_nil] at hle
      omega
    change collect w ≠ none
    intro hn
    have hf : w.failed = none := by
      cases hf : w.failed with
      | none => rfl
      | some e => unfold collect at hn; rw [hf] at hn; cases hn
    obtain ⟨rs, hrs⟩ := collect_all hf (fun t ht => by
      obtain ⟨i, hi, rfl⟩ := List.mem_iff_getElem.1 ht
      have hir : i < rows.length := by rw [← hinv.tasks]; exact hi
      have := hb i hir
      rw [hz i hir] at this
      unfold Budget at this
      rw [List.getElem?_eq_getElem hi] at this
      cases ht' : w.tasks[i] with
      | pending => rw [ht'] at this; obtain ⟨h, _⟩ := this; omega
      | running s => rw [ht'] at this; obtain ⟨k, h, _⟩ := this; omega
      | returned r => rw [ht'] at this; cases this
      | finished r => exact ⟨r, rfl⟩
      | raised e => exact (hinv.raised i e (by rw [List.getElem?_eq_getElem hi, ht']) hf).elim)
    rw [hrs] at hn; cases hn
  | r :: rounds, w, c, hinv, hw, hb, hr, hle => by
    rw [List.flatten_cons, runSched_append]
    have hinv' := runSched_inv (core := core) r hinv
    have hw' : rows.length = (runSched core seq rows r w).mem.stop.length := by
      have : ∀ (es : List Event) (w : World A V σ ρ ε), (runSched core seq rows es w).mem.stop.length = w.mem.stop.length := by
        intro es
        induction es with
        | nil => intro _; rfl
        | cons e es ih => intro w; rw [runSched_cons, ih, evStep_stop hl]
      rw [this]; exact hw
    by_cases hdone : ∀ j < rows.length, ∃ x, w.tasks[j]? = some (.finished x)
    · -- everything has finished already
      have hfin : collect (runSched core seq rows rounds.flatten (runSched core seq rows r w)) ≠ none := by
        rw [← runSched_append]
        intro hn
        have hf : (runSched core seq rows (r ++ rounds.flatten) w).failed = none := by
          cases hf : (runSched core seq rows (r ++ rounds.flatten) w).failed with
          | none => rfl
          | some e => unfold collect at hn; rw [hf] at hn; cases hn
        have hfixed : ∀ (es : List Event) (w : World A V σ ρ ε), (∀ j < rows.length, ∃ x, w.tasks[j]? = some (.finished x)) → w.tasks.length = rows.length →
            (runSched core seq rows es w).tasks = w.tasks := by
          intro es
          induction es with
          | nil => intros; rfl
          | cons e es ih =>
            intro w hd hlen
            have : (evStep core seq rows e w).tasks = w.tasks := by
              cases e with
              | tick => exact (tickStep_spec w).1
              | work k =>
                rw [evStep]
                split
                · by_cases hk : k < rows.length
                  · obtain ⟨x, hx⟩ := hd k hk
                    rw [workStep, hx]
                  · rw [workStep, List.getElem?_eq_none (by omega)]
                · rfl
            rw [runSched_cons, ih _ (by rw [this]; exact hd) (by rw [this]; exact hlen), this]
        obtain ⟨rs, hrs⟩ := collect_all hf (fun t ht => by
          rw [hfixed _ _ hdone hinv.tasks] at ht
          obtain ⟨i, hi, rfl⟩ := List.mem_iff_getElem.1 ht
          obtain ⟨x, hx⟩ := hdone i (by rw [← hinv.tasks]; exact hi)
          rw [List.getElem?_eq_getElem hi] at hx
          exact ⟨x, Option.some.inj hx⟩)
        rw [hrs] at hn; cases hn
      exact hfin
    · -- the first task that has not finished takes a step
      push Not at hdone
      classical
      have hex : ∃ j, j < rows.length ∧ ∀ x, w.tasks[j]? ≠ some (.finished x) := hdone
      obtain ⟨hi, hnf⟩ := Nat.find_spec hex
      set i := Nat.find hex with hidef
      have hbefore : ∀ j < i, ∃ x, w.tasks[j]? = some (.finished x) := by
        intro j hj
        have := Nat.find_min hex hj
        push Not at this
        exact this (by omega)
      by_cases hra : ∃ e, w.tasks[i]? = some (.raised e)
      · obtain ⟨e, he⟩ := hra
        intro hn
        have hf : (runSched core seq rows rounds.flatten (runSched core seq rows r w)).failed = none := by
          cases hf : (runSched core seq rows rounds.flatten (runSched core seq rows r w)).failed with
          | none => rfl
          | some e => unfold collect at hn; rw [hf] at hn; cases hn
        exact hinv.raised i e he (sched_failed r (sched_failed _ hf))
      · obtain ⟨c', hb', hle', hlt'⟩ := round_budgets hl (seq := seq) hi r hw hb
        have hilt : i < w.tasks.length := by rw [hinv.tasks]; exact hi
        have h0 : 0 < c i := by
          have := hb i hi
          unfold Budget at this
          rw [List.getElem?_eq_getElem hilt] at this
          cases ht' : w.tasks[i] with
          | pending => rw [ht'] at this; obtain ⟨h, _⟩ := this; omega
          | running s => rw [ht'] at this; obtain ⟨k, h, _⟩ := this; omega
          | returned r => rw [ht'] at this; dsimp only at this; omega
          | finished r => exact (hnf r (by rw [List.getElem?_eq_getElem hilt, ht'])).elim
          | raised e => exact (hra ⟨e, by rw [List.getElem?_eq_getElem hilt, ht']⟩).elim
        refine rounds_end hl rounds hinv' hw' hb' (fun r hr' => hr r (List.mem_cons_of_mem _ hr')) ?_
        have hlt := hlt' (hr r List.mem_cons_self i hi) hbefore hilt h0
        have : (∑ i ∈ Finset.range rows.length, c' i) < ∑ i ∈ Finset.range rows.length, c i :=
          Finset.sum_lt_sum (fun j _ => hle' j) ⟨i, Finset.mem_range.2 hi, hlt⟩
        rw [List.length_cons] at hle
        omega

end TNCO
