import Verif.Spec.Parallel
import Verif.Lemmas.Dict
import Mathlib.Data.List.Basic
import Mathlib.Data.List.Perm.Basic
import Mathlib.Tactic.Ring
import Mathlib.Tactic.Linarith

/-! # Lemmas about parallel runs -/

namespace TNCO
variable {A V σ ρ ε : Type}

/-- One event. -/
def evStep (core : Core A V σ ρ ε) (seq : Bool) (rows : List (List A × List (String × A))) : Event → World A V σ ρ ε → World A V σ ρ ε
  | .tick, w => tickStep w
  | .work i, w => if mayRun seq w i then workStep core rows i w else w

theorem runSched_cons (core : Core A V σ ρ ε) (seq : Bool) (rows : List (List A × List (String × A))) (e : Event) (es : List Event) (w : World A V σ ρ ε) :
    runSched core seq rows (e :: es) w = runSched core seq rows es (evStep core seq rows e w) := by
  cases e <;> rfl

theorem runSched_append (core : Core A V σ ρ ε) (seq : Bool) (rows : List (List A × List (String × A))) :
    ∀ (es fs : List Event) (w : World A V σ ρ ε), runSched core seq rows (es ++ fs) w = runSched core seq rows fs (runSched core seq rows es w)
  | [], _, _ => rfl
  | e :: es, fs, w => by rw [List.cons_append, runSched_cons, runSched_cons, runSched_append core seq rows es]

/-- The state of worker `i` and its slots are not changed by the steps of others. -/
theorem workStep_other {core : Core A V σ ρ ε} (hl : core.Local) (rows : List (List A × List (String × A))) {i j : Nat} (hij : j ≠ i) (w : World A V σ ρ ε) :
    (workStep core rows i w).tasks[j]? = w.tasks[j]? ∧ own j (workStep core rows i w).mem = own j w.mem ∧
      (workStep core rows i w).mem.stop = w.mem.stop := by
  have hset : ∀ t : Task σ ρ ε, (w.tasks.set i t)[j]? = w.tasks[j]? := fun t => List.getElem?_set_ne (Ne.symm hij)
  unfold workStep
  split
  · exact ⟨hset _, rfl, rfl⟩
  · next _ _ s _ =>
    have hw := hl.writes (i := i) (s := s) (m := w.mem) hij
    have hs := hl.stop (i := i) (s := s) (m := w.mem)
    split <;> next hstep => rw [hstep] at hw hs; exact ⟨hset _, hw, hs⟩
  · exact ⟨hset _, rfl, rfl⟩
  · exact ⟨rfl, rfl, rfl⟩

theorem workStep_stop {core : Core A V σ ρ ε} (hl : core.Local) (rows : List (List A × List (String × A))) (i : Nat) (w : World A V σ ρ ε) :
    (workStep core rows i w).mem.stop = w.mem.stop := by
  unfold workStep
  split
  · rfl
  · next _ _ s _ =>
    have hs := hl.stop (i := i) (s := s) (m := w.mem)
    split <;> next hstep => rw [hstep] at hs; exact hs
  · rfl
  · rfl

/-- A step of the timer changes nothing but stop flags, which it sets. -/
theorem tickStep_spec (w : World A V σ ρ ε) :
    (tickStep w).tasks = w.tasks ∧ (∀ i, own i (tickStep w).mem = own i w.mem) ∧ (tickStep w).failed = w.failed ∧ (tickStep w).calls = w.calls ∧
      (tickStep w).completed = w.completed ∧ ∀ (i : Nat) (b : Bool), w.mem.stop[i]? = some b → ∃ b', (tickStep w).mem.stop[i]? = some b' ∧ (b = true → b' = true) := by
  unfold tickStep
  split
  · exact ⟨rfl, fun _ => rfl, rfl, rfl, rfl, fun i b h => ⟨b, h, id⟩⟩
  · next k _ =>
    split
    · refine ⟨rfl, fun _ => rfl, rfl, rfl, rfl, fun i b h => ?_⟩
      dsimp only
      by_cases hk : k = i
      · subst hk
        obtain ⟨hi, _⟩ := List.getElem?_eq_some_iff.1 h
        exact ⟨true, by rw [List.getElem?_set_self hi], fun _ => rfl⟩
      · exact ⟨b, by rw [List.getElem?_set_ne hk, h], id⟩
    · exact ⟨rfl, fun _ => rfl, rfl, rfl, rfl, fun i b h => ⟨b, h, id⟩⟩
  · exact ⟨rfl, fun _ => rfl, rfl, rfl, rfl, fun i b h => ⟨b, h, id⟩⟩

/-- What became of a task. -/
def Task.result : Task σ ρ ε → Option (Except ε ρ)
  | .returned r => some (.ok r)
  | .finished r => some (.ok r)
  | .raised e => some (.error e)
  | _ => none

/-- A task that is over stays as it is. -/
theorem ev_result {core : Core A V σ ρ ε} (seq : Bool) (rows : List (List A × List (String × A))) {i : Nat} {t : Task σ ρ ε} {x : Except ε ρ}
    (e : Event) (w : World A V σ ρ ε) (ht : w.tasks[i]? = some t) (hx : t.result = some x) :
    ∃ t', (evStep core seq rows e w).tasks[i]? = some t' ∧ t'.result = some x := by
  cases e with
  | tick => exact ⟨t, by rw [evStep, (tickStep_spec w).1, ht], hx⟩
  | work j =>
    rw [evStep]
    split
    · by_cases hj : i = j
      · subst hj
        have hlt := (List.getElem?_eq_some_iff.1 ht).1
        unfold workStep
        rw [ht]
        cases t with
        | pending => cases hx
        | running s => cases hx
        | returned r => exact ⟨.finished r, by simp [World.put, hlt], hx⟩
        | finished r => exact ⟨_, ht, hx⟩
        | raised e => exact ⟨_, ht, hx⟩
      · refine ⟨t, ?_, hx⟩
        have hset : ∀ t : Task σ ρ ε, (w.tasks.set j t)[i]? = w.tasks[i]? := fun t => List.getElem?_set_ne (fun h => hj h.symm)
        unfold workStep
        split
        · rw [← ht]; exact hset _
        · split <;> (rw [← ht]; exact hset _)
        · rw [← ht]; exact hset _
        · exact ht
    · exact ⟨t, ht, hx⟩

theorem sched_result {core : Core A V σ ρ ε} (seq : Bool) (rows : List (List A × List (String × A))) {i : Nat} {x : Except ε ρ} :
    ∀ (es : List Event) (w : World A V σ ρ ε) (t : Task σ ρ ε), w.tasks[i]? = some t → t.result = some x →
      ∃ t', (runSched core seq rows es w).tasks[i]? = some t' ∧ t'.result = some x
  | [], _, t, ht, hx => ⟨t, ht, hx⟩
  | e :: es, w, t, ht, hx => by
    rw [runSched_cons]
    obtain ⟨t', ht', hx'⟩ := ev_result (core := core) seq rows e w ht hx
    exact sched_result seq rows es _ t' ht' hx'

/-- The run of a worker within the whole is its run alone under some stop signal. -/
theorem running_alone {core : Core A V σ ρ ε} (hl : core.Local) (seq : Bool) (rows : List (List A × List (String × A))) {i : Nat} {x : Except ε ρ} :
    ∀ (es : List Event) (w : World A V σ ρ ε) (s : σ) (m : Mem V) (b : Bool), w.tasks[i]? = some (.running s) → own i w.mem = own i m →
      w.mem.stop[i]? = some b → i < m.stop.length →
      ∀ t, (runSched core seq rows es w).tasks[i]? = some t → t.result = some x →
        ∃ sig fuel, StaysSet sig ∧ (b = true → ∀ k, sig k = true) ∧ (.tick ∉ es → ∀ k, sig k = b) ∧ alone core i sig fuel s m = some x
  | [], w, s, m, b, hr, _, _, _, t, ht, hx => by
    rw [runSched, hr] at ht; cases ht; cases hx
  | .tick :: es, w, s, m, b, hr, ho, hb, hm, t, ht, hx => by
    rw [runSched_cons] at ht
    obtain ⟨h1, h2, -, -, -, h3⟩ := tickStep_spec w
    obtain ⟨b', hb', hbb⟩ := h3 i b hb
    obtain ⟨sig, fuel, hs, ht', -, ha⟩ := running_alone hl seq rows es (tickStep w) s m b' (by rw [h1, hr]) (by rw [h2, ho]) hb' hm t ht hx
    exact ⟨sig, fuel, hs, fun h => ht' (hbb h), fun h => absurd List.mem_cons_self h, ha⟩
  | .work j :: es, w, s, m, b, hr, ho, hb, hm, t, ht, hx => by
    rw [runSched_cons, evStep] at ht
    have hmem : (.tick ∉ Event.work j :: es) → .tick ∉ es := fun h h' => h (List.mem_cons_of_mem _ h')
    split at ht
    · by_cases hj : i = j
      · subst hj
        have hlt := (List.getElem?_eq_some_iff.1 hr).1
        have hset : own i w.mem = own i { m with stop := m.stop.set i b } := ho
        have hst : w.mem.stop[i]? = { m with stop := m.stop.set i b }.stop[i]? := by
          rw [hb]; exact (List.getElem?_set_self hm).symm
        obtain ⟨hout, hown⟩ := hl.reads (s := s) hset hst
        have hstop := hl.stop (i := i) (s := s) (m := { m with stop := m.stop.set i b })
        have hwstop := workStep_stop hl rows i w
        unfold workStep at ht hwstop
        rw [hr] at ht hwstop
        dsimp only at ht hwstop
        cases hw : core.step i s w.mem with
        | next s' m' =>
          rw [hw] at ht hout hown hwstop
          dsimp only at ht hwstop
          cases ha : core.step i s { m with stop := m.stop.set i b } with
          | next s2 m2 =>
            rw [ha] at hout hown hstop
            cases hout
            obtain ⟨sig, fuel, hs, ht', hn, hal⟩ := running_alone hl seq rows es _ s' m2 b (by simp [World.put, hlt]) hown (by rw [hwstop, hb])
              (by rw [show m2.stop = m.stop.set i b from hstop, List.length_set]; exact hm) t ht hx
            refine ⟨fun k => match k with | 0 => b | k + 1 => sig k, fuel + 1, ?_, ?_, ?_, ?_⟩
            · intro k hk
              cases k with
              | zero => exact ht' hk 0
              | succ k => exact hs k hk
            · intro hb k
              cases k with
              | zero => exact hb
              | succ k => exact ht' hb k
            · intro h k
              cases k with
              | zero => rfl
              | succ k => exact hn (hmem h) k
            · rw [alone, ha]; exact hal
          | ret r2 m2 => rw [ha] at hout; cases hout
          | raise e2 m2 => rw [ha] at hout; cases hout
        | ret r m' =>
          rw [hw] at ht hout
          dsimp only at ht
          have h0 : (w.put i (.returned r) m').tasks[i]? = some (.returned r) := by simp [World.put, hlt]
          obtain ⟨t', ht', hx'⟩ := sched_result (core := core) (x := .ok r) seq rows es _ (.returned r) h0 rfl
          rw [ht'] at ht; cases ht
          rw [hx'] at hx; cases hx
          refine ⟨fun _ => b, 1, fun k h => h, fun h k => h, fun _ _ => rfl, ?_⟩
          cases ha : core.step i s { m with stop := m.stop.set i b } with
          | next s2 m2 => rw [ha] at hout; cases hout
          | ret r2 m2 => rw [ha] at hout; cases hout; rw [alone, ha]
          | raise e2 m2 => rw [ha] at hout; cases hout
        | raise e m' =>
          rw [hw] at ht hout
          dsimp only at ht
          have h0 : ({ w.put i (.raised e) m' with failed := w.failed.or (some e) }).tasks[i]? = some (.raised e) := by simp [World.put, hlt]
          obtain ⟨t', ht', hx'⟩ := sched_result (core := core) (x := .error e) seq rows es _ (.raised e) h0 rfl
          rw [ht'] at ht; cases ht
          rw [hx'] at hx; cases hx
          refine ⟨fun _ => b, 1, fun k h => h, fun h k => h, fun _ _ => rfl, ?_⟩
          cases ha : core.step i s { m with stop := m.stop.set i b } with
          | next s2 m2 => rw [ha] at hout; cases hout
          | ret r2 m2 => rw [ha] at hout; cases hout
          | raise e2 m2 => rw [ha] at hout; cases hout; rw [alone, ha]
      · obtain ⟨h1, h2, h3⟩ := workStep_other hl rows hj w
        obtain ⟨sig, fuel, hs, ht', hn, ha⟩ := running_alone hl seq rows es _ s m b (by rw [h1, hr]) (by rw [h2, ho]) (by rw [h3, hb]) hm t ht hx
        exact ⟨sig, fuel, hs, ht', fun h => hn (hmem h), ha⟩
    · obtain ⟨sig, fuel, hs, ht', hn, ha⟩ := running_alone hl seq rows es w s m b hr ho hb hm t ht hx
      exact ⟨sig, fuel, hs, ht', fun h => hn (hmem h), ha⟩

/-- The same from the start: a pending task. -/
theorem pending_alone {core : Core A V σ ρ ε} (hl : core.Local) (seq : Bool) (rows : List (List A × List (String × A))) {i : Nat} {x : Except ε ρ}
    {row : List A × List (String × A)} (hrow : rows[i]? = some row) :
    ∀ (es : List Event) (w : World A V σ ρ ε) (m : Mem V) (b : Bool), w.tasks[i]? = some .pending → own i w.mem = own i m →
      w.mem.stop[i]? = some b → i < m.stop.length →
      ∀ t, (runSched core seq rows es w).tasks[i]? = some t → t.result = some x →
        ∃ sig fuel, StaysSet sig ∧ (.tick ∉ es → ∀ k, sig k = b) ∧ alone core i sig fuel (core.start row.1 row.2 i) m = some x
  | [], w, m, b, hr, _, _, _, t, ht, hx => by
    rw [runSched, hr] at ht; cases ht; cases hx
  | .tick :: es, w, m, b, hr, ho, hb, hm, t, ht, hx => by
    rw [runSched_cons] at ht
    obtain ⟨h1, h2, -, -, -, h3⟩ := tickStep_spec w
    obtain ⟨b', hb', -⟩ := h3 i b hb
    obtain ⟨sig, fuel, hs, -, ha⟩ := pending_alone hl seq rows hrow es (tickStep w) m b' (by rw [h1, hr]) (by rw [h2, ho]) hb' hm t ht hx
    exact ⟨sig, fuel, hs, fun h => absurd List.mem_cons_self h, ha⟩
  | .work j :: es, w, m, b, hr, ho, hb, hm, t, ht, hx => by
    rw [runSched_cons, evStep] at ht
    have hmem : (.tick ∉ Event.work j :: es) → .tick ∉ es := fun h h' => h (List.mem_cons_of_mem _ h')
    split at ht
    · by_cases hj : i = j
      · subst hj
        have hlt := (List.getElem?_eq_some_iff.1 hr).1
        unfold workStep at ht
        rw [hr, hrow] at ht
        dsimp only at ht
        have h0 : ({ w.put i (.running (core.start row.1 row.2 i)) w.mem with calls := w.calls ++ [(i, row.1, row.2)] }).tasks[i]? =
            some (.running (core.start row.1 row.2 i)) := by simp [World.put, hlt]
        obtain ⟨sig, fuel, hs, -, hn, ha⟩ := running_alone hl seq rows es _ _ m b h0 ho hb hm t ht hx
        exact ⟨sig, fuel, hs, fun h => hn (hmem h), ha⟩
      · obtain ⟨h1, h2, h3⟩ := workStep_other hl rows hj w
        obtain ⟨sig, fuel, hs, hn, ha⟩ := pending_alone hl seq rows hrow es _ m b (by rw [h1, hr]) (by rw [h2, ho]) (by rw [h3, hb]) hm t ht hx
        exact ⟨sig, fuel, hs, fun h => hn (hmem h), ha⟩
    · obtain ⟨sig, fuel, hs, hn, ha⟩ := pending_alone hl seq rows hrow es w m b hr ho hb hm t ht hx
      exact ⟨sig, fuel, hs, fun h => hn (hmem h), ha⟩

/-- More fuel does not change the result of a run. -/
theorem alone_mono {core : Core A V σ ρ ε} {i : Nat} {x : Except ε ρ} :
    ∀ {fuel : Nat} {sig : Nat → Bool} {s : σ} {m : Mem V} (k : Nat), alone core i sig fuel s m = some x → alone core i sig (fuel + k) s m = some x
  | 0, _, _, _, _, h => by cases h
  | fuel + 1, sig, s, m, k, h => by
    rw [Nat.add_right_comm, alone]
    rw [alone] at h
    split at h
    · exact alone_mono k h
    · exact h
    · exact h

theorem alone_unique {core : Core A V σ ρ ε} {i : Nat} {x y : Except ε ρ} {f g : Nat} {sig : Nat → Bool} {s : σ} {m : Mem V}
    (hx : alone core i sig f s m = some x) (hy : alone core i sig g s m = some y) : x = y := by
  have h1 := alone_mono g hx
  have h2 := alone_mono f hy
  rw [Nat.add_comm] at h2
  rw [h1] at h2
  exact Option.some.inj h2

end TNCO
