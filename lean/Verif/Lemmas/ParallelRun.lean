import Verif.Lemmas.Parallel

/-! # Invariants of parallel runs: calls, failures, progress -/

namespace TNCO
variable {A V σ ρ ε : Type}

/-- What holds in every reachable world. -/
structure World.Inv (rows : List (List A × List (String × A))) (seq : Bool) (w : World A V σ ρ ε) : Prop where
  tasks : w.tasks.length = rows.length
  calls : ∀ c, c ∈ w.calls ↔ ∃ row, rows[c.1]? = some row ∧ c.2 = row ∧ w.tasks[c.1]? ≠ some .pending
  nodup : (w.calls.map Prod.fst).Nodup
  order : seq = true → w.calls.map Prod.fst = List.range w.calls.length
  failed : ∀ e, w.failed = some e → ∃ i : Nat, w.tasks[i]? = some (.raised e)
  raised : ∀ (i : Nat) e, w.tasks[i]? = some (.raised e) → w.failed ≠ none

theorem init_inv (rows : List (List A × List (String × A))) (seq : Bool) (zero : V) (names : List String) :
    (World.init zero rows.length names : World A V σ ρ ε).Inv rows seq where
  tasks := List.length_replicate
  calls c := by
    refine ⟨fun h => (List.not_mem_nil h).elim, fun ⟨row, h, _, h'⟩ => (h' ?_).elim⟩
    have := (List.getElem?_eq_some_iff.1 h).1
    simp [World.init, List.getElem?_replicate, this]
  nodup := List.nodup_nil
  order _ := rfl
  failed e h := by cases h
  raised i e h := by
    simp only [World.init, List.getElem?_replicate] at h
    split at h <;> cases h

/-- A step that keeps the calls. -/
theorem inv_put {rows : List (List A × List (String × A))} {seq : Bool} {w : World A V σ ρ ε} (h : w.Inv rows seq) {i : Nat} {t t' : Task σ ρ ε} {m : Mem V}
    {comp : List Bool} {f : Option ε} (ht : w.tasks[i]? = some t) (hp : t ≠ .pending) (hp' : t' ≠ .pending)
    (hr : ∀ e, t ≠ .raised e) (hf : (f = w.failed ∧ ∀ e, t' ≠ .raised e) ∨ ∃ e, f = w.failed.or (some e) ∧ t' = .raised e) :
    ({ w.put i t' m with completed := comp, failed := f } : World A V σ ρ ε).Inv rows seq where
  tasks := by simp [World.put, h.tasks]
  calls c := by
    rw [show ({ w.put i t' m with completed := comp, failed := f } : World A V σ ρ ε).calls = w.calls from rfl, h.calls]
    have : (({ w.put i t' m with completed := comp, failed := f } : World A V σ ρ ε).tasks[c.1]? ≠ some .pending) ↔ w.tasks[c.1]? ≠ some .pending := by
      by_cases hc : i = c.1
      · subst hc
        have hlt := (List.getElem?_eq_some_iff.1 ht).1
        dsimp only [World.put]
        rw [List.getElem?_set_self hlt, ht]
        exact ⟨fun _ h => hp (Option.some.inj h), fun _ h => hp' (Option.some.inj h)⟩
      · simp [World.put, List.getElem?_set_ne hc]
    constructor
    · rintro ⟨row, h1, h2, h3⟩; exact ⟨row, h1, h2, this.2 h3⟩
    · rintro ⟨row, h1, h2, h3⟩; exact ⟨row, h1, h2, this.1 h3⟩
  nodup := h.nodup
  order := h.order
  failed e he := by
    have hlt := (List.getElem?_eq_some_iff.1 ht).1
    have keep : ∀ e, w.failed = some e → ∃ j : Nat, (w.tasks.set i t')[j]? = some (.raised e) := by
      intro e he
      obtain ⟨j, hj⟩ := h.failed e he
      refine ⟨j, ?_⟩
      have : i ≠ j := by rintro rfl; rw [ht] at hj; exact hr e (Option.some.inj hj)
      rw [List.getElem?_set_ne this, hj]
    dsimp only at he
    rcases hf with ⟨rfl, _⟩ | ⟨e', rfl, rfl⟩
    · exact keep e he
    · cases hw : w.failed with
      | none =>
        rw [hw] at he
        cases he
        exact ⟨i, by simp [World.put, hlt]⟩
      | some e0 =>
        rw [hw] at he
        cases he
        exact keep e hw
  raised j e hj := by
    have hlt := (List.getElem?_eq_some_iff.1 ht).1
    dsimp only [World.put] at hj
    by_cases hc : i = j
    · subst hc
      rw [List.getElem?_set_self hlt] at hj
      rcases hf with ⟨_, hn⟩ | ⟨e', rfl, _⟩
      · exact (hn e (Option.some.inj hj)).elim
      · cases w.failed <;> simp
    · rw [List.getElem?_set_ne hc] at hj
      have := h.raised j e hj
      rcases hf with ⟨rfl, _⟩ | ⟨e', rfl, _⟩
      · exact this
      · cases hw : w.failed with
        | none => exact (this hw).elim
        | some _ => simp

theorem workStep_inv {core : Core A V σ ρ ε} {rows : List (List A × List (String × A))} {seq : Bool} {w : World A V σ ρ ε} (h : w.Inv rows seq) {i : Nat}
    (hm : mayRun seq w i = true) : (workStep core rows i w).Inv rows seq := by
  unfold workStep
  split
  · next xs d ht hrow =>
    have hlt := (List.getElem?_eq_some_iff.1 ht).1
    have hni : i ∉ w.calls.map Prod.fst := by
      intro hi
      obtain ⟨c, hc, rfl⟩ := List.mem_map.1 hi
      obtain ⟨_, _, _, hne⟩ := (h.calls c).1 hc
      exact hne ht
    have hget : ∀ j : Nat, i ≠ j → (w.tasks.set i (.running (core.start xs d i)))[j]? = w.tasks[j]? := fun j hj => List.getElem?_set_ne hj
    refine ⟨by simp [World.put, h.tasks], fun c => ?_, ?_, fun hs => ?_, fun e he => ?_, fun j e hj => ?_⟩
    · dsimp only [World.put]
      rw [List.mem_append, List.mem_singleton, h.calls]
      constructor
      · rintro (⟨row, h1, h2, h3⟩ | rfl)
        · refine ⟨row, h1, h2, ?_⟩
          have : i ≠ c.1 := by rintro rfl; exact h3 ht
          rw [hget _ this]; exact h3
        · exact ⟨(xs, d), hrow, rfl, by rw [List.getElem?_set_self hlt]; exact fun h => by cases h⟩
      · rintro ⟨row, h1, h2, h3⟩
        by_cases hc : i = c.1
        · right
          rw [← hc, hrow] at h1
          obtain ⟨c1, c2⟩ := c
          cases h1; cases hc; cases h2; rfl
        · left; rw [hget _ hc] at h3; exact ⟨row, h1, h2, h3⟩
    · dsimp only
      rw [List.map_append, List.nodup_append]
      refine ⟨h.nodup, by simp, fun a ha b hb => ?_⟩
      simp only [List.map_cons, List.map_nil, List.mem_singleton] at hb
      rintro rfl; subst hb; exact hni ha
    · subst hs
      have hr := h.order rfl
      dsimp only
      rw [List.map_append, hr, List.length_append, List.length_singleton, List.range_succ]
      congr 1
      simp only [List.map_cons, List.map_nil, List.cons.injEq, and_true]
      rw [hr, List.mem_range] at hni
      by_contra hne
      have hlt' : w.calls.length < i := by omega
      have hmem : w.calls.length ∉ w.calls.map Prod.fst := by rw [hr, List.mem_range]; omega
      apply hmem
      simp only [mayRun, Bool.not_true, Bool.false_or, List.all_eq_true] at hm
      have hl : w.calls.length < w.tasks.length := by omega
      have hf := hm w.tasks[w.calls.length] (List.mem_take_iff_getElem.2 ⟨w.calls.length, by omega, rfl⟩)
      refine List.mem_map.2 ⟨(w.calls.length, rows[w.calls.length]'(by rw [← h.tasks]; omega)), (h.calls _).2 ⟨_, List.getElem?_eq_getElem _, rfl, ?_⟩, rfl⟩
      dsimp only
      rw [List.getElem?_eq_getElem hl]
      intro hp
      rw [Option.some.inj hp] at hf
      cases hf
    · obtain ⟨j, hj⟩ := h.failed e he
      refine ⟨j, ?_⟩
      have : i ≠ j := by rintro rfl; rw [ht] at hj; cases hj
      exact (hget _ this).trans hj
    · have : i ≠ j := by
        rintro rfl
        dsimp only [World.put] at hj
        rw [List.getElem?_set_self hlt] at hj; cases hj
      exact h.raised j e ((hget _ this).symm.trans hj)
  · next _ _ s ht =>
    split
    · exact inv_put h ht (by simp) (by simp) (by simp) (.inl ⟨rfl, by simp⟩)
    · exact inv_put h ht (by simp) (by simp) (by simp) (.inl ⟨rfl, by simp⟩)
    · next e _ _ => exact inv_put h ht (by simp) (by simp) (by simp) (.inr ⟨e, rfl, rfl⟩)
  · next ht => exact inv_put h ht (by simp) (by simp) (by simp) (.inl ⟨rfl, by simp⟩)
  · exact h

theorem tickStep_inv {rows : List (List A × List (String × A))} {seq : Bool} {w : World A V σ ρ ε} (h : w.Inv rows seq) : (tickStep w).Inv rows seq := by
  obtain ⟨h1, -, h3, h4, -, -⟩ := tickStep_spec w
  constructor
  · rw [h1]; exact h.tasks
  · rw [h1, h4]; exact h.calls
  · rw [h4]; exact h.nodup
  · rw [h4]; exact h.order
  · rw [h1, h3]; exact h.failed
  · rw [h1, h3]; exact h.raised

theorem runSched_inv {core : Core A V σ ρ ε} {rows : List (List A × List (String × A))} {seq : Bool} :
    ∀ (es : List Event) {w : World A V σ ρ ε}, w.Inv rows seq → (runSched core seq rows es w).Inv rows seq
  | [], _, h => h
  | .tick :: es, _, h => runSched_inv es (tickStep_inv h)
  | .work i :: es, w, h => by
    rw [runSched]
    split
    · next hm => exact runSched_inv es (workStep_inv h hm)
    · exact runSched_inv es h

/-- `collect` succeeds iff all the tasks have finished. -/
theorem collect_ok {w : World A V σ ρ ε} {rs : List ρ} (h : collect w = some (.ok rs)) : w.failed = none ∧ w.tasks = rs.map .finished := by
  unfold collect at h
  split at h
  · cases h
  · next hf =>
    refine ⟨hf, ?_⟩
    cases hm : w.tasks.mapM taskResult with
    | none => rw [hm] at h; cases h
    | some rs' =>
      rw [hm] at h
      cases h
      clear hf
      generalize w.tasks = ts at hm
      induction ts generalizing rs with
      | nil => cases hm; rfl
      | cons t ts ih =>
        rw [List.mapM_cons] at hm
        cases t with
        | finished r =>
          cases hts : ts.mapM taskResult with
          | none => rw [hts] at hm; cases hm
          | some rs' =>
            rw [hts] at hm
            cases hm
            rw [ih hts]; rfl
        | _ => cases hm

theorem collect_all {w : World A V σ ρ ε} (hf : w.failed = none) (h : ∀ t ∈ w.tasks, ∃ r, t = .finished r) : ∃ rs, collect w = some (.ok rs) := by
  unfold collect
  rw [hf]
  suffices ∀ ts : List (Task σ ρ ε), (∀ t ∈ ts, ∃ r, t = .finished r) → ∃ rs, ts.mapM taskResult = some rs by
    obtain ⟨rs, hrs⟩ := this _ h
    exact ⟨rs, by rw [hrs]; rfl⟩
  intro ts
  induction ts with
  | nil => intro _; exact ⟨[], rfl⟩
  | cons t ts ih =>
    intro h
    obtain ⟨r, rfl⟩ := h t List.mem_cons_self
    obtain ⟨rs, hrs⟩ := ih fun t ht => h t (List.mem_cons_of_mem _ ht)
    exact ⟨r :: rs, by rw [List.mapM_cons, hrs]; rfl⟩

end TNCO
