import Verif.Lemmas.DisplayRun
import Verif.Lemmas.Anneal

/-! # What the runs of the apps report -/

namespace TNCO
variable {σ κ ρ V : Type}

/-- The number of steps at each path: `n_steps`, if there are so many temperatures. -/
def stepsAt (betas : List ℚ) (nSteps : Option ℕ) : ℕ := (nSteps.getD betas.length).min betas.length

/-- The status after the paths `ps`. -/
def reported (betas : List ℚ) (nSteps : Option ℕ) (ratio : ℕ → ℕ → V) (zero : V) (ps : List (List (ℕ × ℕ))) : V :=
  if 0 < stepsAt betas nSteps ∧ ∃ p ∈ ps, p ≠ [] then ratio (stepsAt betas nSteps - 1) betas.length else zero

/-- The status in a run, at each of its places. -/
def StatusOk (A : Anneal σ κ ρ V) (betas : List ℚ) (nSteps : Option ℕ) (ratio : ℕ → ℕ → V) (zero : V) (st : Option V) : Task (AState σ κ) ρ PyErr → Prop
  | .pending => st = some zero
  | .running (.start _) => st = some zero
  | .running (.comps seed todo _) => ∃ pre, A.paths seed = some (.ok (pre ++ todo)) ∧ st = some (reported betas nSteps ratio zero pre)
  | .running (.loop seed todo _ n bs _) => ∃ pre, A.paths seed = some (.ok (pre ++ todo)) ∧ (∃ p ∈ pre, p ≠ []) ∧ bs = betas.drop n ∧ n ≤ stepsAt betas nSteps ∧
      (n = 0 → (∃ v, st = some v) ∧ (stepsAt betas nSteps = 0 → st = some zero)) ∧ (0 < n → st = some (ratio (n - 1) betas.length))
  | .returned _ => ∃ seed ps, A.paths seed = some (.ok ps) ∧ st = some (reported betas nSteps ratio zero ps)
  | .finished _ => ∃ seed ps, A.paths seed = some (.ok ps) ∧ st = some (reported betas nSteps ratio zero ps)
  | .raised _ => True

theorem writeStatus_self {i : ℕ} {s l : V} {m : Mem V} {v : V} (h : m.status[i]? = some v) : (writeStatus i s l m).status[i]? = some s := by
  unfold writeStatus
  dsimp only
  rw [List.getElem?_set_self (List.getElem?_eq_some_iff.1 h).1]

theorem reported_snoc {betas : List ℚ} {nSteps : Option ℕ} {ratio : ℕ → ℕ → V} {zero : V} {pre : List (List (ℕ × ℕ))} :
    reported betas nSteps ratio zero (pre ++ [[]]) = reported betas nSteps ratio zero pre := by
  unfold reported
  simp

/-- The status after the loop. -/
theorem finish_status {A : Anneal σ κ ρ V} {betas : List ℚ} {nSteps : Option ℕ} {ratio : ℕ → ℕ → V} {zero : V} {seed : ℕ} {todo : List (List (ℕ × ℕ))} {done : List κ}
    {n : ℕ} {bs : List ℚ} {o : σ} {m : Mem V} {i : ℕ}
    (h : StatusOk A betas nSteps ratio zero m.status[i]? (.running (.loop seed todo done n bs o) : Task (AState σ κ) ρ PyErr)) (hn : n = stepsAt betas nSteps) :
    (annealFinish A seed todo done n bs o m).mem = m ∧
      match annealFinish A seed todo done n bs o m with
      | .next s _ => StatusOk A betas nSteps ratio zero m.status[i]? (.running s : Task (AState σ κ) ρ PyErr)
      | .ret _ _ => False
      | .raise _ _ => True := by
  have h' := h
  obtain ⟨pre, h1, h2, h3, h4, h5, h6⟩ := h
  unfold annealFinish
  split
  · exact ⟨rfl, h'⟩
  · exact ⟨rfl, trivial⟩
  · refine ⟨rfl, pre, h1, ?_⟩
    unfold reported
    by_cases h0 : n = 0
    · rw [(h5 h0).2 (by omega), if_neg (by omega)]
    · rw [h6 (by omega), if_pos ⟨by omega, h2⟩, hn]

theorem annealStep_status {A : Anneal σ κ ρ V} {betas : List ℚ} {sized : Bool} {nSteps : Option ℕ} {ratio : ℕ → ℕ → V} {zero : V} {i : ℕ} {s : AState σ κ} {m : Mem V}
    (hstop : m.stop.getD i false = false) (h : StatusOk A betas nSteps ratio zero m.status[i]? (.running s : Task (AState σ κ) ρ PyErr)) :
    match annealStep A betas sized nSteps ratio i s m with
    | .next s' m' => StatusOk A betas nSteps ratio zero m'.status[i]? (.running s' : Task (AState σ κ) ρ PyErr)
    | .ret r m' => StatusOk A betas nSteps ratio zero m'.status[i]? (.returned r : Task (AState σ κ) ρ PyErr)
    | .raise _ _ => True := by
  have hfin : ∀ {seed todo done n bs o}, StatusOk A betas nSteps ratio zero m.status[i]? (.running (.loop seed todo done n bs o) : Task (AState σ κ) ρ PyErr) →
      n = stepsAt betas nSteps →
      match annealFinish A seed todo done n bs o m with
      | .next s' m' => StatusOk A betas nSteps ratio zero m'.status[i]? (.running s' : Task (AState σ κ) ρ PyErr)
      | .ret r m' => StatusOk A betas nSteps ratio zero m'.status[i]? (.returned r : Task (AState σ κ) ρ PyErr)
      | .raise _ _ => True := by
    intro seed todo done n bs o hs hn
    obtain ⟨h1, h2⟩ := finish_status hs hn
    revert h1 h2
    cases annealFinish A seed todo done n bs o m with
    | next s' m' => rintro rfl h; exact h
    | ret r m' => rintro _ h; exact h.elim
    | raise e m' => intros; trivial
  cases s with
  | start seed =>
    rw [annealStep]
    cases hp : A.paths seed with
    | none => exact h
    | some x =>
      cases x with
      | error e => trivial
      | ok ps =>
        refine ⟨[], hp, ?_⟩
        have h' : m.status[i]? = some zero := h
        rw [h']
        simp [reported]
  | comps seed todo done =>
    obtain ⟨pre, h1, h2⟩ := h
    cases todo with
    | nil =>
      rw [annealStep]
      cases A.total done with
      | error e => trivial
      | ok r => exact ⟨seed, pre, by rw [h1, List.append_nil], h2⟩
    | cons p todo =>
      cases p with
      | nil =>
        rw [annealStep]
        exact ⟨pre ++ [[]], by rw [h1, List.append_assoc]; rfl, by rw [reported_snoc]; exact h2⟩
      | cons a p =>
        rw [annealStep]
        cases A.make seed (a :: p) with
        | none => exact ⟨pre, h1, h2⟩
        | some x =>
          cases x with
          | error e => trivial
          | ok o =>
            refine ⟨pre ++ [a :: p], by rw [h1, List.append_assoc]; rfl, ⟨a :: p, by simp, by simp⟩, rfl, Nat.zero_le _, fun _ => ⟨⟨_, h2⟩, fun h0 => ?_⟩,
              fun h => absurd h (lt_irrefl _)⟩
            rw [h2]
            unfold reported
            rw [if_neg (by omega)]
  | loop seed todo done n bs o =>
    have h' := h
    obtain ⟨pre, h1, h2, h3, h4, h5, h6⟩ := h
    cases bs with
    | nil =>
      rw [annealStep]
      refine hfin h' (le_antisymm h4 ?_)
      have : betas.length ≤ n := List.drop_eq_nil_iff.1 h3.symm
      exact le_trans (Nat.min_le_right _ _) this
    | cons b bs =>
      have hlt : n < betas.length := by
        by_contra hge
        rw [List.drop_eq_nil_of_le (not_lt.1 hge)] at h3
        cases h3
      rw [annealStep]
      by_cases hc : nSteps = some n ∨ m.stop.getD i false = true
      · rw [if_pos hc]
        refine hfin h' (le_antisymm h4 ?_)
        rcases hc with hc | hc
        · rw [hc]; exact Nat.min_le_left _ _
        · rw [hstop] at hc; cases hc
      · rw [if_neg hc]
        have hn : n + 1 ≤ stepsAt betas nSteps := by
          refine Nat.succ_le_of_lt (lt_of_le_of_ne h4 fun e => ?_)
          unfold stepsAt at e
          cases hs : nSteps with
          | none => rw [hs] at e; simp at e; omega
          | some k =>
            rw [hs] at e
            have hk : n ≠ k := fun e' => hc (.inl (by rw [hs, e']))
            dsimp only [Option.getD_some] at e
            have : n = min k betas.length := e
            omega
        have hv : ∃ v, m.status[i]? = some v := by
          rcases Nat.eq_zero_or_pos n with h0 | h0
          · exact (h5 h0).1
          · exact ⟨_, h6 h0⟩
        cases A.update n b o with
        | none => exact h'
        | some x =>
          cases x with
          | error e => trivial
          | ok o' =>
            cases sized with
            | false => trivial
            | true =>
              obtain ⟨v, hv⟩ := hv
              refine ⟨pre, h1, h2, ?_, hn, fun h => absurd h (Nat.succ_ne_zero n), fun _ => writeStatus_self hv⟩
              rw [← List.tail_drop, ← h3]
              rfl

/-- The statuses of all the runs. -/
def StatusesOk (A : Anneal σ κ ρ V) (betas : List ℚ) (nSteps : Option ℕ) (ratio : ℕ → ℕ → V) (zero : V) (n : ℕ) (w : World ℕ V (AState σ κ) ρ PyErr) : Prop :=
  w.mem.stop = List.replicate n false ∧ ∀ (i : ℕ) t, w.tasks[i]? = some t → StatusOk A betas nSteps ratio zero w.mem.status[i]? t

theorem work_statuses {A : Anneal σ κ ρ V} {betas : List ℚ} {sized : Bool} {nSteps : Option ℕ} {ratio : ℕ → ℕ → V} {zero : V} {n i : ℕ}
    {rows : List (List ℕ × List (String × ℕ))} {w : World ℕ V (AState σ κ) ρ PyErr} (h : StatusesOk A betas nSteps ratio zero n w) :
    StatusesOk A betas nSteps ratio zero n (workStep (annealCore A betas sized nSteps ratio) rows i w) := by
  have hl := annealCore_local A betas sized nSteps ratio
  refine ⟨by rw [workStep_stop hl, h.1], fun j t ht => ?_⟩
  by_cases hj : j = i
  · subst hj
    have hstop : w.mem.stop.getD j false = false := by
      rw [h.1, List.getD_eq_getElem?_getD, List.getElem?_replicate]
      split <;> rfl
    cases hw : w.tasks[j]? with
    | none =>
      exfalso
      unfold workStep at ht
      rw [hw] at ht
      dsimp only at ht
      rw [hw] at ht
      cases ht
    | some t0 =>
      have h0 := h.2 j t0 hw
      have hlt := (List.getElem?_eq_some_iff.1 hw).1
      unfold workStep at ht ⊢
      rw [hw] at ht ⊢
      cases t0 with
      | pending =>
        cases hr : rows[j]? with
        | none => rw [hr] at ht; dsimp only at ht; rw [hw] at ht; cases ht; exact h0
        | some row =>
          rw [hr] at ht
          dsimp only [World.put] at ht
          rw [List.getElem?_set_self hlt] at ht
          cases ht
          exact h0
      | running s =>
        dsimp only at ht ⊢
        have hstep := annealStep_status (sized := sized) hstop h0
        change (match (annealCore A betas sized nSteps ratio).step j s w.mem with
          | .next s' m' => _
          | .ret r m' => _
          | .raise _ _ => _) at hstep
        revert ht hstep
        cases (annealCore A betas sized nSteps ratio).step j s w.mem with
        | next s' m' =>
          intro ht hstep
          dsimp only [World.put] at ht
          rw [List.getElem?_set_self hlt] at ht
          cases ht
          exact hstep
        | ret r m' =>
          intro ht hstep
          dsimp only [World.put] at ht
          rw [List.getElem?_set_self hlt] at ht
          cases ht
          exact hstep
        | raise e m' =>
          intro ht hstep
          dsimp only [World.put] at ht
          rw [List.getElem?_set_self hlt] at ht
          cases ht
          trivial
      | returned r =>
        dsimp only [World.put] at ht
        rw [List.getElem?_set_self hlt] at ht
        cases ht
        exact h0
      | finished r => dsimp only at ht; rw [hw] at ht; cases ht; exact h0
      | raised e => dsimp only at ht; rw [hw] at ht; cases ht; trivial
  · obtain ⟨h1, h2, _⟩ := workStep_other hl rows hj w
    rw [h1] at ht
    have := congrArg Prod.fst h2
    dsimp only [own] at this
    rw [this]
    exact h.2 j t ht

theorem sched_statuses {A : Anneal σ κ ρ V} {betas : List ℚ} {sized : Bool} {nSteps : Option ℕ} {ratio : ℕ → ℕ → V} {zero : V} {n : ℕ} {seq : Bool}
    {rows : List (List ℕ × List (String × ℕ))} : ∀ (es : List Event) {w : World ℕ V (AState σ κ) ρ PyErr}, .tick ∉ es → StatusesOk A betas nSteps ratio zero n w →
      StatusesOk A betas nSteps ratio zero n (runSched (annealCore A betas sized nSteps ratio) seq rows es w)
  | [], _, _, h => h
  | .tick :: _, _, ht, _ => absurd List.mem_cons_self ht
  | .work i :: es, w, ht, h => by
    rw [runSched]
    refine sched_statuses es (fun h' => ht (List.mem_cons_of_mem _ h')) ?_
    split
    · exact work_statuses h
    · exact h

theorem init_statuses (A : Anneal σ κ ρ V) (betas : List ℚ) (nSteps : Option ℕ) (ratio : ℕ → ℕ → V) (zero : V) (n : ℕ) (names : List String) :
    StatusesOk A betas nSteps ratio zero n (World.init zero n names) := by
  refine ⟨rfl, fun i t ht => ?_⟩
  have hi : i < n := by
    have := (List.getElem?_eq_some_iff.1 ht).1
    simpa [World.init] using this
  simp only [World.init, List.getElem?_replicate, if_pos hi] at ht
  cases ht
  show (List.replicate n zero)[i]? = some zero
  rw [List.getElem?_replicate, if_pos hi]

end TNCO
