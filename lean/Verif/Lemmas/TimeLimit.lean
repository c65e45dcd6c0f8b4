import Verif.Spec.TimeLimit
import Verif.Lemmas.Anneal
import Verif.Lemmas.ParallelRun

/-! # Parallel runs after the time limit -/

namespace TNCO
section
variable {A V σ ρ ε : Type}

/-- The timer has set the flags it says it has set. -/
def TimerOk (w : World A V σ ρ ε) : Prop :=
  match w.timer with
  | .armed => True
  | .firing k => ∀ j < k, ∀ b, w.mem.stop[j]? = some b → b = true
  | .over => ∀ b ∈ w.mem.stop, b = true

theorem workStep_timer (core : Core A V σ ρ ε) (rows : List (List A × List (String × A))) (i : ℕ) (w : World A V σ ρ ε) :
    (workStep core rows i w).timer = w.timer := by
  unfold workStep
  split
  · rfl
  · split <;> rfl
  · rfl
  · rfl

theorem tick_timerOk {w : World A V σ ρ ε} (h : TimerOk w) : TimerOk (tickStep w) := by
  unfold tickStep
  cases ht : w.timer with
  | armed => intro j hj; omega
  | firing k =>
    dsimp only
    unfold TimerOk at h
    rw [ht] at h
    split
    · intro j hj b hb
      dsimp only at hb
      by_cases hjk : j = k
      · subst hjk
        rw [List.getElem?_set_self (by assumption)] at hb
        exact (Option.some.inj hb).symm
      · rw [List.getElem?_set_ne (Ne.symm hjk)] at hb
        exact h j (by omega) b hb
    · intro b hb
      obtain ⟨j, hj, rfl⟩ := List.getElem_of_mem hb
      have hj' : j < w.mem.stop.length := hj
      exact h j (by omega) _ (List.getElem?_eq_getElem hj)
  | over => dsimp only; exact h

theorem sched_timerOk {core : Core A V σ ρ ε} (hl : core.Local) {seq : Bool} {rows : List (List A × List (String × A))} :
    ∀ (es : List Event) {w : World A V σ ρ ε}, TimerOk w → TimerOk (runSched core seq rows es w)
  | [], _, h => h
  | .tick :: es, w, h => sched_timerOk hl es (tick_timerOk h)
  | .work i :: es, w, h => by
    rw [runSched]
    refine sched_timerOk hl es ?_
    split
    · unfold TimerOk at h ⊢
      rw [workStep_timer, workStep_stop hl]
      exact h
    · exact h

theorem set_true {l : List Bool} (h : ∀ b ∈ l, b = true) (i : ℕ) : l.set i true = l := by
  apply List.ext_getElem?
  intro j
  rw [List.getElem?_set]
  split
  · next hij =>
    subst hij
    split
    · next hi => rw [List.getElem?_eq_getElem hi, h _ (List.getElem_mem hi)]
    · next hi => rw [List.getElem?_eq_none (by omega)]
  · rfl

/-- A step as if the flag had been set. -/
def CoreStep.withStop (l : List Bool) : CoreStep σ ρ ε V → CoreStep σ ρ ε V
  | .next s m => .next s { m with stop := l }
  | .ret r m => .ret r { m with stop := l }
  | .raise e m => .raise e { m with stop := l }

/-- The core as if its flag had been set from the beginning. -/
def Core.stopped (core : Core A V σ ρ ε) : Core A V σ ρ ε where
  start := core.start
  step i s m := (core.step i s { m with stop := m.stop.set i true }).withStop m.stop

theorem withStop_out (l : List Bool) (x : CoreStep σ ρ ε V) : (x.withStop l).out = x.out := by cases x <;> rfl
theorem withStop_own (l : List Bool) (x : CoreStep σ ρ ε V) (i : ℕ) : own i (x.withStop l).mem = own i x.mem := by cases x <;> rfl
theorem withStop_stop (l : List Bool) (x : CoreStep σ ρ ε V) : (x.withStop l).mem.stop = l := by cases x <;> rfl
theorem withStop_self (x : CoreStep σ ρ ε V) : x.withStop x.mem.stop = x := by cases x <;> rfl

theorem stopped_local {core : Core A V σ ρ ε} (hl : core.Local) : core.stopped.Local where
  reads {i s m m'} ho hs := by
    have hs' : (m.stop.set i true)[i]? = (m'.stop.set i true)[i]? := by
      have hlen : i < m.stop.length ↔ i < m'.stop.length := by
        constructor
        · intro h
          rw [List.getElem?_eq_getElem h] at hs
          exact (List.getElem?_eq_some_iff.1 hs.symm).1
        · intro h
          rw [List.getElem?_eq_getElem h] at hs
          exact (List.getElem?_eq_some_iff.1 hs).1
      rw [List.getElem?_set, List.getElem?_set, if_pos rfl, if_pos rfl]
      by_cases h : i < m.stop.length
      · rw [if_pos h, if_pos (hlen.1 h)]
      · rw [if_neg h, if_neg (fun h' => h (hlen.2 h'))]
    obtain ⟨h1, h2⟩ := hl.reads (i := i) (s := s) (m := { m with stop := m.stop.set i true }) (m' := { m' with stop := m'.stop.set i true }) ho hs'
    exact ⟨by rw [Core.stopped, withStop_out, withStop_out]; exact h1, by rw [Core.stopped, withStop_own, withStop_own]; exact h2⟩
  writes {i j s m} hj := by
    rw [Core.stopped, withStop_own]
    exact hl.writes (i := i) (j := j) (s := s) (m := { m with stop := m.stop.set i true }) hj
  stop := withStop_stop _ _

theorem stopped_sched {core : Core A V σ ρ ε} (hl : core.Local) {seq : Bool} {rows : List (List A × List (String × A))} :
    ∀ (es : List Event) {w : World A V σ ρ ε}, w.timer = .over → (∀ b ∈ w.mem.stop, b = true) →
      runSched core seq rows es w = runSched core.stopped seq rows es w
  | [], _, _, _ => rfl
  | .tick :: es, w, ht, h => by
    rw [runSched, runSched]
    have : tickStep w = w := by unfold tickStep; rw [ht]
    rw [this]
    exact stopped_sched hl es ht h
  | .work i :: es, w, ht, h => by
    rw [runSched, runSched]
    have hstep : ∀ s, core.stopped.step i s w.mem = core.step i s w.mem := by
      intro s
      show (core.step i s { w.mem with stop := w.mem.stop.set i true }).withStop w.mem.stop = _
      rw [set_true h]
      have := withStop_self (core.step i s w.mem)
      rw [hl.stop] at this
      exact this
    have hw : workStep core.stopped rows i w = workStep core rows i w := by
      unfold workStep
      simp only [hstep]
      rfl
    rw [hw]
    split
    · exact stopped_sched hl es (by rw [workStep_timer]; exact ht) (by rw [workStep_stop hl]; exact h)
    · exact stopped_sched hl es ht h

/-- With the flag set, the core does the same whatever it is told about the flag. -/
theorem alone_stopped {core : Core A V σ ρ ε} (hl : core.Local) {i : ℕ} : ∀ (N : ℕ) (sig : ℕ → Bool) (s : σ) {m m' : Mem V}, own i m = own i m' →
    i < m.stop.length → i < m'.stop.length → alone core.stopped i sig N s m = alone core i (fun _ => true) N s m'
  | 0, _, _, _, _, _, _, _ => rfl
  | N + 1, sig, s, m, m', ho, hm, hm' => by
    have hst : { m with stop := (m.stop.set i (sig 0)).set i true }.stop[i]? = { m' with stop := m'.stop.set i true }.stop[i]? := by
      dsimp only
      rw [List.getElem?_set_self (by simpa using hm), List.getElem?_set_self hm']
    obtain ⟨hout, hown⟩ := hl.reads (i := i) (s := s) (m := { m with stop := (m.stop.set i (sig 0)).set i true }) (m' := { m' with stop := m'.stop.set i true }) ho hst
    have h2 := hl.stop (i := i) (s := s) (m := { m' with stop := m'.stop.set i true })
    rw [alone, alone]
    show (match (core.step i s { m with stop := (m.stop.set i (sig 0)).set i true }).withStop (m.stop.set i (sig 0)) with
      | .next s' m' => alone core.stopped i (fun k => sig (k + 1)) N s' m'
      | .ret r _ => some (.ok r)
      | .raise e _ => some (.error e)) = _
    cases h : core.step i s { m with stop := (m.stop.set i (sig 0)).set i true } <;> cases h' : core.step i s { m' with stop := m'.stop.set i true } <;>
      rw [h, h'] at hout <;> cases hout <;> try rfl
    rw [h] at hown
    rw [h'] at h2 hown
    dsimp only [CoreStep.withStop]
    refine alone_stopped hl N _ _ hown ?_ ?_
    · simpa using hm
    · dsimp only [CoreStep.mem] at h2; rw [h2, List.length_set]; exact hm'

/-- A result after the time limit is a result with the flag set. -/
theorem late_alone {core : Core A V σ ρ ε} (hl : core.Local) {seq : Bool} {rows : List (List A × List (String × A))} {i : ℕ} {x : Except ε ρ}
    {es : List Event} {w : World A V σ ρ ε} (ht : w.timer = .over) (hw : ∀ b ∈ w.mem.stop, b = true) (hi : i < w.mem.stop.length)
    {row : List A × List (String × A)} (hrow : rows[i]? = some row) {t t' : Task σ ρ ε} (h0 : w.tasks[i]? = some t)
    (h1 : (runSched core seq rows es w).tasks[i]? = some t') (hx : t'.result = some x) :
    match (motive := Task σ ρ ε → Prop) t with
    | .pending => ∃ fuel, alone core i (fun _ => true) fuel (core.start row.1 row.2 i) w.mem = some x
    | .running s => ∃ fuel, alone core i (fun _ => true) fuel s w.mem = some x
    | t => t.result = some x := by
  have hb : w.mem.stop[i]? = some true := by rw [List.getElem?_eq_getElem hi, hw _ (List.getElem_mem hi)]
  rw [stopped_sched hl es ht hw] at h1
  cases t with
  | pending =>
    obtain ⟨sig, fuel, -, -, ha⟩ := pending_alone (stopped_local hl) seq rows hrow es w w.mem true h0 rfl hb hi t' h1 hx
    exact ⟨fuel, by rw [← alone_stopped hl fuel sig _ rfl hi hi]; exact ha⟩
  | running s =>
    obtain ⟨sig, fuel, -, -, -, ha⟩ := running_alone (stopped_local hl) seq rows es w s w.mem true h0 rfl hb hi t' h1 hx
    exact ⟨fuel, by rw [← alone_stopped hl fuel sig _ rfl hi hi]; exact ha⟩
  | returned r =>
    obtain ⟨t2, h2, h3⟩ := sched_result (core := core.stopped) (x := .ok r) seq rows es w _ h0 rfl
    rw [h2] at h1; cases h1; rw [h3] at hx; exact hx
  | finished r =>
    obtain ⟨t2, h2, h3⟩ := sched_result (core := core.stopped) (x := .ok r) seq rows es w _ h0 rfl
    rw [h2] at h1; cases h1; rw [h3] at hx; exact hx
  | raised e =>
    obtain ⟨t2, h2, h3⟩ := sched_result (core := core.stopped) (x := .error e) seq rows es w _ h0 rfl
    rw [h2] at h1; cases h1; rw [h3] at hx; exact hx

/-- The flags and the timer after `t` steps of the timer, for `n` workers. -/
def FlagsAt (n t : ℕ) (w : World A V σ ρ ε) : Prop :=
  w.mem.stop = (List.range n).map (fun i => decide (i + 2 ≤ t)) ∧
  w.timer = if t = 0 then .armed else if t ≤ n + 1 then .firing (t - 1) else .over

theorem tick_flagsAt {n t : ℕ} {w : World A V σ ρ ε} (h : FlagsAt n t w) : FlagsAt n (t + 1) (tickStep w) := by
  obtain ⟨h1, h2⟩ := h
  have hlen : w.mem.stop.length = n := by rw [h1]; simp
  unfold tickStep
  by_cases ht : t = 0
  · subst ht
    rw [h2, if_pos rfl]
    refine ⟨?_, ?_⟩
    · rw [h1]
      refine List.map_congr_left fun i _ => ?_
      simp
    · simp
  · rw [if_neg ht] at h2
    by_cases htn : t ≤ n + 1
    · rw [if_pos htn] at h2
      rw [h2]
      dsimp only
      rw [hlen]
      by_cases hk : t - 1 < n
      · rw [if_pos hk]
        refine ⟨?_, ?_⟩
        · dsimp only
          rw [h1]
          apply List.ext_getElem?
          intro j
          rw [List.getElem?_set]
          by_cases hj : t - 1 = j
          · subst hj
            simp [hk]; omega
          · rw [if_neg hj]
            by_cases hjn : j < n
            · simp [hjn]; omega
            · simp [hjn]
        · dsimp only
          rw [if_neg (by omega), if_pos (by omega)]
          congr 1; omega
      · rw [if_neg hk]
        refine ⟨?_, ?_⟩
        · dsimp only
          rw [h1]
          refine List.map_congr_left fun i hi => ?_
          rw [List.mem_range] at hi
          simp only [decide_eq_decide]; omega
        · dsimp only
          rw [if_neg (by omega), if_neg (by omega)]
    · rw [if_neg htn] at h2
      rw [h2]
      refine ⟨?_, ?_⟩
      · dsimp only
        rw [h1]
        refine List.map_congr_left fun i hi => ?_
        rw [List.mem_range] at hi
        simp only [decide_eq_decide]; omega
      · dsimp only
        rw [h2, if_neg (by omega), if_neg (by omega)]

theorem sched_flagsAt {core : Core A V σ ρ ε} (hl : core.Local) {seq : Bool} {rows : List (List A × List (String × A))} {n : ℕ} :
    ∀ (es : List Event) {t : ℕ} {w : World A V σ ρ ε}, FlagsAt n t w → FlagsAt n (t + es.count .tick) (runSched core seq rows es w)
  | [], _, _, h => h
  | .tick :: es, t, w, h => by
    have := sched_flagsAt hl (seq := seq) (rows := rows) es (tick_flagsAt h)
    rw [List.count_cons_self, show t + (es.count .tick + 1) = t + 1 + es.count .tick by omega]
    exact this
  | .work i :: es, t, w, h => by
    rw [runSched, List.count_cons_of_ne (by simp)]
    refine sched_flagsAt hl es ?_
    split
    · unfold FlagsAt at h ⊢
      rw [workStep_timer, workStep_stop hl]
      exact h
    · exact h

/-- `pending_alone` where the flag is set. -/
theorem pending_set {core : Core A V σ ρ ε} (hl : core.Local) (seq : Bool) (rows : List (List A × List (String × A))) {i : Nat} {x : Except ε ρ}
    {row : List A × List (String × A)} (hrow : rows[i]? = some row) :
    ∀ (es : List Event) (w : World A V σ ρ ε) (m : Mem V), w.tasks[i]? = some .pending → own i w.mem = own i m →
      w.mem.stop[i]? = some true → i < m.stop.length →
      ∀ t, (runSched core seq rows es w).tasks[i]? = some t → t.result = some x →
        ∃ fuel, alone core i (fun _ => true) fuel (core.start row.1 row.2 i) m = some x
  | [], w, m, hr, _, _, _, t, ht, hx => by
    rw [runSched, hr] at ht; cases ht; cases hx
  | .tick :: es, w, m, hr, ho, hb, hm, t, ht, hx => by
    rw [runSched_cons] at ht
    obtain ⟨h1, h2, -, -, -, h3⟩ := tickStep_spec w
    obtain ⟨b', hb', hbb⟩ := h3 i true hb
    rw [hbb rfl] at hb'
    exact pending_set hl seq rows hrow es (tickStep w) m (by rw [h1, hr]) (by rw [h2, ho]) hb' hm t ht hx
  | .work j :: es, w, m, hr, ho, hb, hm, t, ht, hx => by
    rw [runSched_cons, evStep] at ht
    split at ht
    · by_cases hj : i = j
      · subst hj
        have hlt := (List.getElem?_eq_some_iff.1 hr).1
        unfold workStep at ht
        rw [hr, hrow] at ht
        dsimp only at ht
        have h0 : ({ w.put i (.running (core.start row.1 row.2 i)) w.mem with calls := w.calls ++ [(i, row.1, row.2)] }).tasks[i]? =
            some (.running (core.start row.1 row.2 i)) := by simp [World.put, hlt]
        obtain ⟨sig, fuel, -, hsig, -, ha⟩ := running_alone hl seq rows es _ _ m true h0 ho hb hm t ht hx
        rw [funext (hsig rfl)] at ha
        exact ⟨fuel, ha⟩
      · obtain ⟨h1, h2, h3⟩ := workStep_other hl rows hj w
        exact pending_set hl seq rows hrow es _ m (by rw [h1, hr]) (by rw [h2, ho]) (by rw [h3, hb]) hm t ht hx
    · exact pending_set hl seq rows hrow es w m hr ho hb hm t ht hx

/-- `late_alone` for one flag. -/
theorem late_one {core : Core A V σ ρ ε} (hl : core.Local) {seq : Bool} {rows : List (List A × List (String × A))} {i : ℕ} {x : Except ε ρ}
    {es : List Event} {w : World A V σ ρ ε} (hb : w.mem.stop[i]? = some true)
    {row : List A × List (String × A)} (hrow : rows[i]? = some row) {t t' : Task σ ρ ε} (h0 : w.tasks[i]? = some t)
    (h1 : (runSched core seq rows es w).tasks[i]? = some t') (hx : t'.result = some x) :
    match (motive := Task σ ρ ε → Prop) t with
    | .pending => ∃ fuel, alone core i (fun _ => true) fuel (core.start row.1 row.2 i) w.mem = some x
    | .running s => ∃ fuel, alone core i (fun _ => true) fuel s w.mem = some x
    | t => t.result = some x := by
  have hi : i < w.mem.stop.length := (List.getElem?_eq_some_iff.1 hb).1
  cases t with
  | pending => exact pending_set hl seq rows hrow es w w.mem h0 rfl hb hi t' h1 hx
  | running s =>
    obtain ⟨sig, fuel, -, hsig, -, ha⟩ := running_alone hl seq rows es w s w.mem true h0 rfl hb hi t' h1 hx
    rw [funext (hsig rfl)] at ha
    exact ⟨fuel, ha⟩
  | returned r =>
    obtain ⟨t2, h2, h3⟩ := sched_result (core := core) (x := .ok r) seq rows es w _ h0 rfl
    rw [h2] at h1; cases h1; rw [h3] at hx; exact hx
  | finished r =>
    obtain ⟨t2, h2, h3⟩ := sched_result (core := core) (x := .ok r) seq rows es w _ h0 rfl
    rw [h2] at h1; cases h1; rw [h3] at hx; exact hx
  | raised e =>
    obtain ⟨t2, h2, h3⟩ := sched_result (core := core) (x := .error e) seq rows es w _ h0 rfl
    rw [h2] at h1; cases h1; rw [h3] at hx; exact hx

end

/-! ## Simulated annealing -/

section
variable {σ κ ρ V : Type} {A : Anneal σ κ ρ V} {betas : List ℚ} {sized : Bool} {nSteps : Option ℕ} {ratio : ℕ → ℕ → V}

theorem stop_step {i : ℕ} {m : Mem V} (hi : m.stop.getD i false = true) (seed todo done n bs) (o : σ) :
    annealStep A betas sized nSteps ratio i (.loop seed todo done n bs o) m = annealFinish A seed todo done n bs o m := by
  cases bs with
  | nil => rfl
  | cons b bs => rw [annealStep, if_pos (Or.inr hi)]

/-- A run with its flag set returns what it returns without further updates. -/
theorem alone_wrap {i : ℕ} {x : Except PyErr ρ} : ∀ (fuel : ℕ) {s : AState σ κ} {m : Mem V}, i < m.stop.length →
    alone (annealCore A betas sized nSteps ratio) i (fun _ => true) fuel s m = some x → A.wrapUp s = some x
  | 0, _, _, _, h => by cases h
  | fuel + 1, s, m, hi, h => by
    rw [alone_resume] at h
    set m' : Mem V := { m with stop := m.stop.set i true } with hm'
    have hi' : i < m'.stop.length := by simpa [hm'] using hi
    have hget : m'.stop.getD i false = true := by simp [hm', List.getD, hi]
    match s with
    | .start seed =>
      simp only [annealStep] at h
      cases hp : A.paths seed with
      | none => simp only [hp] at h; exact alone_wrap fuel hi' h
      | some r =>
        cases r with
        | error e => simp only [hp] at h; simp only [Anneal.wrapUp, hp]; exact h
        | ok ps => simp only [hp] at h; have := alone_wrap fuel hi' h; simpa only [Anneal.wrapUp, hp] using this
    | .comps seed [] done =>
      simp only [annealStep] at h
      simp only [Anneal.wrapUp, Anneal.wrapPaths]
      cases ht : A.total done with
      | error e => simp only [ht] at h; exact h
      | ok r => simp only [ht] at h; exact h
    | .comps seed ([] :: todo) done =>
      simp only [annealStep] at h
      have := alone_wrap fuel hi' h
      simpa only [Anneal.wrapUp, Anneal.wrapPaths, Anneal.asDrawn] using this
    | .comps seed ((s :: p) :: todo) done =>
      simp only [annealStep] at h
      cases hp : A.make seed (s :: p) with
      | none => simp only [hp] at h; exact alone_wrap fuel hi' h
      | some r =>
        cases r with
        | error e => simp only [hp] at h; simp only [Anneal.wrapUp, Anneal.wrapPaths, Anneal.asDrawn, hp]; exact h
        | ok o =>
          simp only [hp] at h
          have := alone_wrap fuel hi' h
          simp only [Anneal.wrapUp, Anneal.wrapPaths, Anneal.asDrawn, hp] at this ⊢
          exact this
    | .loop seed todo done n bs o =>
      rw [stop_step hget, annealFinish] at h
      cases hp : A.finish o with
      | none => simp only [hp] at h; exact alone_wrap fuel hi' h
      | some r =>
        cases r with
        | error e => simp only [hp] at h; simp only [Anneal.wrapUp, hp]; exact h
        | ok k => simp only [hp] at h; have := alone_wrap fuel hi' h; simpa only [Anneal.wrapUp, hp] using this

/-- The steps of a run with its flag set, if there are at most `M` paths. -/
def lateSteps (M : ℕ) : AState σ κ → ℕ
  | .start _ => 2 * M + 2
  | .comps _ todo _ => 2 * todo.length + 1
  | .loop _ todo _ _ _ _ => 2 * todo.length + 2

/-- There are at most `M` paths. -/
def AtMost (A : Anneal σ κ ρ V) (M : ℕ) : AState σ κ → Prop
  | .start seed => ∀ ps, A.paths seed = some (.ok ps) → ps.length ≤ M
  | .comps _ todo _ => todo.length ≤ M
  | .loop _ todo _ _ _ _ => todo.length ≤ M

theorem wrap_comps {i : ℕ} {x : Except PyErr ρ} (seed : ℕ) : ∀ (todo : List (List (ℕ × ℕ))) (done : List κ) {m : Mem V}, i < m.stop.length →
    A.wrapPaths seed todo done = some x →
    alone (annealCore A betas sized nSteps ratio) i (fun _ => true) (2 * todo.length + 1) (.comps seed todo done) m = some x
  | [], done, m, hi, h => by
    rw [List.length_nil, Nat.mul_zero, Nat.zero_add, alone_resume, annealStep]
    rw [Anneal.wrapPaths] at h
    rw [← Option.some.inj h]
    cases A.total done <;> rfl
  | [] :: todo, done, m, hi, h => by
    rw [List.length_cons, show 2 * (todo.length + 1) + 1 = 2 * todo.length + 1 + 1 + 1 by omega, alone_resume, annealStep]
    simp only [Anneal.wrapPaths, Anneal.asDrawn] at h
    exact alone_mono 1 (wrap_comps seed todo _ (m := { m with stop := m.stop.set i true }) (by simpa using hi) h)
  | (s :: p) :: todo, done, m, hi, h => by
    rw [List.length_cons, show 2 * (todo.length + 1) + 1 = 2 * todo.length + 1 + 1 + 1 by omega, alone_resume, annealStep]
    simp only [Anneal.wrapPaths, Anneal.asDrawn] at h
    cases hp : A.make seed (s :: p) with
    | none => simp only [hp] at h; cases h
    | some r =>
      cases r with
      | error e => simp only [hp] at h ⊢; exact h
      | ok o =>
        simp only [hp] at h ⊢
        rw [resume, alone_resume]
        rw [stop_step (by simp [List.getD, hi]), annealFinish]
        cases hf : A.finish o with
        | none => simp only [hf] at h; cases h
        | some r =>
          cases r with
          | error e => simp only [hf] at h ⊢; exact h
          | ok k =>
            simp only [hf] at h ⊢
            exact wrap_comps seed todo _ (by simpa using hi) h

/-- A run with its flag set needs only few steps. -/
theorem wrap_alone {i M : ℕ} {x : Except PyErr ρ} {s : AState σ κ} {m : Mem V} (hi : i < m.stop.length) (hM : AtMost A M s) (h : A.wrapUp s = some x) :
    alone (annealCore A betas sized nSteps ratio) i (fun _ => true) (lateSteps M s) s m = some x := by
  match s with
  | .start seed =>
    rw [lateSteps, alone_resume, annealStep]
    simp only [Anneal.wrapUp] at h
    cases hp : A.paths seed with
    | none => simp only [hp] at h; cases h
    | some r =>
      cases r with
      | error e => simp only [hp] at h ⊢; exact h
      | ok ps =>
        simp only [hp] at h ⊢
        have h1 := wrap_comps (betas := betas) (sized := sized) (nSteps := nSteps) (ratio := ratio) seed ps [] (i := i) (m := { m with stop := m.stop.set i true }) (by simpa using hi) h
        have h2 := alone_mono (2 * (M - ps.length)) h1
        have := hM ps hp
        rw [show 2 * ps.length + 1 + 2 * (M - ps.length) = 2 * M + 1 by omega] at h2
        exact h2
  | .comps seed todo done => exact wrap_comps seed todo done hi h
  | .loop seed todo done n bs o =>
    rw [lateSteps, alone_resume]
    rw [stop_step (by simp [List.getD, hi]), annealFinish]
    simp only [Anneal.wrapUp] at h
    cases hf : A.finish o with
    | none => simp only [hf] at h; cases h
    | some r =>
      cases r with
      | error e => simp only [hf] at h ⊢; exact h
      | ok k =>
        simp only [hf] at h ⊢
        exact wrap_comps seed todo _ (by simpa using hi) h

theorem atMost_step {M i : ℕ} {s s' : AState σ κ} {m m' : Mem V} (h : AtMost A M s) (hs : annealStep A betas sized nSteps ratio i s m = .next s' m') :
    AtMost A M s' := by
  have hfin : ∀ {seed todo done n bs} {o : σ}, todo.length ≤ M → annealFinish A seed todo done n bs o m = .next s' m' → AtMost A M s' := by
    intro seed todo done n bs o hM h
    unfold annealFinish at h
    split at h
    · cases h; exact hM
    · cases h
    · cases h; exact hM
  match s with
  | .start seed =>
    rw [annealStep] at hs
    split at hs
    · cases hs; exact h
    · cases hs
    · next ps hp => cases hs; exact h ps hp
  | .comps seed [] done =>
    rw [annealStep] at hs
    split at hs <;> cases hs
  | .comps seed ([] :: todo) done =>
    rw [annealStep] at hs
    cases hs
    simp only [AtMost, List.length_cons] at h ⊢
    omega
  | .comps seed ((s :: p) :: todo) done =>
    rw [annealStep] at hs
    split at hs
    · cases hs; exact h
    · cases hs
    · cases hs
      simp only [AtMost, List.length_cons] at h ⊢
      omega
  | .loop seed todo done n [] o => exact hfin h hs
  | .loop seed todo done n (b :: bs) o =>
    rw [annealStep] at hs
    split at hs
    · exact hfin h hs
    · split at hs
      · cases hs; exact h
      · cases hs
      · split at hs
        · cases hs; exact h
        · cases hs

end

/-! ## The timer -/

section
variable {A V σ ρ ε : Type}

/-- How many steps the timer has left. -/
def ticksLeft (w : World A V σ ρ ε) : ℕ :=
  match w.timer with
  | .armed => w.mem.stop.length + 2
  | .firing k => w.mem.stop.length - k + 1
  | .over => 0

theorem sched_over {core : Core A V σ ρ ε} (hl : core.Local) {seq : Bool} {rows : List (List A × List (String × A))} :
    ∀ (es : List Event) {w : World A V σ ρ ε}, ticksLeft w ≤ es.count .tick → (runSched core seq rows es w).timer = .over
  | [], w, h => by
    rw [runSched]
    unfold ticksLeft at h
    cases ht : w.timer with
    | over => rfl
    | armed => rw [ht] at h; simp at h
    | firing k => rw [ht] at h; simp at h
  | .tick :: es, w, h => by
    rw [runSched]
    refine sched_over hl es ?_
    rw [List.count_cons_self] at h
    unfold ticksLeft at h ⊢
    unfold tickStep
    cases ht : w.timer with
    | armed => rw [ht] at h; dsimp only at h ⊢; omega
    | firing k =>
      rw [ht] at h
      dsimp only at h ⊢
      by_cases hk : k < w.mem.stop.length
      · rw [if_pos hk]; dsimp only; rw [List.length_set]; omega
      · rw [if_neg hk]; exact Nat.zero_le _
    | over => dsimp only; rw [ht]; exact Nat.zero_le _
  | .work i :: es, w, h => by
    rw [runSched]
    refine sched_over hl es ?_
    rw [List.count_cons_of_ne (by simp)] at h
    split
    · unfold ticksLeft at h ⊢
      rw [workStep_timer, workStep_stop hl]
      exact h
    · exact h

theorem sched_stop {core : Core A V σ ρ ε} (hl : core.Local) {seq : Bool} {rows : List (List A × List (String × A))} :
    ∀ (es : List Event) (w : World A V σ ρ ε), (runSched core seq rows es w).mem.stop.length = w.mem.stop.length
  | [], _ => rfl
  | e :: es, w => by rw [runSched_cons, sched_stop hl es, evStep_stop hl]

theorem sched_budgets {core : Core A V σ ρ ε} (hl : core.Local) {seq : Bool} {rows : List (List A × List (String × A))} {N : ℕ} :
    ∀ (es : List Event) {w : World A V σ ρ ε} {c : ℕ → ℕ}, rows.length = w.mem.stop.length → Budgets core rows N w c →
      ∃ c', Budgets core rows N (runSched core seq rows es w) c'
  | [], _, c, _, h => ⟨c, h⟩
  | e :: es, w, c, hw, h => by
    rw [runSched_cons]
    obtain ⟨c', h', -⟩ := ev_budgets hl (seq := seq) hw h e
    exact sched_budgets hl es (by rw [evStep_stop hl]; exact hw) h'

end

section
variable {σ κ ρ V : Type} {A : Anneal σ κ ρ V} {betas : List ℚ} {sized : Bool} {nSteps : Option ℕ} {ratio : ℕ → ℕ → V}

/-- No run has more than `M` paths. -/
def TasksAtMost (A : Anneal σ κ ρ V) (M : ℕ) (w : World ℕ V (AState σ κ) ρ PyErr) : Prop :=
  ∀ (i : ℕ) s, w.tasks[i]? = some (.running s) → AtMost A M s

theorem sched_atMost {M : ℕ} {seq : Bool} {seeds : List ℕ} (hM : ∀ seed ∈ seeds, AtMost A M (.start seed)) :
    ∀ (es : List Event) {w : World ℕ V (AState σ κ) ρ PyErr}, TasksAtMost A M w →
      TasksAtMost A M (runSched (annealCore A betas sized nSteps ratio) seq (seedRows seeds) es w)
  | [], _, h => h
  | .tick :: es, w, h => by
    rw [runSched]
    refine sched_atMost hM es fun i s hs => h i s ?_
    rw [(tickStep_spec w).1] at hs
    exact hs
  | .work j :: es, w, h => by
    rw [runSched]
    refine sched_atMost hM es ?_
    split
    · intro i s hs
      have hget : ∀ {t : Task (AState σ κ) ρ PyErr} {l : List (Task (AState σ κ) ρ PyErr)}, (l.set j t)[i]? = some (.running s) →
          (t = .running s) ∨ l[i]? = some (.running s) := by
        intro t l hl
        rw [List.getElem?_set] at hl
        split at hl
        · split at hl
          · exact Or.inl (Option.some.inj hl)
          · cases hl
        · exact Or.inr hl
      unfold workStep at hs
      split at hs
      · next xs d h1 h2 =>
        rcases hget hs with h3 | h3
        · cases h3
          obtain ⟨hj, h4⟩ := List.getElem?_eq_some_iff.1 h2
          simp only [seedRows, List.getElem_map, Prod.mk.injEq] at h4
          obtain ⟨rfl, rfl⟩ := h4
          refine hM _ ?_
          simp [dget]
        · exact h i s h3
      · next _ s0 h1 =>
        dsimp only at hs
        split at hs
        · next s' m' h2 =>
          rcases hget hs with h3 | h3
          · cases h3
            exact atMost_step (h j s0 h1) h2
          · exact h i s h3
        · rcases hget hs with h3 | h3
          · cases h3
          · exact h i s h3
        · rcases hget hs with h3 | h3
          · cases h3
          · exact h i s h3
      · rcases hget hs with h3 | h3
        · cases h3
        · exact h i s h3
      · exact h i s hs
    · exact h

/-- After the time limit, the call ends within few steps for each of the runs. -/
theorem late_ends {M N : ℕ} {seq : Bool} {seeds : List ℕ} {zero : V} {names : List String} (hM : ∀ seed ∈ seeds, AtMost A M (.start seed))
    (hN : ∀ i (hi : i < seeds.length), Ends (annealCore A betas sized nSteps ratio) i N (.start seeds[i])
      (World.init zero seeds.length names : World ℕ V (AState σ κ) ρ PyErr).mem)
    {es : List Event} (ht : seeds.length + 2 ≤ es.count .tick) {rounds : List (List Event)} (hr : ∀ r ∈ rounds, ∀ i < seeds.length, .work i ∈ r)
    (hlen : seeds.length * (2 * M + 4) ≤ rounds.length) :
    collect (runSched (annealCore A betas sized nSteps ratio) seq (seedRows seeds) (es ++ rounds.flatten) (World.init zero seeds.length names)) ≠ none := by
  have hloc := annealCore_local A betas sized nSteps ratio
  have hrows : (seedRows seeds).length = seeds.length := by simp [seedRows]
  rw [runSched_append]
  have hover : (runSched (annealCore A betas sized nSteps ratio) seq (seedRows seeds) es (World.init zero seeds.length names)).timer = .over :=
    sched_over hloc es (by simp only [ticksLeft, World.init, List.length_replicate]; exact ht)
  have hstop := sched_timerOk hloc (seq := seq) (rows := seedRows seeds) es (w := World.init zero seeds.length names) trivial
  have hslen := sched_stop hloc (seq := seq) (rows := seedRows seeds) es (World.init zero seeds.length names)
  have hat := sched_atMost (betas := betas) (sized := sized) (nSteps := nSteps) (ratio := ratio) (seq := seq) hM es (w := World.init zero seeds.length names) (by
    intro i s h
    simp only [World.init, List.getElem?_replicate] at h
    split at h <;> cases h)
  have hinv := runSched_inv (core := annealCore A betas sized nSteps ratio) (seq := seq) es (init_inv (σ := AState σ κ) (ρ := ρ) (ε := PyErr) (seedRows seeds) seq zero names)
  obtain ⟨c, hbud⟩ := sched_budgets hloc (seq := seq) (rows := seedRows seeds) (N := N) es (w := World.init zero seeds.length names) (c := fun _ => N + 2)
    (by simp [World.init, seedRows]) (by
      intro i hi
      rw [hrows] at hi
      unfold Budget
      rw [show (World.init zero seeds.length names : World ℕ V (AState σ κ) ρ PyErr).tasks[i]? = some .pending by simp [World.init, hi]]
      refine ⟨rfl, fun row h => ?_⟩
      obtain ⟨h1, rfl⟩ := List.getElem?_eq_some_iff.1 h
      simpa [seedRows, annealCore, dget] using hN i hi)
  rw [hrows] at hinv
  generalize runSched (annealCore A betas sized nSteps ratio) seq (seedRows seeds) es (World.init zero seeds.length names) = w at *
  have hall : ∀ b ∈ w.mem.stop, b = true := by
    unfold TimerOk at hstop
    rw [hover] at hstop
    exact hstop
  have hw : w.mem.stop.length = seeds.length := by rw [hslen]; simp [World.init]
  rw [stopped_sched hloc _ hover hall]
  have key : ∀ i < seeds.length, ∀ (k : ℕ) (s : AState σ κ), AtMost A M s → Ends (annealCore A betas sized nSteps ratio) i k s w.mem →
      Ends (annealCore A betas sized nSteps ratio).stopped i (lateSteps M s) s w.mem := by
    intro i hi k s hs he sig
    obtain ⟨x, hx⟩ := he fun _ => true
    refine ⟨x, ?_⟩
    rw [alone_stopped hloc _ sig s (m := w.mem) (m' := w.mem) rfl (by omega) (by omega)]
    exact wrap_alone (by omega) hs (alone_wrap k (by omega) hx)
  have hlate : ∀ s : AState σ κ, AtMost A M s → lateSteps M s ≤ 2 * M + 2 := by
    intro s hs
    match s with
    | .start _ => exact le_refl _
    | .comps .. => simp only [AtMost] at hs; simp only [lateSteps]; omega
    | .loop .. => simp only [AtMost] at hs; simp only [lateSteps]; omega
  have hbud' : ∀ i, ∃ c', c' ≤ 2 * M + 4 ∧ (i < (seedRows seeds).length →
      Budget (annealCore A betas sized nSteps ratio).stopped (seedRows seeds) (2 * M + 2) w i c') := by
    intro i
    by_cases hi : i < seeds.length
    · have hb := hbud i (by rw [hrows]; exact hi)
      unfold Budget at hb
      cases hti : w.tasks[i]? with
      | none => exact ⟨0, by omega, fun _ => by simp only [Budget, hti]⟩
      | some t =>
        rw [hti] at hb
        cases t with
        | pending =>
          refine ⟨2 * M + 2 + 2, by omega, fun _ => ?_⟩
          simp only [Budget, hti, true_and]
          intro row hrow
          obtain ⟨h1, h2⟩ := List.getElem?_eq_some_iff.1 hrow
          have h3 := key i hi N _ (hM _ (List.getElem_mem hi)) (by
            have := hb.2 row hrow
            rw [← h2] at this
            simpa [seedRows, annealCore, dget] using this)
          rw [← h2]
          simpa [seedRows, annealCore, dget, Core.stopped, lateSteps] using h3
        | running s =>
          obtain ⟨k, -, he⟩ := hb
          have hs := hat i s hti
          have := hlate s hs
          refine ⟨lateSteps M s + 1, by omega, fun _ => ?_⟩
          simp only [Budget, hti]
          exact ⟨_, rfl, key i hi k s hs he⟩
        | returned r => exact ⟨1, by omega, fun _ => by simp only [Budget, hti]⟩
        | finished r => exact ⟨0, by omega, fun _ => by simp only [Budget, hti]⟩
        | raised e => exact ⟨0, by omega, fun _ => by simp only [Budget, hti]⟩
    · exact ⟨0, by omega, fun h => absurd (by rw [hrows] at h; exact h) hi⟩
  choose c' hc1 hc2 using hbud'
  refine rounds_end (stopped_local hloc) rounds (N := 2 * M + 2) (c := c') hinv (by rw [hrows, hw]) (fun i hi => hc2 i hi) (by rw [hrows]; exact hr) ?_
  refine le_trans (Finset.sum_le_sum fun i _ => hc1 i) ?_
  rw [Finset.sum_const, Finset.card_range, hrows, nsmul_eq_mul, Nat.cast_id]
  exact hlen

/-- Results without updates. -/
theorem parts_wrap {L seed : ℕ} {B : Option ℕ} {ps : List (List (ℕ × ℕ))} {ks : List κ} (h : Parts A [] L seed B ps ks)
    (done : List κ) : A.wrapPaths seed ps done = some (A.total (done ++ ks)) := by
  induction h generalizing done with
  | nil => simp [Anneal.wrapPaths]
  | empty _ ih => simp only [Anneal.wrapPaths, Anneal.asDrawn, ih]; simp
  | @path B p ps k ks o o' h1 h2 h3 h4 _ ih =>
    obtain ⟨s, p, rfl⟩ := List.exists_cons_of_ne_nil h1
    simp only [List.take_nil, Anneal.runN, Option.some.injEq, Except.ok.injEq] at h3
    subst h3
    simp only [Anneal.wrapPaths, Anneal.asDrawn, h2, h4, ih]
    simp

end
end TNCO
