import Verif.Lemmas.DisplayRun
import Verif.Lemmas.DisplayApp
import Verif.Props.Parallel

/-! # C83: the progress display -/

namespace TNCO
variable {A V σ ρ ε : Type}

/-- C83, results: what `Parallel` gives back does not depend on the display; it is what it gives back without one under the same schedule of workers and timer. -/
theorem C83_results {core : Core A V σ ρ ε} {cd : Codec V} {alloc : Nat → Nat} {zero : V} {pos : V → Bool} {joblib : Bool} {nJobs verbose : Int} {leave : Bool}
    {args : List (List A)} {kwargs : List (String × List A)} {bufs : List (String × List Char)} {sched : List ShowEvent} {sys sys' : Sys}
    {x : Except (ParErr ε) (List ρ)} {t : Option (Display V)}
    (h : parallelShown core cd alloc zero pos joblib nJobs verbose leave args kwargs bufs sched sys = (sys', some x, t)) :
    parallel core cd alloc zero joblib nJobs args kwargs bufs (withoutLooks sched) sys = (sys', some x) := by
  unfold parallelShown at h
  unfold parallel
  split at h
  · next e he => rw [he]; cases h; rfl
  · next rows hrows =>
    rw [hrows]
    dsimp only at h ⊢
    split at h
    · next s e hb => rw [hb]; cases h; rfl
    · next s ids hb =>
      rw [hb]
      dsimp only
      split at h
      · next hj => rw [if_pos hj]; cases h; rfl
      · next hj =>
        rw [if_neg hj]
        split at h
        · next hk => rw [if_pos hk]; cases h; rfl
        · next hk =>
          rw [if_neg hk]
          rw [runShow_fst] at h
          dsimp only at h
          split at h
          · cases h
          · next e hc => rw [hc]; cases h; rfl
          · next rs hc =>
            rw [hc]
            split at h
            · cases h
            · cases h; rfl

/-- C83, silence: without `verbose >= 2` there is no display. -/
theorem C83_silent {core : Core A V σ ρ ε} {cd : Codec V} {alloc : Nat → Nat} {zero : V} {pos : V → Bool} {joblib : Bool} {nJobs verbose : Int} {leave : Bool}
    {args : List (List A)} {kwargs : List (String × List A)} {bufs : List (String × List Char)} {sched : List ShowEvent} {sys : Sys} (hv : verbose < 2) :
    parallelShown core cd alloc zero pos joblib nJobs verbose leave args kwargs bufs sched sys =
      ((parallel core cd alloc zero joblib nJobs args kwargs bufs (withoutLooks sched) sys).1,
        (parallel core cd alloc zero joblib nJobs args kwargs bufs (withoutLooks sched) sys).2, none) := by
  have hv' : decide (2 ≤ verbose) = false := decide_eq_false (by omega)
  unfold parallelShown parallel
  cases hrows : parallelArgs args kwargs with
  | error e => rfl
  | ok rows =>
    dsimp only
    rcases hb : makeBuffers cd alloc zero rows.length ([['f'], ['b'], ['?']] ++ bufs.map Prod.snd) sys with ⟨s, e | ids⟩
    · rfl
    · dsimp only
      rw [hv', runShow_fst]
      by_cases hj : (decide (nJobs ≠ 1) && joblib && decide (nJobs = 0)) = true
      · rw [if_pos hj, if_pos hj]; rfl
      · rw [if_neg hj, if_neg hj]
        by_cases hk : keywordClash (kwargs.map Prod.fst) ((dupdate [] ((bufs.map Prod.fst).zip (ids.drop 3))).map Prod.fst) = true
        · rw [if_pos hk, if_pos hk]; rfl
        · rw [if_neg hk, if_neg hk]
          dsimp only
          rcases collect (runSched core (!(decide (nJobs ≠ 1) && joblib)) rows (withoutLooks sched)
            (World.init zero rows.length ((dupdate [] ((bufs.map Prod.fst).zip (ids.drop 3))).map Prod.fst))) with _ | e | rs
          · rfl
          · rfl
          · rfl

/-- C83, the lines: when the display has ended, all runs are completed. It had at most one line for each run. Every run with a positive status has a line, and what the line
shows, or showed last, is the final status of the run and its final values in the buffers. With `leave` the lines are still there, without it they are all gone. This
holds for every interleaving of the workers, the timer and the single reads of the display. -/
theorem C83_lines {core : Core A V σ ρ ε} (hl : core.Local) {seq : Bool} {rows : List (List A × List (String × A))} {p : ShowPar V} {zero : V} {names : List String}
    (hn : p.runs = rows.length) (hs : p.runs ≤ p.compSlots) (ht : p.runs ≤ p.statSlots) {es : List ShowEvent} {w : World A V σ ρ ε} {d : Display V}
    (h : runShow core seq rows p es (World.init zero rows.length names, .init) = (w, d)) (hd : d.st = .over ∨ d.st = .failed .assertionError) :
    (∀ i < rows.length, ∃ r, w.tasks[i]? = some (.finished r)) ∧
      ((d.lines.map Prod.snd ++ d.gone).map Line.label).Nodup ∧
      (∀ l ∈ d.lines.map Prod.snd ++ d.gone, 1 ≤ l.label ∧ l.label ≤ rows.length) ∧
      (∀ i < rows.length, Positive p.pos w.mem i → lineOf p.names w.mem i ∈ if p.leave then d.lines.map Prod.snd else d.gone) ∧
      (if p.leave then d.gone = [] else d.lines = []) := by
  obtain ⟨hm, hshow, _⟩ := runShow_ok hl (seq := seq) (rows := rows) hs ht es (World.init zero rows.length names, .init) (by rw [hn]; exact init_marks _ _ _)
    (init_shows p _).1 (init_shows p (World.init zero rows.length names : World A V σ ρ ε)).2
  rw [h] at hm hshow
  dsimp only at hm hshow
  have hst : AllMarked p w ∧ ∀ i < p.compSlots, RowDone p w d i := by
    have := hshow.st
    rcases hd with hd | hd
    · rw [hd] at this; exact this
    · rw [hd] at this
      rcases this with ⟨e, _⟩ | ⟨_, h1, h2, _⟩
      · cases e
      · exact ⟨h1, h2⟩
  have T := hshow.table
  have hline : ∀ l ∈ d.lines.map Prod.snd, ∃ i t, l.label = i + 1 ∧ dget d.tasks i = some (some t) ∧ dget d.lines t = some l := by
    intro l hl
    obtain ⟨⟨t, l'⟩, he, rfl⟩ := List.mem_map.1 hl
    obtain ⟨i, hi⟩ := T.back t (List.mem_map_of_mem (f := Prod.fst) he)
    obtain ⟨l'', g1, g2⟩ := T.link i t hi
    have := dget_of_mem T.ids he
    rw [this] at g1
    cases g1
    exact ⟨i, t, g2, hi, this⟩
  refine ⟨fun i hi => (hm.comp i).1 (hst.1 i (by omega)), ?_, ?_, fun i hi hp => ?_, ?_⟩
  · rw [List.map_append, List.nodup_append]
    refine ⟨?_, T.once, ?_⟩
    · rw [List.map_map]
      refine List.Nodup.map_on ?_ (List.Nodup.of_map _ T.ids)
      rintro ⟨t, l⟩ he ⟨t', l'⟩ he' e
      obtain ⟨i, hi⟩ := T.back t (List.mem_map_of_mem (f := Prod.fst) he)
      obtain ⟨i', hi'⟩ := T.back t' (List.mem_map_of_mem (f := Prod.fst) he')
      obtain ⟨m, g1, g2⟩ := T.link i t hi
      obtain ⟨m', g1', g2'⟩ := T.link i' t' hi'
      rw [dget_of_mem T.ids he] at g1
      rw [dget_of_mem T.ids he'] at g1'
      cases g1
      cases g1'
      dsimp only [Function.comp] at e
      have : i = i' := by omega
      subst this
      rw [hi] at hi'
      cases hi'
      have h1 := dget_of_mem T.ids he
      rw [dget_of_mem T.ids he'] at h1
      cases h1
      rfl
    · rintro a ha b hb rfl
      obtain ⟨l, hl1, rfl⟩ := List.mem_map.1 ha
      obtain ⟨l', hl1', e⟩ := List.mem_map.1 hb
      obtain ⟨i, t, g1, g2, _⟩ := hline l hl1
      obtain ⟨i', g1', g2', _⟩ := T.gone l' hl1'
      have : i = i' := by omega
      subst this
      rw [g2] at g2'
      cases g2'
  · intro l hl1
    have key : ∀ i x, dget d.tasks i = some x → i < rows.length := by
      intro i x hx
      have := T.runs i (List.mem_map_of_mem (f := Prod.fst) (dget_mem hx))
      rw [hm.marks, hn] at this
      exact this
    rcases List.mem_append.1 hl1 with hl1 | hl1
    · obtain ⟨i, t, g1, g2, _⟩ := hline l hl1
      have := key i _ g2
      omega
    · obtain ⟨i, g1, g2, _⟩ := T.gone l hl1
      have := key i _ g2
      omega
  · have hrow := hst.2 i (by omega)
    cases hv : p.leave with
    | true =>
      rw [if_pos rfl]
      rcases hrow.1 hp with ⟨t, _, h2⟩ | hg
      · exact List.mem_map.2 ⟨_, dget_mem h2, rfl⟩
      · rw [T.leave hv] at hg; cases hg
    | false =>
      rcases hrow.1 hp with ⟨t, h1, _⟩ | hg
      · exact (hrow.2 hv t h1).elim
      · exact hg
  · cases hv : p.leave with
    | true => exact T.leave hv
    | false =>
      show d.lines = []
      rw [List.eq_nil_iff_forall_not_mem]
      rintro ⟨t, l⟩ he
      obtain ⟨i, hi⟩ := T.back t (List.mem_map_of_mem (f := Prod.fst) he)
      have := T.runs i (List.mem_map_of_mem (f := Prod.fst) (dget_mem hi))
      rw [hm.marks] at this
      exact (hst.2 i (by omega)).2 hv t hi

/-- C83, errors: the thread can fail in two ways only: a buffer has the name of an argument of `rich`, or one run was shown while another one is completed with a status that is
not positive. Above all, the table of `rich` is never asked for a line that it does not have. -/
theorem C83_errors {core : Core A V σ ρ ε} (hl : core.Local) {seq : Bool} {rows : List (List A × List (String × A))} {p : ShowPar V} {zero : V} {names : List String}
    (hn : p.runs = rows.length) (hs : p.runs ≤ p.compSlots) (ht : p.runs ≤ p.statSlots) {es : List ShowEvent} {w : World A V σ ρ ε} {d : Display V}
    (h : runShow core seq rows p es (World.init zero rows.length names, .init) = (w, d)) {e : PyErr} (hd : d.st = .failed e) :
    (e = .typeError ∧ Reserved p.names) ∨
      (e = .assertionError ∧ d.lines.map Prod.snd ++ d.gone ≠ [] ∧ ∃ i < rows.length, (∃ r, w.tasks[i]? = some (.finished r)) ∧ ¬ Positive p.pos w.mem i) := by
  obtain ⟨hm, hshow, _⟩ := runShow_ok hl (seq := seq) (rows := rows) hs ht es (World.init zero rows.length names, .init) (by rw [hn]; exact init_marks _ _ _)
    (init_shows p _).1 (init_shows p (World.init zero rows.length names : World A V σ ρ ε)).2
  rw [h] at hm hshow
  dsimp only at hm hshow
  have hst := hshow.st
  rw [hd] at hst
  rcases hst with hst | ⟨he, h1, h2, h3, i, hi, h4⟩
  · exact .inl hst
  · refine .inr ⟨he, ?_, i, by omega, (hm.comp i).1 (h1 i (by omega)), fun hp => ?_⟩
    · cases htk : d.tasks with
      | nil => exact (h3 htk).elim
      | cons a as =>
        obtain ⟨j, x⟩ := a
        have hj : dget d.tasks j = some x := by rw [htk, dget_cons, if_pos rfl]
        cases x with
        | some t =>
          obtain ⟨l, g1, _⟩ := hshow.table.link j t hj
          intro e0
          have : l ∈ d.lines.map Prod.snd ++ d.gone := List.mem_append_left _ (List.mem_map.2 ⟨_, dget_mem g1, rfl⟩)
          rw [e0] at this
          cases this
        | none =>
          obtain ⟨l, g1, _⟩ := hshow.table.left j hj
          intro e0
          have : l ∈ d.lines.map Prod.snd ++ d.gone := List.mem_append_right _ g1
          rw [e0] at this
          cases this
    · rcases (h2 i (by omega)).1 hp with ⟨t, g1, _⟩ | hg
      · rw [h4] at g1; cases g1
      · obtain ⟨j, g1, g2, _⟩ := hshow.table.gone _ hg
        have : j = i := by
          have : (lineOf p.names w.mem i).label = i + 1 := rfl
          omega
        subst this
        rw [h4] at g2
        cases g2

/-- C83, quiet: if in the end every run reports a positive status and no buffer has a reserved name, the thread does not fail. -/
theorem C83_quiet {core : Core A V σ ρ ε} (hl : core.Local) {seq : Bool} {rows : List (List A × List (String × A))} {p : ShowPar V} {zero : V} {names : List String}
    (hn : p.runs = rows.length) (hs : p.runs ≤ p.compSlots) (ht : p.runs ≤ p.statSlots) {es : List ShowEvent} {w : World A V σ ρ ε} {d : Display V}
    (h : runShow core seq rows p es (World.init zero rows.length names, .init) = (w, d)) (hr : ¬ Reserved p.names)
    (hpos : ∀ i < rows.length, Positive p.pos w.mem i) (e : PyErr) : d.st ≠ .failed e := by
  intro hd
  rcases C83_errors hl hn hs ht h hd with ⟨_, h1⟩ | ⟨_, _, i, hi, _, h1⟩
  · exact hr h1
  · exact h1 (hpos i hi)

/-- C83, after the time limit: once the thread of the timer has ended, the last checks do not fail any more. -/
theorem C83_late {core : Core A V σ ρ ε} (hl : core.Local) {seq : Bool} {rows : List (List A × List (String × A))} {p : ShowPar V} {zero : V} {names : List String}
    (hn : p.runs = rows.length) (hs : p.runs ≤ p.compSlots) (ht : p.runs ≤ p.statSlots) {es es' : List ShowEvent}
    (hover : (runShow core seq rows p es (World.init zero rows.length names, .init)).1.timer = .over)
    (hend : (runShow core seq rows p es (World.init zero rows.length names, .init)).2.st.ended = false) :
    (runShow core seq rows p (es ++ es') (World.init zero rows.length names, .init)).2.st ≠ .failed .assertionError := by
  obtain ⟨hm, hshow, hin⟩ := runShow_ok hl (seq := seq) (rows := rows) hs ht es (World.init zero rows.length names, .init) (by rw [hn]; exact init_marks _ _ _)
    (init_shows p _).1 (init_shows p (World.init zero rows.length names : World A V σ ρ ε)).2
  rw [runShow_append]
  refine runShow_late hl hs ht es' _ hm hshow hin hover fun hd => ?_
  rw [hd] at hend
  cases hend

/-! ## The apps -/

/-- C83, the apps: if the time is not up, a run that has finished reports the fraction `(L - 1) / len(betas)`, `L` being the number of steps at each path; it reports nothing, and
the status is still zero, if it had no step to make. (So the display never gets to 100%.) -/
theorem C83_apps_status {κ : Type} {A : Anneal σ κ ρ V} {betas : List ℚ} {sized : Bool} {nSteps : Option ℕ} {ratio : ℕ → ℕ → V} {seq : Bool} {rows : List (List ℕ × List (String × ℕ))}
    {p : ShowPar V} {zero : V} {names : List String} {es : List ShowEvent} {w : World ℕ V (AState σ κ) ρ PyErr} {d : Display V}
    (h : runShow (annealCore A betas sized nSteps ratio) seq rows p es (World.init zero rows.length names, .init) = (w, d)) (ht : .run .tick ∉ es) {i : ℕ} {r : ρ}
    (hr : w.tasks[i]? = some (.finished r)) :
    ∃ seed ps, A.paths seed = some (.ok ps) ∧
      w.mem.status[i]? = some (if 0 < stepsAt betas nSteps ∧ ∃ p ∈ ps, p ≠ [] then ratio (stepsAt betas nSteps - 1) betas.length else zero) := by
  have hw : w = (runShow (annealCore A betas sized nSteps ratio) seq rows p es (World.init zero rows.length names, .init)).1 := by rw [h]
  rw [runShow_fst] at hw
  have hs := sched_statuses (sized := sized) (seq := seq) (rows := rows) (withoutLooks es) (fun hm => ht ?_) (init_statuses A betas nSteps ratio zero rows.length names)
  · rw [← hw] at hs
    exact hs.2 i _ hr
  · obtain ⟨e, he, h1⟩ := List.mem_filterMap.1 hm
    cases e with
    | look => cases h1
    | run e => cases h1; exact he

/-- C83, no failure in the apps: with at least two steps, and at least one contraction to make whatever the seed, the thread of the display does not fail unless the time is up. -/
theorem C83_apps {κ : Type} {A : Anneal σ κ ρ V} {betas : List ℚ} {sized : Bool} {nSteps : Option ℕ} {ratio : ℕ → ℕ → V} {seq : Bool} {rows : List (List ℕ × List (String × ℕ))}
    {p : ShowPar V} {zero : V} (hnames : p.names = ["log2_total_cost"]) (hn : p.runs = rows.length) (hs : p.runs ≤ p.compSlots) (ht : p.runs ≤ p.statSlots) {es : List ShowEvent}
    {w : World ℕ V (AState σ κ) ρ PyErr} {d : Display V}
    (h : runShow (annealCore A betas sized nSteps ratio) seq rows p es (World.init zero rows.length p.names, .init) = (w, d)) (htick : .run .tick ∉ es)
    (hsteps : 2 ≤ stepsAt betas nSteps) (hratio : ∀ n, 0 < n → n < betas.length → p.pos (ratio n betas.length) = true)
    (hpaths : ∀ seed ps, A.paths seed = some (.ok ps) → ∃ q ∈ ps, q ≠ []) (e : PyErr) : d.st ≠ .failed e := by
  intro hd
  rcases C83_errors (annealCore_local A betas sized nSteps ratio) hn hs ht h hd with ⟨_, h1⟩ | ⟨_, _, i, hi, ⟨r, hr⟩, h1⟩
  · rw [hnames] at h1
    revert h1
    decide
  · obtain ⟨seed, ps, h2, h3⟩ := C83_apps_status h htick hr
    rw [if_pos ⟨by omega, hpaths seed ps h2⟩] at h3
    refine h1 ⟨_, h3, hratio _ (by omega) ?_⟩
    have : stepsAt betas nSteps ≤ betas.length := Nat.min_le_right _ _
    omega

/-! ## The end of the thread -/

theorem collect_mem {w : World A V σ ρ ε} {rs : List ρ} (h : collect w = some (.ok rs)) : ∀ t ∈ w.tasks, ∃ r, t = .finished r := by
  intro t ht
  rw [(collect_ok h).2] at ht
  obtain ⟨r, _, rfl⟩ := List.mem_map.1 ht
  exact ⟨r, rfl⟩

/-- When all workers have finished, nothing but the timer goes on. -/
theorem finished_stable {core : Core A V σ ρ ε} {seq : Bool} {rows : List (List A × List (String × A))} :
    ∀ (es : List Event) {w : World A V σ ρ ε} {rs : List ρ}, collect w = some (.ok rs) → collect (runSched core seq rows es w) = some (.ok rs)
  | [], _, _, h => h
  | .tick :: es, w, rs, h => by
    rw [runSched]
    refine finished_stable es ?_
    obtain ⟨h1, _, h2, _⟩ := tickStep_spec w
    unfold collect at h ⊢
    rw [h1, h2]; exact h
  | .work i :: es, w, rs, h => by
    rw [runSched]
    refine finished_stable es ?_
    split
    · have : workStep core rows i w = w := by
        unfold workStep
        cases ht : w.tasks[i]? with
        | none => rfl
        | some t =>
          obtain ⟨r, rfl⟩ := collect_mem h t (List.mem_of_getElem? ht)
          rfl
      rw [this]; exact h
    · exact h

theorem slots_status {alloc : Nat → Nat} (ha : ∀ n, n ≤ alloc n) (n : Nat) : n ≤ slotsFor alloc n 4 := by
  unfold slotsFor
  rw [Nat.le_div_iff_mul_le (by omega)]
  exact ha _

theorem slots_completed (alloc : Nat → Nat) (n : Nat) : slotsFor alloc n 1 = alloc n := by
  unfold slotsFor
  rw [Nat.mul_one, Nat.div_one]

theorem dset_length_le {κ ν : Type} [DecidableEq κ] (D : List (κ × ν)) (k : κ) (v : ν) : (dset D k v).length ≤ D.length + 1 := by
  unfold dset
  split <;> simp

theorem dupdate_length_le {κ ν : Type} [DecidableEq κ] : ∀ (l D : List (κ × ν)), (dupdate D l).length ≤ D.length + l.length
  | [], D => le_rfl
  | e :: l, D => by
    have h1 := dupdate_length_le l (dset D e.1 e.2)
    have h2 := dset_length_le D e.1 e.2
    rw [List.length_cons]
    show (dupdate (dset D e.1 e.2) l).length ≤ _
    omega

/-- C83, the end (partial): if the operating system gives exactly the memory asked for `completed`, then the call returns after the workers have, once the display has made enough
steps: at most `2 m + 12` for each run and once more, `m` being the number of buffers. Missing is the case that it gives more, see `C83_hangs`. -/
theorem C83_ends_partial {core : Core A V σ ρ ε} (hl : core.Local) {cd : Codec V} {alloc : Nat → Nat} {zero : V} {pos : V → Bool} {joblib : Bool} {nJobs verbose : Int}
    {leave : Bool} {args : List (List A)} {kwargs : List (String × List A)} {bufs : List (String × List Char)} {rows : List (List A × List (String × A))}
    {es es' : List ShowEvent} {sys sys' : Sys} {rs : List ρ} (ha : ∀ n, n ≤ alloc n) (hrows : parallelArgs args kwargs = .ok rows) (hexact : alloc rows.length = rows.length)
    (h : parallel core cd alloc zero joblib nJobs args kwargs bufs (withoutLooks es) sys = (sys', some (.ok rs)))
    (hlooks : (rows.length + 1) * (2 * bufs.length + 12) ≤ es'.count .look) :
    ∃ t, parallelShown core cd alloc zero pos joblib nJobs verbose leave args kwargs bufs (es ++ es') sys = (sys', some (.ok rs), t) := by
  unfold parallel at h
  unfold parallelShown
  rw [hrows] at h ⊢
  dsimp only at h ⊢
  split at h
  · cases h
  · next s ids hb =>
    split at h
    · cases h
    · next hj =>
      split at h
      · cases h
      · next hk =>
        rw [hb]
        dsimp only
        rw [if_neg hj, if_neg hk, runShow_append]
        split at h
        · cases h
        · cases h
        · next rs' hc =>
          cases h
          set names := (dupdate [] ((bufs.map Prod.fst).zip (ids.drop 3))).map Prod.fst with hnames
          set p : ShowPar V := ⟨leave, names, rows.length, slotsFor alloc rows.length 1, slotsFor alloc rows.length 4, pos⟩ with hp
          set seq := !(decide (nJobs ≠ 1) && joblib) with hseq
          have hs : p.runs ≤ p.compSlots := by rw [hp]; dsimp only; rw [slots_completed]; exact ha _
          obtain ⟨hm, hshow, _⟩ := runShow_ok hl (seq := seq) (rows := rows) hs (slots_status ha _) es (World.init zero rows.length names, .init) (init_marks _ _ _)
            (init_shows p _).1 (init_shows p (World.init zero rows.length names : World A V σ ρ ε)).2
          have hfst := runShow_fst core seq rows p es (World.init zero rows.length names, .init)
          have hall : AllMarked p (runShow core seq rows p es (World.init zero rows.length names, .init)).1 := by
            intro i hi
            have hi' : i < rows.length := by rw [hp] at hi; dsimp only at hi; rw [slots_completed, hexact] at hi; exact hi
            rw [hm.comp]
            have hlt : i < (runShow core seq rows p es (World.init zero rows.length names, .init)).1.tasks.length := by rw [hm.tasks]; exact hi'
            rw [hfst] at hlt ⊢
            obtain ⟨r, hr⟩ := collect_mem hc _ (List.getElem_mem hlt)
            exact ⟨r, by rw [List.getElem?_eq_getElem hlt, hr]⟩
          have hlen : names.length ≤ bufs.length := by
            rw [hnames, List.length_map]
            refine le_trans (dupdate_length_le _ _) ?_
            simp
          have hbound : stepsLeft p (runShow core seq rows p es (World.init zero rows.length names, .init)).2.st ≤ es'.count .look := by
            refine le_trans (left_le hshow.st) (le_trans ?_ hlooks)
            rw [show p.compSlots = rows.length by rw [hp]; dsimp only; rw [slots_completed, hexact]]
            exact Nat.mul_le_mul_left _ (by rw [show p.names = names from rfl]; omega)
          have hended := runShow_ends hl (seq := seq) (rows := rows) es' _ hm hall hbound
          rw [runShow_fst, hfst, finished_stable _ hc]
          dsimp only
          rw [hended]
          simp

/-- C83 is violated where the operating system gives whole pages: if the memory for `completed` has more slots than there are runs, the slots beyond never get set, the display goes on
for ever, and the call, which joins its thread, never returns a result. -/
theorem C83_hangs {core : Core A V σ ρ ε} (hl : core.Local) {cd : Codec V} {alloc : Nat → Nat} {zero : V} {pos : V → Bool} {joblib : Bool} {nJobs verbose : Int}
    {leave : Bool} {args : List (List A)} {kwargs : List (String × List A)} {bufs : List (String × List Char)} {rows : List (List A × List (String × A))}
    {sched : List ShowEvent} {sys : Sys} (hv : 2 ≤ verbose) (ha : ∀ n, n ≤ alloc n) (hrows : parallelArgs args kwargs = .ok rows) (hmore : rows.length < alloc rows.length)
    (hr : ¬ Reserved (bufs.map Prod.fst)) (rs : List ρ) :
    (parallelShown core cd alloc zero pos joblib nJobs verbose leave args kwargs bufs sched sys).2.1 ≠ some (.ok rs) := by
  intro h
  unfold parallelShown at h
  rw [hrows] at h
  dsimp only at h
  split at h
  · cases h
  · next s ids hb =>
    split at h
    · cases h
    · split at h
      · cases h
      · split at h
        · cases h
        · cases h
        · next rs' hc =>
          set names := (dupdate [] ((bufs.map Prod.fst).zip (ids.drop 3))).map Prod.fst with hnames
          set p : ShowPar V := ⟨leave, names, rows.length, slotsFor alloc rows.length 1, slotsFor alloc rows.length 4, pos⟩ with hp
          set seq := !(decide (nJobs ≠ 1) && joblib) with hseq
          have hcs : p.compSlots = alloc rows.length := by rw [hp]; dsimp only; rw [slots_completed]
          have hs : p.runs ≤ p.compSlots := by rw [hcs]; exact ha _
          obtain ⟨hm, hshow, _⟩ := runShow_ok hl (seq := seq) (rows := rows) hs (slots_status ha _) sched (World.init zero rows.length names, .init) (init_marks _ _ _)
            (init_shows p _).1 (init_shows p (World.init zero rows.length names : World A V σ ρ ε)).2
          have hno : ¬ AllMarked p (runShow core seq rows p sched (World.init zero rows.length names, .init)).1 := by
            intro hall
            have := (List.getElem?_eq_some_iff.1 (hall rows.length (by rw [hcs]; exact hmore))).1
            rw [hm.marks] at this
            exact lt_irrefl _ this
          have hres : ¬ Reserved p.names := by
            rintro ⟨b, hb1, hb2⟩
            refine hr ⟨b, ?_, hb2⟩
            have : b ∈ ((bufs.map Prod.fst).zip (ids.drop 3)).map Prod.fst := (dupdate_keys _ _).1 hb1
            obtain ⟨q, hq, rfl⟩ := List.mem_map.1 this
            exact (List.of_mem_zip (a := q.1) (b := q.2) hq).1
          have hended : (runShow core seq rows p sched (World.init zero rows.length names, .init)).2.st.ended = false := by
            have hst := hshow.st
            cases hd : (runShow core seq rows p sched (World.init zero rows.length names, .init)).2.st with
            | over => rw [hd] at hst; exact (hno hst.1).elim
            | failed e =>
              rw [hd] at hst
              rcases hst with ⟨_, h1⟩ | ⟨_, h1, _⟩
              · exact (hres h1).elim
              · exact (hno h1).elim
            | check k => rfl
            | row l k => rfl
            | stat l k c => rfl
            | value l k c => rfl
            | fetch l k c v t todo got => rfl
          rw [hended, decide_eq_true hv] at h
          cases h

/-- C83, exceptions: when a run raises, the thread of the display has not ended, and never will: it goes on reading the buffers as long as the interpreter lives. -/
theorem C83_raise {core : Core A V σ ρ ε} (hl : core.Local) {seq : Bool} {rows : List (List A × List (String × A))} {p : ShowPar V} {zero : V} {names : List String}
    (hn : p.runs = rows.length) (hs : p.runs ≤ p.compSlots) (ht : p.runs ≤ p.statSlots) (hr : ¬ Reserved p.names) {es es' : List ShowEvent}
    (h : (runShow core seq rows p es (World.init zero rows.length names, .init)).1.failed ≠ none) :
    (runShow core seq rows p (es ++ es') (World.init zero rows.length names, .init)).2.st.ended = false := by
  obtain ⟨hm, hshow, _⟩ := runShow_ok hl (seq := seq) (rows := rows) hs ht (es ++ es') (World.init zero rows.length names, .init) (by rw [hn]; exact init_marks _ _ _)
    (init_shows p _).1 (init_shows p (World.init zero rows.length names : World A V σ ρ ε)).2
  have hinv := runSched_inv (core := core) (seq := seq) (withoutLooks es) (init_inv (σ := σ) (ρ := ρ) (ε := ε) rows seq zero names)
  rw [runShow_fst] at h
  obtain ⟨e, he⟩ := Option.ne_none_iff_exists'.1 h
  obtain ⟨i, hi⟩ := hinv.failed e he
  obtain ⟨t, ht1, ht2⟩ := sched_result (core := core) seq rows (x := .error e) (withoutLooks es') _ _ hi rfl
  rw [← runSched_append, ← withoutLooks_append] at ht1
  have hno : ¬ AllMarked p (runShow core seq rows p (es ++ es') (World.init zero rows.length names, .init)).1 := by
    intro hall
    rw [← runShow_fst core seq rows p (es ++ es') (World.init zero rows.length names, .init)] at ht1
    have hlt := (List.getElem?_eq_some_iff.1 ht1).1
    rw [hm.tasks] at hlt
    obtain ⟨r, hr'⟩ := (hm.comp i).1 (hall i (by omega))
    rw [hr'] at ht1
    cases ht1
    cases ht2
  have hst := hshow.st
  cases hd : (runShow core seq rows p (es ++ es') (World.init zero rows.length names, .init)).2.st with
  | over => rw [hd] at hst; exact (hno hst.1).elim
  | failed e =>
    rw [hd] at hst
    rcases hst with ⟨_, h1⟩ | ⟨_, h1, _⟩
    · exact (hr h1).elim
    · exact (hno h1).elim
  | check k => rfl
  | row l k => rfl
  | stat l k c => rfl
  | value l k c => rfl
  | fetch l k c v t todo got => rfl

/-! ## Examples -/

/-- `n` looks at the buffers. -/
def looks (n : Nat) : List ShowEvent := List.replicate n .look

/-- Two workers, with `n` looks between any two of their steps. -/
def watched (n : Nat) : List ShowEvent := (List.replicate 8 ([ShowEvent.run (.work 0)] ++ looks n ++ [.run (.work 1)] ++ looks n)).flatten

/-- The positive numbers. -/
def isPos (v : Nat) : Bool := decide (0 < v)

/-- Memory in pages of 4096 bytes. -/
def pages (n : Nat) : Nat := (n + 4095) / 4096 * 4096

instance : DecidableEq (Option (Except (ParErr String) (List Nat)) × Option (Display Nat)) := inferInstance

/-- Two runs with `leave` and without: the same results, and the last status of each of them was shown. -/
example : (parallelShown countCore byteCodec id 0 isPos true 4 2 true [[2, 3]] [] [("log", ['i'])] (watched 5 ++ looks 40) ⟨[], 0, 0⟩) =
      (⟨[], 4, 0⟩, some (.ok [4, 6]), some ⟨.over, [(0, some 0), (1, some 1)], [(0, ⟨1, some 2, [("log", some 0)]⟩), (1, ⟨2, some 4, [("log", some 0)]⟩)], 2, []⟩) ∧
    (parallelShown countCore byteCodec id 0 isPos true 4 2 false [[2, 3]] [] [("log", ['i'])] (watched 5 ++ looks 40) ⟨[], 0, 0⟩) =
      (⟨[], 4, 0⟩, some (.ok [4, 6]), some ⟨.over, [(0, none), (1, none)], [], 2, [⟨1, some 2, [("log", some 0)]⟩, ⟨2, some 4, [("log", some 0)]⟩]⟩) := by
  decide +kernel

/-- The hypotheses of `C83_ends_partial` and its conclusion, for two runs and one buffer. -/
example : ∃ t, parallelShown countCore byteCodec id 0 isPos true 4 2 true [[2, 3]] [] [("log", ['i'])] (watched 0 ++ looks 42) ⟨[], 0, 0⟩ = (⟨[], 4, 0⟩, some (.ok [4, 6]), t) :=
  C83_ends_partial countCore_local (fun _ => le_rfl) (rows := [([2], []), ([3], [])]) rfl rfl (by decide +kernel) (by decide)

/-- The buffer of the apps has no reserved name (`app/infinite_memory/sa.py:245`, `app/finite_width/sa.py:277`). -/
example : ¬ Reserved ["log2_total_cost"] ∧ Reserved ["log2_total_cost", "total"] := by decide

/-- C83, the negation: with pages, no schedule makes a call with a display return a result; without the display it does. -/
theorem C83_violated : (∀ (sched : List ShowEvent) (rs : List Nat),
      (parallelShown countCore byteCodec pages 0 isPos true 4 2 false [[2, 3]] [] [] sched ⟨[], 0, 0⟩).2.1 ≠ some (.ok rs)) ∧
    (parallelShown countCore byteCodec pages 0 isPos true 4 1 false [[2, 3]] [] [] (watched 0) ⟨[], 0, 0⟩).2.1 = some (.ok [4, 6]) := by
  refine ⟨fun sched rs => C83_hangs countCore_local (by decide) (fun n => ?_) (rows := [([2], []), ([3], [])]) rfl (by decide) (by decide) rs, by decide +kernel⟩
  unfold pages
  omega

/-- C83, a failing check: of two runs, the first one ends before it reports a positive status. The thread fails at its last assertion, while the call returns its results; with a
buffer named `completed` it fails as soon as it has something to show. -/
theorem C83_violated_checks :
    parallelShown countCore byteCodec id 0 isPos true 4 2 false [[1, 2]] [] [] (watched 3 ++ looks 40) ⟨[], 0, 0⟩ =
      (⟨[], 3, 0⟩, some (.ok [2, 4]), some ⟨.failed .assertionError, [(1, none)], [], 1, [⟨2, some 2, []⟩]⟩) ∧
    parallelShown countCore byteCodec id 0 isPos true 4 2 false [[2, 3]] [] [("completed", ['i'])] (watched 3 ++ looks 40) ⟨[], 0, 0⟩ =
      (⟨[], 4, 0⟩, some (.ok [4, 6]), some ⟨.failed .typeError, [(0, some 0)], [(0, ⟨1, none, [("completed", none)]⟩)], 1, []⟩) := by
  decide +kernel

/-- An app in short: two paths, the second one empty; the optimizer counts its updates. -/
def countAnneal : Anneal Nat Nat Nat Nat where
  paths _ := some (.ok [[(0, 1)], []])
  make seed _ := some (.ok seed)
  update _ _ o := some (.ok (o + 1))
  log2 o := o
  finish o := some (.ok o)
  trivial := 0
  total l := .ok l.sum

/-- Two runs of three steps: each of them has got to 2 of 3 in the end. (The status is given in percent.) -/
example : (parallelShown (annealCore countAnneal [1, 2, 3] true none (fun n k => 100 * n / k)) byteCodec id 0 isPos true 4 2 true [] [("seed", [10, 20])] [("log2_total_cost", ['f'])]
      (watched 3 ++ watched 3 ++ looks 40) ⟨[], 0, 0⟩).2 =
    (some (.ok [13, 23]), some ⟨.over, [(0, some 0), (1, some 1)], [(0, ⟨1, some 66, [("log2_total_cost", some 13)]⟩), (1, ⟨2, some 66, [("log2_total_cost", some 23)]⟩)], 2, []⟩) ∧
    2 ≤ stepsAt [1, 2, 3] none ∧ ∀ seed ps, countAnneal.paths seed = some (.ok ps) → ∃ q ∈ ps, q ≠ [] := by
  refine ⟨?_, by decide, fun seed ps h => ?_⟩
  · decide +kernel
  · cases h
    exact ⟨[(0, 1)], by simp, by simp⟩

/-- The two runs of the failing check after the time limit: no failure. -/
example : parallelShown countCore byteCodec id 0 isPos true 4 2 false [[1, 2]] [] [] (watched 1 ++ List.replicate 4 (.run .tick) ++ looks 40) ⟨[], 0, 0⟩ =
    (⟨[], 3, 0⟩, some (.ok [2, 4]), some ⟨.over, [(1, none)], [], 1, [⟨2, some 2, []⟩]⟩) := by
  decide +kernel

/-- An exception, and the display looking on. -/
example : (parallelShown countCore byteCodec id 0 isPos true 4 2 false [[2, 13]] [] [] (watched 3 ++ looks 400) ⟨[], 0, 0⟩).2.1 = some (.error (.task "unlucky")) ∧
    ((parallelShown countCore byteCodec id 0 isPos true 4 2 false [[2, 13]] [] [] (watched 3 ++ looks 400) ⟨[], 0, 0⟩).2.2.map fun d => d.st.ended) = some false := by
  decide +kernel

end TNCO
