import Verif.Lemmas.ParallelProgress
import Verif.Props.Buffer

/-! # C41 and C42: parallel runs -/

namespace TNCO
variable {A V σ ρ ε : Type}

theorem zipRows_getElem? : ∀ (xss : List (List A)), xss ≠ [] → ∀ i : Nat, (zipRows xss)[i]? = xss.mapM fun xs => xs[i]?
  | [], h, _ => absurd rfl h
  | [xs], _, i => by
    rw [zipRows, List.mapM_cons, List.mapM_nil, List.getElem?_map]
    cases xs[i]? <;> rfl
  | xs :: ys :: rest, _, i => by
    rw [zipRows, List.mapM_cons, List.getElem?_zipWith, zipRows_getElem? (ys :: rest) (by simp) i]
    cases xs[i]? with
    | none => rfl
    | some x =>
      cases (ys :: rest).mapM fun xs => xs[i]? <;> rfl

/-- The keyword arguments of call `i`. -/
theorem zip_names (kwargs : List (String × List A)) (i : Nat) :
    ((kwargs.map Prod.snd).mapM fun xs => xs[i]?).map (fun vs => (kwargs.map Prod.fst).zip vs) = kwargs.mapM fun kv => kv.2[i]?.map fun v => (kv.1, v) := by
  induction kwargs with
  | nil => rfl
  | cons kv kwargs ih =>
    rw [List.map_cons, List.map_cons, List.mapM_cons, List.mapM_cons, ← ih]
    cases kv.2[i]? with
    | none => rfl
    | some v =>
      cases (kwargs.map Prod.snd).mapM fun xs => xs[i]? <;> rfl

/-- C41, arguments: the core is called with the `i`-th elements of all the arguments, as long as all of them have one. -/
theorem C41_args {args : List (List A)} {kwargs : List (String × List A)} {rows : List (List A × List (String × A))}
    (h : parallelArgs args kwargs = .ok rows) (i : Nat) :
    rows[i]? = (args.mapM fun xs => xs[i]?).bind fun xs => (kwargs.mapM fun kv => kv.2[i]?.map fun v => (kv.1, v)).map fun d => (xs, d) := by
  unfold parallelArgs at h
  split at h
  · cases h
  · next h0 =>
    split at h
    · next hk =>
      subst hk
      cases h
      rw [List.getElem?_map, zipRows_getElem? args (by simpa using h0)]
      cases args.mapM fun xs => xs[i]? <;> rfl
    · next hk =>
      dsimp only at h
      have hz := zipRows_getElem? (kwargs.map Prod.snd) (by simpa using hk) i
      rw [← zip_names]
      split at h
      · next ha =>
        subst ha
        cases h
        rw [List.getElem?_map, List.getElem?_map, hz]
        cases (kwargs.map Prod.snd).mapM fun xs => xs[i]? <;> rfl
      · next ha =>
        cases h
        rw [List.zip, List.getElem?_zipWith, List.getElem?_map, hz, zipRows_getElem? args ha]
        cases args.mapM fun xs => xs[i]? with
        | none => rfl
        | some xs => cases (kwargs.map Prod.snd).mapM fun xs => xs[i]? <;> rfl

/-! ## Creating the buffers -/

theorem makeBuffers_ok {cd : Codec V} {alloc : Nat → Nat} {zero : V} {n : Nat} :
    ∀ {ds : List (List Char)} {sys sys' : Sys} {ids : List Nat}, makeBuffers cd alloc zero n ds sys = (sys', .ok ids) →
      ids = List.range' sys.fresh ds.length ∧ sys' = ⟨sys.linked ++ ids, sys.fresh + ds.length, sys.timers⟩
  | [], sys, sys', ids, h => by cases h; simp
  | d :: ds, sys, sys', ids, h => by
    rw [makeBuffers] at h
    split at h
    · cases h
    · split at h
      · cases h
      · next s1 ids' h1 =>
        cases h
        obtain ⟨rfl, rfl⟩ := makeBuffers_ok h1
        refine ⟨by simp [Sys.link, List.range'_succ], ?_⟩
        simp only [Sys.link, List.append_assoc, List.length_cons, Sys.mk.injEq, and_true]
        exact ⟨rfl, by omega⟩

theorem makeBuffers_error {cd : Codec V} {alloc : Nat → Nat} {zero : V} {n : Nat} {e : PyErr} :
    ∀ {ds : List (List Char)} {sys sys' : Sys}, makeBuffers cd alloc zero n ds sys = (sys', .error e) →
      ∃ k ≤ ds.length, sys' = ⟨sys.linked ++ List.range' sys.fresh k, sys.fresh + k, sys.timers⟩
  | [], sys, sys', h => by cases h
  | d :: ds, sys, sys', h => by
    rw [makeBuffers] at h
    split at h
    · split at h
      · cases h; exact ⟨1, by simp, by simp [Sys.link]⟩
      · cases h; exact ⟨0, by simp, by simp⟩
    · split at h
      · next s1 e' h1 =>
        cases h
        obtain ⟨k, hk, rfl⟩ := makeBuffers_error h1
        refine ⟨k + 1, by simpa using hk, ?_⟩
        simp only [Sys.link, List.append_assoc, Sys.mk.injEq, and_true, List.range'_succ]
        exact ⟨rfl, by omega⟩
      · cases h

theorem dupdate_append {κ ν : Type} [DecidableEq κ] : ∀ (l D : List (κ × ν)), ((D ++ l).map Prod.fst).Nodup → dupdate D l = D ++ l
  | [], D, _ => by simp [dupdate]
  | e :: l, D, h => by
    have hn : e.1 ∉ D.map Prod.fst := by
      rw [List.map_append, List.nodup_append] at h
      exact fun hm => h.2.2 _ hm e.1 (by simp) rfl
    have : dset D e.1 e.2 = D ++ [e] := by rw [dset, if_neg hn]
    have ih := dupdate_append l (D ++ [e]) (by rw [List.append_assoc]; exact h)
    rw [dupdate] at ih ⊢
    rw [List.foldl_cons, this, ih, List.append_assoc]
    rfl

theorem dupdate_keys {κ ν : Type} [DecidableEq κ] (l : List (κ × ν)) (k : κ) : k ∈ (dupdate [] l).map Prod.fst ↔ k ∈ l.map Prod.fst := by
  rw [← not_iff_not, ← dget_none, dget_dupdate, Option.or_eq_none_iff, dget_none, List.map_reverse, List.mem_reverse, dget_none]
  simp

/-! ## The result of `parallel` -/

/-- How a call that gets past the checks goes on. -/
theorem parallel_task {core : Core A V σ ρ ε} {cd : Codec V} {alloc : Nat → Nat} {zero : V} {joblib : Bool} {nJobs : Int} {args : List (List A)}
    {kwargs : List (String × List A)} {bufs : List (String × List Char)} {sched : List Event} {sys sys' : Sys} {x : Except (ParErr ε) (List ρ)}
    (h : parallel core cd alloc zero joblib nJobs args kwargs bufs sched sys = (sys', some x)) (hx : ∀ e, x ≠ .error (.lib e)) :
    ∃ rows sys1 ids names seq, parallelArgs args kwargs = .ok rows ∧
      makeBuffers cd alloc zero rows.length ([['f'], ['b'], ['?']] ++ bufs.map Prod.snd) sys = (sys1, .ok ids) ∧
      names = (dupdate [] ((bufs.map Prod.fst).zip (ids.drop 3))).map Prod.fst ∧
      ((∃ e, collect (runSched core seq rows sched (World.init zero rows.length names)) = some (.error e) ∧ x = .error (.task e) ∧
          sys' = ({ sys1 with timers := sys1.timers + 1 } : Sys).abandon (runSched core seq rows sched (World.init zero rows.length names)).timer) ∨
        ∃ rs, collect (runSched core seq rows sched (World.init zero rows.length names)) = some (.ok rs) ∧ x = .ok rs ∧
          sys' = ({ sys1 with timers := sys1.timers + 1 } : Sys).release
            (ids.take 3 ++ (dupdate [] ((bufs.map Prod.fst).zip (ids.drop 3))).map Prod.snd)) := by
  unfold parallel at h
  split at h
  · cases h; exact (hx _ rfl).elim
  · next rows hrows =>
    dsimp only at h
    split at h
    · cases h; exact (hx _ rfl).elim
    · next sys1 ids hb =>
      split at h
      · cases h; exact (hx _ rfl).elim
      · split at h
        · cases h; exact (hx _ rfl).elim
        · refine ⟨rows, sys1, ids, _, !(decide (nJobs ≠ 1) && joblib), hrows, hb, rfl, ?_⟩
          split at h
          · cases h
          · next e he => cases h; exact .inl ⟨e, he, rfl, rfl⟩
          · next rs hrs => cases h; exact .inr ⟨rs, hrs, rfl, rfl⟩

/-- What worker `i` finds in the memory when it starts. -/
def startMem (zero : V) (n : Nat) (names : List String) : Mem V := (World.init zero n names : World Unit V Unit Unit Unit).mem

theorem result_alone {core : Core A V σ ρ ε} (hl : core.Local) {seq : Bool} {rows : List (List A × List (String × A))} {zero : V} {names : List String}
    {sched : List Event} {i : Nat} {t : Task σ ρ ε} {x : Except ε ρ}
    (ht : (runSched core seq rows sched (World.init zero rows.length names)).tasks[i]? = some t) (hx : t.result = some x) :
    ∃ (hi : i < rows.length) (sig : Nat → Bool) (fuel : Nat), StaysSet sig ∧ (.tick ∉ sched → ∀ k, sig k = false) ∧
      alone core i sig fuel (core.start rows[i].1 rows[i].2 i) (startMem zero rows.length names) = some x := by
  have hinv := runSched_inv (core := core) (seq := seq) sched (init_inv rows seq zero names)
  have hi : i < rows.length := by rw [← hinv.tasks]; exact (List.getElem?_eq_some_iff.1 ht).1
  obtain ⟨sig, fuel, h1, h2, h3⟩ := pending_alone hl seq rows (row := rows[i]) (List.getElem?_eq_getElem hi) sched (World.init zero rows.length names)
    (startMem zero rows.length names) false (by simp [World.init, hi]) rfl (by simp [World.init, hi]) (by simp [startMem, World.init, hi]) t ht hx
  exact ⟨hi, sig, fuel, h1, h2, h3⟩

/-- C41, results: if `Parallel` returns, it returns one result for each call, in the order of the arguments. The `i`-th result is that of the `i`-th
call running alone, with a stop flag that at some moment may be set by the timer, and never is if the time is not up during the run. This holds for
every schedule, every number of jobs, and with or without `joblib`. -/
theorem C41_results {core : Core A V σ ρ ε} (hl : core.Local) {cd : Codec V} {alloc : Nat → Nat} {zero : V} {joblib : Bool} {nJobs : Int}
    {args : List (List A)} {kwargs : List (String × List A)} {bufs : List (String × List Char)} {sched : List Event} {sys sys' : Sys} {rs : List ρ}
    (h : parallel core cd alloc zero joblib nJobs args kwargs bufs sched sys = (sys', some (.ok rs))) :
    ∃ rows names, parallelArgs args kwargs = .ok rows ∧ rs.length = rows.length ∧ (∀ b, b ∈ names ↔ b ∈ bufs.map Prod.fst) ∧
      ∀ i (hi : i < rows.length) (hr : i < rs.length), ∃ sig fuel, StaysSet sig ∧ (.tick ∉ sched → ∀ k, sig k = false) ∧
        alone core i sig fuel (core.start rows[i].1 rows[i].2 i) (startMem zero rows.length names) = some (.ok rs[i]) := by
  obtain ⟨rows, sys1, ids, names, seq, hrows, hb, hn, hres⟩ := parallel_task h (fun e h => by cases h)
  rcases hres with ⟨e, _, hx, _⟩ | ⟨rs', hc, hx, _⟩
  · cases hx
  · cases hx
    obtain ⟨_, ht⟩ := collect_ok hc
    have hinv := runSched_inv (core := core) (seq := seq) sched (init_inv rows seq zero names)
    refine ⟨rows, names, hrows, by rw [← hinv.tasks, ht, List.length_map], fun b => ?_, fun i hi hr => ?_⟩
    · have hlen := congrArg List.length (makeBuffers_ok hb).1
      rw [hn, dupdate_keys, List.map_fst_zip]
      simp at hlen ⊢
      omega
    · obtain ⟨_, sig, fuel, h⟩ := result_alone hl (i := i) (t := .finished rs[i]) (x := .ok rs[i]) (by rw [ht, List.getElem?_map, List.getElem?_eq_getElem hr]; rfl) rfl
      exact ⟨sig, fuel, h⟩

/-- C41, errors: an exception of the core that `Parallel` passes on is that of one of the calls, running alone. -/
theorem C41_errors {core : Core A V σ ρ ε} (hl : core.Local) {cd : Codec V} {alloc : Nat → Nat} {zero : V} {joblib : Bool} {nJobs : Int}
    {args : List (List A)} {kwargs : List (String × List A)} {bufs : List (String × List Char)} {sched : List Event} {sys sys' : Sys} {e : ε}
    (h : parallel core cd alloc zero joblib nJobs args kwargs bufs sched sys = (sys', some (.error (.task e)))) :
    ∃ rows names i, ∃ hi : i < rows.length, parallelArgs args kwargs = .ok rows ∧
      ∃ sig fuel, StaysSet sig ∧ (.tick ∉ sched → ∀ k, sig k = false) ∧
        alone core i sig fuel (core.start rows[i].1 rows[i].2 i) (startMem zero rows.length names) = some (.error e) := by
  obtain ⟨rows, sys1, ids, names, seq, hrows, hb, hn, hres⟩ := parallel_task h (fun e h => by cases h)
  rcases hres with ⟨e', hc, hx, _⟩ | ⟨rs', _, hx, _⟩
  · cases hx
    have hinv := runSched_inv (core := core) (seq := seq) sched (init_inv rows seq zero names)
    have hf : (runSched core seq rows sched (World.init zero rows.length names)).failed = some e := by
      unfold collect at hc
      split at hc
      · next e' he => rw [he]; cases hc; rfl
      · rw [Option.map_eq_some_iff] at hc
        obtain ⟨_, _, h⟩ := hc
        cases h
    obtain ⟨i, hi⟩ := hinv.failed e hf
    obtain ⟨hi', sig, fuel, h⟩ := result_alone hl (i := i) (t := .raised e) (x := .error e) hi rfl
    exact ⟨rows, names, i, hi', hrows, sig, fuel, h⟩
  · cases hx

theorem names_eq {cd : Codec V} {alloc : Nat → Nat} {zero : V} {n : Nat} {bufs : List (String × List Char)} {sys sys1 : Sys} {ids : List Nat}
    (hb : makeBuffers cd alloc zero n ([['f'], ['b'], ['?']] ++ bufs.map Prod.snd) sys = (sys1, .ok ids)) :
    (dupdate [] ((bufs.map Prod.fst).zip (ids.drop 3))).map Prod.fst = (dupdate [] (bufs.map fun b => (b.1, ()))).map Prod.fst := by
  have hlen := congrArg List.length (makeBuffers_ok hb).1
  have key : ∀ (l : List String) (js : List Nat), l.length = js.length → ∀ (D : List (String × Nat)) (D' : List (String × Unit)), D.map Prod.fst = D'.map Prod.fst →
      (dupdate D (l.zip js)).map Prod.fst = (dupdate D' (l.map fun b => (b, ()))).map Prod.fst := by
    intro l
    induction l with
    | nil => intro js _ D D' h; exact h
    | cons a l ih =>
      intro js hl D D' h
      cases js with
      | nil => simp at hl
      | cons j js =>
        simp only [dupdate, List.zip_cons_cons, List.foldl_cons, List.map_cons] at ih ⊢
        exact ih js (by simpa using hl) _ _ (by rw [dset_keys, dset_keys, h])
  have := key (bufs.map Prod.fst) (ids.drop 3) (by simp at hlen ⊢; omega) [] [] rfl
  rw [this, List.map_map]
  rfl

/-- C41, determinism: if the time is not up during the runs, two calls with the same arguments return the same results, whatever the schedules and the numbers
of jobs. -/
theorem C41_deterministic {core : Core A V σ ρ ε} (hl : core.Local) {cd cd' : Codec V} {alloc alloc' : Nat → Nat} {zero : V} {joblib joblib' : Bool} {nJobs nJobs' : Int}
    {args : List (List A)} {kwargs : List (String × List A)} {bufs : List (String × List Char)} {sched sched' : List Event} {sys sys' sys1 sys1' : Sys} {rs rs' : List ρ}
    (h : parallel core cd alloc zero joblib nJobs args kwargs bufs sched sys = (sys1, some (.ok rs)))
    (h' : parallel core cd' alloc' zero joblib' nJobs' args kwargs bufs sched' sys' = (sys1', some (.ok rs')))
    (ht : .tick ∉ sched) (ht' : .tick ∉ sched') : rs = rs' := by
  obtain ⟨rows, s1, ids, names, seq, hrows, hb, hn, hres⟩ := parallel_task h (fun e h => by cases h)
  obtain ⟨rows', s1', ids', names', seq', hrows', hb', hn', hres'⟩ := parallel_task h' (fun e h => by cases h)
  rw [hrows] at hrows'; cases hrows'
  rw [names_eq hb] at hn
  rw [names_eq hb'] at hn'
  rw [← hn] at hn'
  subst hn'
  rcases hres with ⟨_, _, hx, _⟩ | ⟨r1, hc, hx, _⟩
  · cases hx
  rcases hres' with ⟨_, _, hx', _⟩ | ⟨r2, hc', hx', _⟩
  · cases hx'
  cases hx; cases hx'
  obtain ⟨_, e1⟩ := collect_ok hc
  obtain ⟨_, e2⟩ := collect_ok hc'
  have l1 : rs.length = rows.length := by
    rw [← (runSched_inv (core := core) (seq := seq) sched (init_inv rows seq zero names')).tasks, e1, List.length_map]
  have l2 : rs'.length = rows.length := by
    rw [← (runSched_inv (core := core) (seq := seq') sched' (init_inv rows seq' zero names')).tasks, e2, List.length_map]
  refine List.ext_getElem (l1.trans l2.symm) fun i h1 h2 => ?_
  obtain ⟨_, sg, f, _, hs, ha⟩ := result_alone hl (i := i) (t := .finished rs[i]) (x := .ok rs[i]) (by rw [e1, List.getElem?_map, List.getElem?_eq_getElem h1]; rfl) rfl
  obtain ⟨_, sg', f', _, hs', ha'⟩ := result_alone hl (i := i) (t := .finished rs'[i]) (x := .ok rs'[i]) (by rw [e2, List.getElem?_map, List.getElem?_eq_getElem h2]; rfl) rfl
  obtain rfl : sg = fun _ => false := funext (hs ht)
  obtain rfl : sg' = fun _ => false := funext (hs' ht')
  exact Except.ok.inj (alone_unique ha ha')

/-- C41, one call each: when the workers have finished, the core has been called exactly once with each row of arguments and its number. Without `joblib` the
calls are made in the order of the arguments. -/
theorem C41_once {core : Core A V σ ρ ε} {seq : Bool} {rows : List (List A × List (String × A))} {zero : V} {names : List String} {sched : List Event} {rs : List ρ}
    (h : collect (runSched core seq rows sched (World.init zero rows.length names)) = some (.ok rs)) :
    (runSched core seq rows sched (World.init zero rows.length names)).calls.Perm (rows.zipIdx.map fun x => (x.2, x.1)) ∧
      (seq = true → (runSched core seq rows sched (World.init zero rows.length names)).calls = rows.zipIdx.map fun x => (x.2, x.1)) := by
  have hinv := runSched_inv (core := core) (seq := seq) sched (init_inv rows seq zero names)
  obtain ⟨_, ht⟩ := collect_ok h
  generalize hw : runSched core seq rows sched (World.init zero rows.length names) = w at hinv ht ⊢
  have hmem : ∀ c, c ∈ w.calls ↔ c ∈ rows.zipIdx.map fun x => (x.2, x.1) := by
    intro c
    rw [hinv.calls, List.mem_map]
    constructor
    · rintro ⟨row, h1, h2, -⟩
      exact ⟨(row, c.1), List.mem_zipIdx_iff_getElem?.2 h1, by rw [← h2]⟩
    · rintro ⟨x, hx, rfl⟩
      refine ⟨x.1, List.mem_zipIdx_iff_getElem?.1 hx, rfl, ?_⟩
      rw [ht, List.getElem?_map]
      cases rs[x.2]? <;> simp
  have hfst : (rows.zipIdx.map fun x => (x.2, x.1)).map Prod.fst = List.range rows.length := by
    rw [List.map_map]
    exact List.zipIdx_map_snd 0 rows ▸ (by rw [List.range_eq_range'])
  have hp : w.calls.Perm (rows.zipIdx.map fun x => (x.2, x.1)) :=
    (List.perm_ext_iff_of_nodup hinv.nodup.of_map (by
      have : ((rows.zipIdx.map fun x => (x.2, x.1)).map Prod.fst).Nodup := by rw [hfst]; exact List.nodup_range
      exact this.of_map)).2 hmem
  refine ⟨hp, fun hs => ?_⟩
  have ho := hinv.order hs
  have hl : w.calls.length = rows.length := by rw [hp.length_eq, List.length_map, List.length_zipIdx]
  refine List.ext_getElem (by rw [hl, List.length_map, List.length_zipIdx]) fun i h1 h2 => ?_
  have hi : w.calls[i].1 = i := by
    have : (w.calls.map Prod.fst)[i]'(by rw [List.length_map]; exact h1) = i := by simp only [ho, List.getElem_range]
    rwa [List.getElem_map] at this
  obtain ⟨row, hr, he, _⟩ := (hinv.calls _).1 (List.getElem_mem h1)
  rw [hi] at hr
  rw [List.getElem_map, List.getElem_zipIdx]
  obtain ⟨hlt, rfl⟩ := List.getElem?_eq_some_iff.1 hr
  refine Prod.ext ?_ he
  rw [hi]; simp

/-- C41, termination: if each call takes at most `N` steps on its own, whatever the stop flag, the workers end after enough rounds in which each of them gets a turn. -/
theorem C41_ends {core : Core A V σ ρ ε} (hl : core.Local) {seq : Bool} {rows : List (List A × List (String × A))} {zero : V} {names : List String} {N : Nat}
    (hN : ∀ i (hi : i < rows.length), Ends core i N (core.start rows[i].1 rows[i].2 i) (startMem zero rows.length names))
    {rounds : List (List Event)} (hr : ∀ r ∈ rounds, ∀ i < rows.length, .work i ∈ r) (hlen : rows.length * (N + 2) ≤ rounds.length) :
    collect (runSched core seq rows rounds.flatten (World.init zero rows.length names)) ≠ none := by
  refine rounds_end hl rounds (N := N) (c := fun _ => N + 2) (init_inv rows seq zero names) (by simp [World.init]) (fun i hi => ?_) hr (by simpa using hlen)
  unfold Budget
  rw [show (World.init zero rows.length names : World A V σ ρ ε).tasks[i]? = some .pending by simp [World.init, hi]]
  refine ⟨rfl, fun row h => ?_⟩
  obtain ⟨h1, rfl⟩ := List.getElem?_eq_some_iff.1 h
  exact hN i hi

/-- A core that heeds the flag: a step with the stop flag set is the last one. -/
def Core.Heeds (core : Core A V σ ρ ε) : Prop := ∀ i s m, m.stop[i]? = some true → ∀ s' m', core.step i s m ≠ .next s' m'

/-- C41, timeouts: a stop signal can only shorten the run of a core that heeds it. -/
theorem C41_shorter {core : Core A V σ ρ ε} (hl : core.Local) (hh : core.Heeds) {i : Nat} :
    ∀ {fuel : Nat} {s : σ} {m : Mem V} {x : Except ε ρ}, i < m.stop.length → alone core i (fun _ => false) fuel s m = some x →
      ∀ sig, ∃ y, alone core i sig fuel s m = some y
  | 0, _, _, _, _, h, _ => by cases h
  | fuel + 1, s, m, x, hi, h, sig => by
    rw [alone]
    cases hs : sig 0 with
    | true =>
      cases hstep : core.step i s { m with stop := m.stop.set i true } with
      | next s' m' => exact (hh i s _ (by simp [hi]) s' m' hstep).elim
      | ret r m' => exact ⟨_, rfl⟩
      | raise e m' => exact ⟨_, rfl⟩
    | false =>
      rw [alone] at h
      have hst := hl.stop (i := i) (s := s) (m := { m with stop := m.stop.set i false })
      cases hstep : core.step i s { m with stop := m.stop.set i false } with
      | next s' m' =>
        rw [hstep] at h hst
        dsimp only [CoreStep.mem] at h hst
        exact C41_shorter hl hh (by rw [hst, List.length_set]; exact hi) h _
      | ret r m' => exact ⟨_, rfl⟩
      | raise e m' => exact ⟨_, rfl⟩

/-- C41, rejected: no arguments at all, or arguments of which one is empty, are `ValueError`s. In the first case nothing has been created. -/
theorem C41_rejects (core : Core A V σ ρ ε) (cd : Codec V) (alloc : Nat → Nat) (zero : V) (joblib : Bool) (nJobs : Int) (args : List (List A))
    (kwargs : List (String × List A)) (bufs : List (String × List Char)) (sched : List Event) (sys : Sys)
    (h : (args = [] ∧ kwargs = []) ∨ [] ∈ args ++ kwargs.map Prod.snd) :
    parallel core cd alloc zero joblib nJobs args kwargs bufs sched sys = (sys, some (.error (.lib .valueError))) := by
  by_cases h0 : args = [] ∧ kwargs = []
  · obtain ⟨rfl, rfl⟩ := h0
    rfl
  · have hmem := h.resolve_left h0
    cases hp : parallelArgs args kwargs with
    | error e => 
      unfold parallelArgs at hp
      rw [if_neg h0] at hp
      split at hp
      · cases hp
      · dsimp only at hp; split at hp <;> cases hp
    | ok rows =>
      have hnil : rows = [] := by
        have h0 := C41_args hp 0
        have none_mapM : ∀ {α β : Type} (f : α → Option β) (l : List α), (∃ a ∈ l, f a = none) → l.mapM f = none := by
          intro α β f l
          induction l with
          | nil => rintro ⟨a, ha, _⟩; cases ha
          | cons b l ih =>
            rintro ⟨a, ha, hf⟩
            rw [List.mapM_cons]
            rcases List.mem_cons.1 ha with rfl | ha
            · rw [hf]; rfl
            · rw [ih ⟨a, ha, hf⟩]; cases f b <;> rfl
        have : rows[0]? = none := by
          rw [h0]
          rcases List.mem_append.1 hmem with hm | hm
          · rw [none_mapM _ args ⟨[], hm, rfl⟩]; rfl
          · obtain ⟨kv, hkv, he⟩ := List.mem_map.1 hm
            rw [none_mapM _ kwargs ⟨kv, hkv, by rw [he]; rfl⟩]
            cases args.mapM fun xs => xs[0]? <;> rfl
        simpa using this
      subst hnil
      unfold parallel
      rw [hp]
      rfl

/-! ## Resources -/

/-- C42, partial: when `Parallel` *returns*, every segment that it created is unlinked and its timer is cancelled, provided that the names of the buffers are
different. What is missing for C42 is the case of an exception, see `C42_violated`. -/
theorem C42_return_partial {core : Core A V σ ρ ε} {cd : Codec V} {alloc : Nat → Nat} {zero : V} {joblib : Bool} {nJobs : Int}
    {args : List (List A)} {kwargs : List (String × List A)} {bufs : List (String × List Char)} {sched : List Event} {sys sys' : Sys} {rs : List ρ}
    (hfresh : ∀ s ∈ sys.linked, s < sys.fresh) (hnames : (bufs.map Prod.fst).Nodup)
    (h : parallel core cd alloc zero joblib nJobs args kwargs bufs sched sys = (sys', some (.ok rs))) :
    sys'.linked = sys.linked ∧ sys'.timers = sys.timers := by
  obtain ⟨rows, sys1, ids, names, seq, hrows, hb, hn, hres⟩ := parallel_task h (fun e h => by cases h)
  rcases hres with ⟨_, _, hx, _⟩ | ⟨_, _, _, rfl⟩
  · cases hx
  · obtain ⟨hids, rfl⟩ := makeBuffers_ok hb
    have hlen := congrArg List.length hids
    have hz : (bufs.map Prod.fst).length = (ids.drop 3).length := by simp at hlen ⊢; omega
    have hall : ids.take 3 ++ (dupdate [] ((bufs.map Prod.fst).zip (ids.drop 3))).map Prod.snd = ids := by
      rw [dupdate_append _ _ (by rw [List.nil_append, List.map_fst_zip (by omega)]; exact hnames), List.nil_append, List.map_snd_zip (by omega), List.take_append_drop]
    refine ⟨?_, by simp [Sys.release]⟩
    dsimp only [Sys.release]
    rw [hall, List.filter_append]
    have h1 : sys.linked.filter (fun s => !ids.contains s) = sys.linked := by
      rw [List.filter_eq_self]
      intro s hs
      have := hfresh s hs
      simp only [Bool.not_eq_eq_eq_not, Bool.not_true, List.contains_eq_mem, decide_eq_false_iff_not, hids, List.mem_range'_1]
      omega
    have h2 : ids.filter (fun s => !ids.contains s) = [] := by
      rw [List.filter_eq_nil_iff]
      intro s hs
      simp [hs]
    rw [h1, h2, List.append_nil]

/-- The timer waits as long as the time is not up. -/
theorem timer_armed {core : Core A V σ ρ ε} {seq : Bool} {rows : List (List A × List (String × A))} :
    ∀ (es : List Event) {w : World A V σ ρ ε}, .tick ∉ es → (runSched core seq rows es w).timer = w.timer
  | [], _, _ => rfl
  | .tick :: _, _, h => absurd List.mem_cons_self h
  | .work i :: es, w, h => by
    rw [runSched, timer_armed es fun h' => h (List.mem_cons_of_mem _ h')]
    split
    · unfold workStep
      split
      · rfl
      · split <;> rfl
      · rfl
      · rfl
    · rfl

/-- C42 is violated by every exception of the core: all the segments stay linked, and the timer goes on waiting if the time is not up. (Since its thread is not
a daemon, without a timeout the interpreter then cannot exit for `TIMEOUT_MAX` seconds.) -/
theorem C42_raise_leaks {core : Core A V σ ρ ε} {cd : Codec V} {alloc : Nat → Nat} {zero : V} {joblib : Bool} {nJobs : Int}
    {args : List (List A)} {kwargs : List (String × List A)} {bufs : List (String × List Char)} {sched : List Event} {sys sys' : Sys} {e : ε}
    (h : parallel core cd alloc zero joblib nJobs args kwargs bufs sched sys = (sys', some (.error (.task e)))) :
    sys'.linked = sys.linked ++ List.range' sys.fresh (3 + bufs.length) ∧ (.tick ∉ sched → sys'.timers = sys.timers + 1) := by
  obtain ⟨rows, sys1, ids, names, seq, hrows, hb, hn, hres⟩ := parallel_task h (fun e h => by cases h)
  rcases hres with ⟨_, _, _, rfl⟩ | ⟨_, _, hx, _⟩
  · obtain ⟨rfl, rfl⟩ := makeBuffers_ok hb
    refine ⟨?_, fun ht => ?_⟩
    · unfold Sys.abandon
      have : ([['f'], ['b'], ['?']] ++ bufs.map Prod.snd).length = 3 + bufs.length := by simp; omega
      split <;> simp only [this]
    · rw [timer_armed sched ht]
      rfl
  · cases hx

/-! ## A concrete core

It counts down from its argument, reports in `status` and stops when told to. It raises if the argument is 13. -/

/-- The example of the documentation in short (parallel.py:147-170). -/
def countCore : Core Nat Nat (Nat × Nat) Nat String where
  start xs _ _ := (xs.headD 0, 0)
  step i s m :=
    if s.1 = 13 then .raise "unlucky" m
    else if m.stop[i]? = some true then .ret s.2 m
    else if s.1 = 0 then .ret s.2 m
    else .next (s.1 - 1, s.2 + 2) { m with status := m.status.set i s.2 }

theorem countCore_local : countCore.Local where
  reads {i s m m'} ho hs := by
    obtain ⟨h1, h2⟩ := Prod.ext_iff.1 ho
    dsimp only [own] at h1 h2
    dsimp only [countCore]
    rw [hs]
    split
    · exact ⟨rfl, ho⟩
    · split
      · exact ⟨rfl, ho⟩
      · split
        · exact ⟨rfl, ho⟩
        · refine ⟨rfl, Prod.ext ?_ h2⟩
          dsimp only [own, CoreStep.mem]
          rw [List.getElem?_set, List.getElem?_set, if_pos rfl, if_pos rfl]
          have : i < m.status.length ↔ i < m'.status.length := by
            rw [← List.getElem?_eq_none_iff.not.trans not_le, ← List.getElem?_eq_none_iff.not.trans not_le, h1]
          simp only [this]
  writes {i j s m} hij := by
    dsimp only [countCore]
    split
    · rfl
    · split
      · rfl
      · split
        · rfl
        · refine Prod.ext ?_ rfl
          exact List.getElem?_set_ne (Ne.symm hij)
  stop {i s m} := by
    dsimp only [countCore]
    split
    · rfl
    · split
      · rfl
      · split <;> rfl

theorem countCore_heeds : countCore.Heeds := by
  intro i s m h s' m'
  dsimp only [countCore]
  split
  · simp
  · simp

def sevens : List Event := (List.replicate 7 [Event.work 0, .work 1, .work 2]).flatten

/-- Two runs of three calls, one by one and in parallel, the second with a timeout. -/
example : (parallel countCore byteCodec id 0 true 1 [[1, 2, 3], [0, 0, 0, 0]] [] [("log", ['i'])] (sevens ++ sevens) ⟨[], 0, 0⟩) = (⟨[], 4, 0⟩, some (.ok [2, 4, 6])) ∧
    (parallel countCore byteCodec id 0 true 4 [[1, 2, 3]] [] [] ([.work 1, .work 0, .work 2, .work 2, .tick, .tick, .tick, .tick] ++ sevens) ⟨[], 0, 0⟩) =
      (⟨[], 3, 0⟩, some (.ok [0, 0, 2])) := by
  decide +kernel

/-- C42, the negation: an exception of one call leaves three segments and a timer behind. -/
theorem C42_violated : ∃ (core : Core Nat Nat (Nat × Nat) Nat String) (sched : List Event), core.Local ∧
    parallel core byteCodec id 0 true 4 [[1, 13]] [] [] sched ⟨[], 0, 0⟩ = (⟨[0, 1, 2], 3, 1⟩, some (.error (.task "unlucky"))) :=
  ⟨countCore, [.work 1, .work 1], countCore_local, by decide +kernel⟩

/-- C42, further ways to leave things behind: a wrong buffer type, `n_jobs=0`, a buffer named like a keyword, and, even on success, two buffers of one name. -/
theorem C42_violated_early :
    parallel countCore byteCodec id 0 true 4 [[1]] [] [("log", ['Z'])] sevens ⟨[], 0, 0⟩ = (⟨[0, 1, 2], 3, 0⟩, some (.error (.lib .valueError))) ∧
      parallel countCore byteCodec id 0 true 0 [[1]] [] [] sevens ⟨[], 0, 0⟩ = (⟨[0, 1, 2], 3, 1⟩, some (.error (.lib .valueError))) ∧
      parallel countCore byteCodec id 0 true 4 [[1]] [] [("stop", ['b'])] sevens ⟨[], 0, 0⟩ = (⟨[0, 1, 2, 3], 4, 1⟩, some (.error (.lib .typeError))) ∧
      parallel countCore byteCodec id 0 true 4 [[1]] [] [("log", ['i']), ("log", ['f'])] sevens ⟨[], 0, 0⟩ = (⟨[3], 5, 0⟩, some (.ok [2])) := by
  decide +kernel

end TNCO
