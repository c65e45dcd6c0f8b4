import Verif.Lemmas.DisplayTable
import Mathlib.Data.List.Sort
import Mathlib.Tactic.Linarith

/-! # The progress display at work -/

namespace TNCO
variable {A V σ ρ ε : Type}

/-- All slots of `completed` are set. -/
def AllMarked (p : ShowPar V) (w : World A V σ ρ ε) : Prop := ∀ i : Nat, i < p.compSlots → w.completed[i]? = some true

/-- What is known in row `k` of a full update: `c` was read from `completed[k]`, and in the last update all runs are completed and the rows before are done. -/
structure InRow (p : ShowPar V) (w : World A V σ ρ ε) (d : Display V) (last : Bool) (k : Nat) (c : Bool) : Prop where
  mark : c = true → w.completed[k]? = some true
  all : last = true → AllMarked p w ∧ c = true
  rows : last = true → ∀ i < k, RowDone p w d i

/-- What is known at each place of the thread. -/
def StOk (p : ShowPar V) (w : World A V σ ρ ε) (d : Display V) : ShowSt V → Prop
  | .check k => ∀ i : Nat, i < k → w.completed[i]? = some true
  | .row last k => last = true → AllMarked p w ∧ ∀ i < k, RowDone p w d i
  | .stat last k c => InRow p w d last k c
  | .value last k c => InRow p w d last k c ∧ k < w.completed.length
  | .fetch last k c v t todo got => InRow p w d last k c ∧ dget d.tasks k = some (some t) ∧ todo.length ≤ p.names.length ∧
      (c = true → v = w.mem.status[k]? ∧ got ++ todo.map (fun b => (b, (dget w.mem.bufs b).bind fun xs => xs[k]?)) = (lineOf p.names w.mem k).fields)
  | .over => AllMarked p w ∧ ∀ i < p.compSlots, RowDone p w d i
  | .failed e => (e = .typeError ∧ Reserved p.names) ∨
      (e = .assertionError ∧ AllMarked p w ∧ (∀ i < p.compSlots, RowDone p w d i) ∧ d.tasks ≠ [] ∧ ∃ i < p.runs, dget d.tasks i = none)

/-- The display is as it should be. -/
structure Shows (p : ShowPar V) (w : World A V σ ρ ε) (d : Display V) : Prop where
  table : Table p w d
  st : StOk p w d d.st

theorem AllMarked.world {p : ShowPar V} {w w' : World A V σ ρ ε} (h : AllMarked p w) (hl : Later w w') : AllMarked p w' := fun i hi => (hl i (h i hi)).1

theorem InRow.world {p : ShowPar V} {w w' : World A V σ ρ ε} {d : Display V} {last : Bool} {k : Nat} {c : Bool} (h : InRow p w d last k c) (hl : Later w w')
    (hk : last = true → k ≤ p.compSlots) : InRow p w' d last k c where
  mark hc := (hl k (h.mark hc)).1
  all hlast := ⟨(h.all hlast).1.world hl, (h.all hlast).2⟩
  rows hlast i hi := (h.rows hlast i hi).world hl ((h.all hlast).1 i (lt_of_lt_of_le hi (hk hlast)))

/-- The thread does not run past the end of the buffers. -/
def StIn (p : ShowPar V) : ShowSt V → Prop
  | .check k => k ≤ p.compSlots
  | .row _ k => k ≤ p.compSlots
  | .stat _ k _ => k < p.compSlots
  | .value _ k _ => k < p.compSlots
  | .fetch _ k _ _ _ _ _ => k < p.compSlots
  | _ => True

theorem Shows.world {p : ShowPar V} {w w' : World A V σ ρ ε} {d : Display V} (h : Shows p w d) (hin : StIn p d.st) (hl : Later w w')
    (hn : w'.completed.length = w.completed.length) : Shows p w' d := by
  refine ⟨h.table.world hl hn, ?_⟩
  have hst := h.st
  cases hd : d.st with
  | check k => rw [hd] at hst; exact fun i hi => (hl i (hst i hi)).1
  | row last k =>
    rw [hd] at hst hin
    exact fun hlast => ⟨(hst hlast).1.world hl, fun i hi => ((hst hlast).2 i hi).world hl ((hst hlast).1 i (lt_of_lt_of_le hi hin))⟩
  | stat last k c => rw [hd] at hst hin; exact hst.world hl fun _ => le_of_lt hin
  | value last k c => rw [hd] at hst hin; exact ⟨hst.1.world hl fun _ => le_of_lt hin, by rw [hn]; exact hst.2⟩
  | fetch last k c v t todo got =>
    rw [hd] at hst hin
    obtain ⟨h1, h2, h3, h4⟩ := hst
    refine ⟨h1.world hl fun _ => le_of_lt hin, h2, h3, fun hc => ?_⟩
    obtain ⟨_, ho⟩ := hl k (h1.mark hc)
    obtain ⟨h5, h6⟩ := h4 hc
    have hb : ∀ b, (dget w'.mem.bufs b).bind (fun xs => xs[k]?) = (dget w.mem.bufs b).bind fun xs => xs[k]? := by
      intro b
      have := congrArg Line.fields (lineOf_congr (names := [b]) ho)
      simp only [lineOf, List.map_cons, List.map_nil, List.cons.injEq, Prod.mk.injEq, true_and, and_true] at this
      exact this
    refine ⟨?_, ?_⟩
    · have := congrArg Prod.fst ho
      dsimp only [own] at this
      rw [this, h5]
    · rw [lineOf_congr ho, ← h6]
      simp only [hb]
  | over =>
    rw [hd] at hst
    exact ⟨hst.1.world hl, fun i hi => (hst.2 i hi).world hl (hst.1 i hi)⟩
  | failed e =>
    rw [hd] at hst
    rcases hst with h1 | ⟨h1, h2, h3, h4⟩
    · exact .inl h1
    · exact .inr ⟨h1, h2.world hl, fun i hi => (h3 i hi).world hl (h2 i hi), h4⟩

theorem endRow_ok {p : ShowPar V} {w : World A V σ ρ ε} {d : Display V} {last : Bool} {k : Nat} {c : Bool} (h : Table p w d) (hr : InRow p w d last k c)
    (hk : k < p.compSlots)
    (hpos : c = true → ∀ t, dget d.tasks k = some (some t) → Positive p.pos w.mem k → dget d.lines t = some (lineOf p.names w.mem k))
    (hnew : c = true → dget d.tasks k = none → ¬ Positive p.pos w.mem k) :
    Shows p w (endRow p d last k c) ∧ StIn p (endRow p d last k c).st := by
  unfold endRow
  cases c with
  | false =>
    exact ⟨⟨h.setSt _, fun hlast => by have := (hr.all hlast).2; cases this⟩, hk⟩
  | true =>
    obtain ⟨d', h1, h2, h3, h4⟩ := removeTask_ok h (hr.mark rfl) (hpos rfl) (hnew rfl)
    rw [if_pos rfl, h1]
    refine ⟨⟨h4.setSt _, fun hlast => ⟨(hr.all hlast).1, fun i hi => ?_⟩⟩, hk⟩
    rcases Nat.lt_succ_iff_lt_or_eq.1 hi with hi | rfl
    · exact h2.done (by omega) (hr.rows hlast i hi)
    · exact h3

/-- Tasks for all the runs and no others. -/
theorem tasks_all {p : ShowPar V} {w : World A V σ ρ ε} {d : Display V} (h : Table p w d) (hn : w.completed.length = p.runs) (hall : ∀ i < p.runs, dget d.tasks i ≠ none) :
    d.tasks.length = p.runs ∧ (d.tasks.map Prod.fst).insertionSort (· ≤ ·) = List.range p.runs := by
  have hperm : (d.tasks.map Prod.fst).Perm (List.range p.runs) := by
    rw [List.perm_ext_iff_of_nodup h.keys List.nodup_range]
    intro i
    rw [List.mem_range]
    refine ⟨fun hi => by rw [← hn]; exact h.runs i hi, fun hi => ?_⟩
    by_contra hm
    exact hall i hi (dget_none.2 hm)
  refine ⟨by rw [← List.length_map (f := Prod.fst), hperm.length_eq, List.length_range], ?_⟩
  exact List.Perm.eq_of_pairwise' (List.pairwise_insertionSort (· ≤ ·) _) ((List.pairwise_lt_range).imp fun h => le_of_lt h)
    ((List.perm_insertionSort _ _).trans hperm)

/-- Without `leave` there are no lines left. -/
theorem no_lines_left {p : ShowPar V} {w : World A V σ ρ ε} {d : Display V} (h : Table p w d) (hn : w.completed.length = p.runs)
    (hs : p.runs ≤ p.compSlots) (h2 : ∀ i < p.compSlots, RowDone p w d i) : (p.leave || d.tasks.all fun e => e.2.isNone) = true := by
  cases hv : p.leave with
  | true => rfl
  | false =>
    rw [Bool.false_or, List.all_eq_true]
    rintro ⟨i, x⟩ hx
    have hi := h.runs i (List.mem_map_of_mem (f := Prod.fst) hx)
    cases x with
    | none => rfl
    | some t => exact ((h2 i (by omega)).2 hv t (dget_of_mem h.keys hx)).elim

theorem endUpdate_ok {p : ShowPar V} {w : World A V σ ρ ε} {d : Display V} {last alive : Bool} (h : Table p w d) (hn : w.completed.length = p.runs)
    (hs : p.runs ≤ p.compSlots) (hall : last = true → AllMarked p w ∧ ∀ i < p.compSlots, RowDone p w d i) :
    Shows p w (endUpdate p d last alive) ∧ StIn p (endUpdate p d last alive).st := by
  unfold endUpdate
  cases last with
  | false => exact ⟨⟨h.setSt _, fun i hi => by omega⟩, Nat.zero_le _⟩
  | true =>
    obtain ⟨h1, h2⟩ := hall rfl
    rw [if_pos rfl]
    split
    · exact ⟨⟨h.setSt _, h1, h2⟩, trivial⟩
    · next hc =>
      refine ⟨⟨h.setSt _, .inr ⟨rfl, h1, h2, ?_⟩⟩, trivial⟩
      have hsecond := no_lines_left h hn hs h2
      unfold lastChecks at hc
      rw [hsecond, Bool.and_true, Bool.or_eq_true, Bool.or_eq_true, not_or, not_or] at hc
      obtain ⟨⟨_, he⟩, hx⟩ := hc
      refine ⟨fun e => he (by dsimp only at e; rw [e]; rfl), ?_⟩
      by_contra hno
      push Not at hno
      obtain ⟨g1, g2⟩ := tasks_all h hn hno
      exact hx (by rw [g1, g2]; simp)

/-- A step of the display keeps it as it should be. -/
theorem showStep_ok {p : ShowPar V} {w : World A V σ ρ ε} {d : Display V} (hm : w.Marks p.runs) (hs : p.runs ≤ p.compSlots) (ht : p.runs ≤ p.statSlots)
    (h : Shows p w d) (hin : StIn p d.st) : Shows p w (showStep p w d) ∧ StIn p (showStep p w d).st := by
  have hst := h.st
  have hgetD : ∀ k : Nat, (w.completed[k]?).getD false = true → w.completed[k]? = some true := by
    intro k hk
    cases hc : w.completed[k]? with
    | none => rw [hc] at hk; cases hk
    | some b => rw [hc] at hk; exact congrArg some hk
  unfold showStep
  cases hd : d.st with
  | check k =>
    rw [hd] at hst hin
    dsimp only
    split
    · next hk =>
      split
      · next hc =>
        refine ⟨⟨h.table.setSt _, fun i hi => ?_⟩, hk⟩
        rcases Nat.lt_succ_iff_lt_or_eq.1 hi with hi | rfl
        · exact hst i hi
        · exact hgetD _ hc
      · exact ⟨⟨h.table.setSt _, fun hlast => by cases hlast⟩, Nat.zero_le _⟩
    · next hk => exact ⟨⟨h.table.setSt _, fun _ => ⟨fun i hi => hst i (by omega), fun i hi => by omega⟩⟩, Nat.zero_le _⟩
  | row last k =>
    rw [hd] at hst hin
    dsimp only
    split
    · next hk =>
      refine ⟨⟨h.table.setSt _, ⟨hgetD k, fun hlast => ⟨(hst hlast).1, ?_⟩, fun hlast => (hst hlast).2⟩⟩, hk⟩
      rw [(hst hlast).1 k hk]; rfl
    · next hk => exact endUpdate_ok h.table hm.marks hs fun hlast => ⟨(hst hlast).1, fun i hi => (hst hlast).2 i (by omega)⟩
  | stat last k c =>
    rw [hd] at hst hin
    dsimp only
    split
    · split
      · next hp =>
        refine ⟨⟨h.table.setSt _, ?_, ?_⟩, hin⟩
        · exact ⟨hst.mark, hst.all, hst.rows⟩
        · obtain ⟨v, hv, _⟩ := positive_any.1 hp
          by_contra hlt
          rw [hm.out k (by rw [← hm.marks]; omega)] at hv
          cases hv
      · next hp =>
        have hp' : ¬ Positive p.pos w.mem k := fun h' => hp (positive_any.2 h')
        exact endRow_ok h.table hst hin (fun _ _ _ h' => (hp' h').elim) fun _ _ => hp'
    · next hk =>
      refine endUpdate_ok h.table hm.marks hs fun hlast => ?_
      have := (List.getElem?_eq_some_iff.1 ((hst.all hlast).1 k hin)).1
      rw [hm.marks] at this
      omega
  | value last k c =>
    rw [hd] at hst hin
    dsimp only
    rcases getTask_cases h.table hst.2 with ⟨h1, h2⟩ | ⟨h1, h2⟩ | ⟨d', t, h1, h2, h3, h4⟩
    · rw [h1]; exact ⟨⟨h.table.setSt _, .inl ⟨rfl, h2⟩⟩, trivial⟩
    · rw [h1]
      exact endRow_ok h.table hst.1 hin (fun _ t ht => by rw [h2] at ht; cases ht) fun _ ht => by rw [h2] at ht; cases ht
    · rw [h1]
      refine ⟨⟨h4.setSt _, ⟨hst.1.mark, hst.1.all, fun hlast i hi => h3.done (by omega) (hst.1.rows hlast i hi)⟩, h2, le_rfl, fun _ => ⟨rfl, rfl⟩⟩, hin⟩
  | fetch last k c v t todo got =>
    rw [hd] at hst hin
    obtain ⟨h1, h2, h3, h4⟩ := hst
    cases todo with
    | cons b todo =>
      refine ⟨⟨h.table.setSt _, ⟨h1.mark, h1.all, h1.rows⟩, h2, by simp at h3; omega, fun hc => ⟨(h4 hc).1, ?_⟩⟩, hin⟩
      rw [← (h4 hc).2]
      simp
    | nil =>
      dsimp only
      rcases updateLine_cases (v := v) (got := got) h.table h2 with ⟨g1, g2⟩ | ⟨d', g1, g2, g3, g4, g5⟩
      · rw [g1]; exact ⟨⟨h.table.setSt _, .inl ⟨rfl, g2⟩⟩, trivial⟩
      · rw [g1]
        refine endRow_ok g5 ⟨h1.mark, h1.all, fun hlast i hi => g4.done (by omega) (h1.rows hlast i hi)⟩ hin (fun hc t' ht' _ => ?_)
          fun _ ht' => by rw [g2, h2] at ht'; cases ht'
        rw [g2, h2] at ht'
        cases ht'
        obtain ⟨e1, e2⟩ := h4 hc
        rw [g3, e1, show got = (lineOf p.names w.mem k).fields by rw [← e2]; simp]
        rfl
  | over => rw [hd] at hst; exact ⟨⟨h.table, by rw [hd]; exact hst⟩, by rw [hd]; trivial⟩
  | failed e => rw [hd] at hst; exact ⟨⟨h.table, by rw [hd]; exact hst⟩, by rw [hd]; trivial⟩

theorem init_shows (p : ShowPar V) (w : World A V σ ρ ε) : Shows p w Display.init ∧ StIn p (Display.init (V := V)).st := by
  refine ⟨⟨⟨List.nodup_nil, List.nodup_nil, ?_, ?_, ?_, ?_, List.nodup_nil, ?_, ?_, fun _ => rfl⟩, fun i hi => by omega⟩, Nat.zero_le _⟩
  · intro t ht; cases ht
  · intro t ht; cases ht
  · intro i t ht; cases ht
  · intro t ht; cases ht
  · intro t ht; cases ht
  · intro t ht; cases ht

theorem runShow_ok {core : Core A V σ ρ ε} (hl : core.Local) {seq : Bool} {rows : List (List A × List (String × A))} {p : ShowPar V} (hs : p.runs ≤ p.compSlots)
    (ht : p.runs ≤ p.statSlots) : ∀ (es : List ShowEvent) (s : World A V σ ρ ε × Display V), s.1.Marks p.runs → Shows p s.1 s.2 → StIn p s.2.st →
      (runShow core seq rows p es s).1.Marks p.runs ∧ Shows p (runShow core seq rows p es s).1 (runShow core seq rows p es s).2 ∧
        StIn p (runShow core seq rows p es s).2.st
  | [], _, hm, h, hin => ⟨hm, h, hin⟩
  | .run e :: es, s, hm, h, hin => by
    rw [runShow]
    obtain ⟨h1, h2⟩ := event_marks (seq := seq) (rows := rows) hl hm e
    exact runShow_ok hl hs ht es _ h1 (h.world hin h2 (by rw [h1.marks, hm.marks])) hin
  | .look :: es, s, hm, h, hin => by
    rw [runShow]
    obtain ⟨h1, h2⟩ := showStep_ok hm hs ht h hin
    exact runShow_ok hl hs ht es _ hm h1 h2

/-! ## When the timer is over -/

theorem endRow_fails {p : ShowPar V} {d : Display V} {last : Bool} {k : Nat} {c : Bool} : (endRow p d last k c).st ≠ .failed .assertionError := by
  have : ∀ e, removeTask p d k = .error e → e = .keyError := by
    intro e h
    unfold removeTask at h
    split at h
    · cases h
    · split at h
      · split at h <;> cases h
        rfl
      · cases h
  unfold endRow
  split
  · split
    · next e he => rw [this e he]; simp
    · simp
  · simp

/-- The checks do not fail when the thread of the timer has ended. -/
theorem showStep_late {p : ShowPar V} {w : World A V σ ρ ε} {d : Display V} (hm : w.Marks p.runs) (hs : p.runs ≤ p.compSlots) (ht : p.runs ≤ p.statSlots)
    (h : Shows p w d) (hin : StIn p d.st) (hover : w.timer = .over) (hd : d.st ≠ .failed .assertionError) : (showStep p w d).st ≠ .failed .assertionError := by
  have hst := h.st
  have hend : ∀ last, (last = true → ∀ i < p.compSlots, RowDone p w d i) → (endUpdate p d last (decide (w.timer ≠ .over))).st ≠ .failed .assertionError := by
    intro last hall
    unfold endUpdate
    split
    · next hlast =>
      have : lastChecks p d (decide (w.timer ≠ .over)) = true := by
        unfold lastChecks
        rw [no_lines_left h.table hm.marks hs (hall hlast), hover]
        rfl
      rw [if_pos this]
      simp
    · simp
  unfold showStep
  cases hd' : d.st with
  | check k =>
    dsimp only
    split
    · split <;> simp
    · simp
  | row last k =>
    rw [hd'] at hst hin
    dsimp only
    split
    · simp
    · exact hend last fun hlast i hi => (hst hlast).2 i (by omega)
  | stat last k c =>
    rw [hd'] at hst hin
    dsimp only
    split
    · split
      · simp
      · exact endRow_fails
    · next hk =>
      refine hend last fun hlast => ?_
      have := (List.getElem?_eq_some_iff.1 ((hst.all hlast).1 k hin)).1
      rw [hm.marks] at this
      omega
  | value last k c =>
    rw [hd'] at hst
    dsimp only
    rcases getTask_cases h.table hst.2 with ⟨h1, h2⟩ | ⟨h1, h2⟩ | ⟨d', t, h1, h2, h3, h4⟩
    · rw [h1]; simp
    · rw [h1]; exact endRow_fails
    · rw [h1]; simp
  | fetch last k c v t todo got =>
    rw [hd'] at hst
    cases todo with
    | cons b todo => simp
    | nil =>
      dsimp only
      rcases updateLine_cases (v := v) (got := got) h.table hst.2.1 with ⟨g1, g2⟩ | ⟨d', g1, _⟩
      · rw [g1]; simp
      · rw [g1]; exact endRow_fails
  | over => dsimp only; rw [hd']; simp
  | failed e => dsimp only; exact hd

theorem tick_over {core : Core A V σ ρ ε} {seq : Bool} {rows : List (List A × List (String × A))} {w : World A V σ ρ ε} (h : w.timer = .over) (e : Event) :
    (runSched core seq rows [e] w).timer = .over := by
  cases e with
  | tick => rw [runSched, runSched]; unfold tickStep; rw [h]; exact h
  | work i =>
    rw [runSched, runSched]
    split
    · unfold workStep
      split
      · exact h
      · split <;> exact h
      · exact h
      · exact h
    · exact h

theorem runShow_late {core : Core A V σ ρ ε} (hl : core.Local) {seq : Bool} {rows : List (List A × List (String × A))} {p : ShowPar V} (hs : p.runs ≤ p.compSlots)
    (ht : p.runs ≤ p.statSlots) : ∀ (es : List ShowEvent) (s : World A V σ ρ ε × Display V), s.1.Marks p.runs → Shows p s.1 s.2 → StIn p s.2.st →
      s.1.timer = .over → s.2.st ≠ .failed .assertionError → (runShow core seq rows p es s).2.st ≠ .failed .assertionError
  | [], _, _, _, _, _, hd => hd
  | .run e :: es, s, hm, h, hin, ho, hd => by
    rw [runShow]
    obtain ⟨h1, h2⟩ := event_marks (seq := seq) (rows := rows) hl hm e
    exact runShow_late hl hs ht es _ h1 (h.world hin h2 (by rw [h1.marks, hm.marks])) hin (tick_over ho e) hd
  | .look :: es, s, hm, h, hin, ho, hd => by
    rw [runShow]
    obtain ⟨h1, h2⟩ := showStep_ok hm hs ht h hin
    exact runShow_late hl hs ht es _ hm h1 h2 ho (showStep_late hm hs ht h hin ho hd)

/-! ## The end -/

/-- An upper bound for the number of steps that the thread still takes when all runs are completed. -/
def stepsLeft (p : ShowPar V) : ShowSt V → Nat
  | .check k => (p.compSlots - k) + 1 + (p.compSlots * (p.names.length + 5) + 1)
  | .row last k => (p.compSlots - k) * (p.names.length + 5) + 1 + (if last then 0 else p.compSlots + 1 + (p.compSlots * (p.names.length + 5) + 1))
  | .stat last k _ => (p.compSlots - (k + 1)) * (p.names.length + 5) + 1 + (if last then 0 else p.compSlots + 1 + (p.compSlots * (p.names.length + 5) + 1)) +
      (p.names.length + 4)
  | .value last k _ => (p.compSlots - (k + 1)) * (p.names.length + 5) + 1 + (if last then 0 else p.compSlots + 1 + (p.compSlots * (p.names.length + 5) + 1)) +
      (p.names.length + 3)
  | .fetch last k _ _ _ todo _ => (p.compSlots - (k + 1)) * (p.names.length + 5) + 1 +
      (if last then 0 else p.compSlots + 1 + (p.compSlots * (p.names.length + 5) + 1)) + (todo.length + 1)
  | _ => 0

theorem endRow_left {p : ShowPar V} {d : Display V} {last : Bool} {k : Nat} {c : Bool} :
    stepsLeft p (endRow p d last k c).st ≤ (p.compSlots - (k + 1)) * (p.names.length + 5) + 1 +
      (if last then 0 else p.compSlots + 1 + (p.compSlots * (p.names.length + 5) + 1)) := by
  unfold endRow
  split
  · split
    · exact Nat.zero_le _
    · exact le_rfl
  · exact le_rfl

theorem endUpdate_left {p : ShowPar V} {d : Display V} {last alive : Bool} :
    stepsLeft p (endUpdate p d last alive).st ≤ (if last then 0 else p.compSlots + 1 + (p.compSlots * (p.names.length + 5) + 1)) := by
  unfold endUpdate
  cases last with
  | true =>
    rw [if_pos rfl, if_pos rfl]
    split <;> exact le_rfl
  | false => exact le_rfl

theorem showStep_left {p : ShowPar V} {w : World A V σ ρ ε} {d : Display V} (hall : AllMarked p w) (hend : d.st.ended = false) :
    stepsLeft p (showStep p w d).st < stepsLeft p d.st := by
  unfold showStep
  cases hd : d.st with
  | check k =>
    dsimp only
    split
    · next hk =>
      rw [hall k hk]
      dsimp only [Option.getD_some]
      rw [if_pos rfl]
      dsimp only [stepsLeft]
      omega
    · dsimp only [stepsLeft]
      rw [if_pos rfl, Nat.sub_zero]
      omega
  | row last k =>
    dsimp only
    split
    · next hk =>
      dsimp only [stepsLeft]
      rw [show p.compSlots - k = (p.compSlots - (k + 1)) + 1 by omega, Nat.add_mul]
      omega
    · refine lt_of_le_of_lt endUpdate_left ?_
      dsimp only [stepsLeft]
      omega
  | stat last k c =>
    dsimp only
    split
    · split
      · dsimp only [stepsLeft]; omega
      · refine lt_of_le_of_lt endRow_left ?_
        dsimp only [stepsLeft]
        omega
    · refine lt_of_le_of_lt endUpdate_left ?_
      dsimp only [stepsLeft]
      omega
  | value last k c =>
    dsimp only
    split
    · dsimp only [stepsLeft]; omega
    · refine lt_of_le_of_lt endRow_left ?_
      dsimp only [stepsLeft]
      omega
    · dsimp only [stepsLeft]; omega
  | fetch last k c v t todo got =>
    cases todo with
    | cons b todo => dsimp only [stepsLeft, List.length_cons]; omega
    | nil =>
      dsimp only
      split
      · dsimp only [stepsLeft]; omega
      · refine lt_of_le_of_lt endRow_left ?_
        dsimp only [stepsLeft]
        omega
  | over => rw [hd] at hend; cases hend
  | failed e => rw [hd] at hend; cases hend

theorem left_le {p : ShowPar V} {w : World A V σ ρ ε} {d : Display V} (h : StOk p w d d.st) :
    stepsLeft p d.st ≤ (p.compSlots + 1) * (2 * p.names.length + 12) := by
  have hb : ∀ k, (p.compSlots - k) * (p.names.length + 5) ≤ p.compSlots * (p.names.length + 5) := fun k => Nat.mul_le_mul_right _ (Nat.sub_le _ _)
  have he : (p.compSlots + 1) * (2 * p.names.length + 12) = 2 * (p.compSlots * (p.names.length + 5)) + 2 * p.compSlots + (2 * p.names.length + 12) := by ring
  rw [he]
  cases hd : d.st with
  | check k => dsimp only [stepsLeft]; omega
  | row last k => have := hb k; dsimp only [stepsLeft]; split <;> omega
  | stat last k c => have := hb (k + 1); dsimp only [stepsLeft]; split <;> omega
  | value last k c => have := hb (k + 1); dsimp only [stepsLeft]; split <;> omega
  | fetch last k c v t todo got =>
    rw [hd] at h
    have := h.2.2.1
    have := hb (k + 1)
    dsimp only [stepsLeft]; split <;> omega
  | over => exact Nat.zero_le _
  | failed e => exact Nat.zero_le _

theorem showStep_ended {p : ShowPar V} {w : World A V σ ρ ε} {d : Display V} (h : d.st.ended = true) : showStep p w d = d := by
  unfold showStep
  cases hd : d.st <;> rw [hd] at h <;> first | cases h | rfl

theorem runShow_ended {core : Core A V σ ρ ε} {seq : Bool} {rows : List (List A × List (String × A))} {p : ShowPar V} :
    ∀ (es : List ShowEvent) (s : World A V σ ρ ε × Display V), s.2.st.ended = true → (runShow core seq rows p es s).2 = s.2
  | [], _, _ => rfl
  | .run e :: es, s, h => by
    rw [runShow]
    exact runShow_ended es (_, s.2) h
  | .look :: es, s, h => by
    rw [runShow, runShow_ended es]
    · exact showStep_ended h
    · dsimp only; rw [showStep_ended h]; exact h

/-- Once all runs are completed, the thread ends after enough steps of its own. -/
theorem runShow_ends {core : Core A V σ ρ ε} (hl : core.Local) {seq : Bool} {rows : List (List A × List (String × A))} {p : ShowPar V} {n : Nat} :
    ∀ (es : List ShowEvent) (s : World A V σ ρ ε × Display V), s.1.Marks n → AllMarked p s.1 → stepsLeft p s.2.st ≤ es.count .look →
      (runShow core seq rows p es s).2.st.ended = true
  | [], s, _, _, hle => by
    cases hd : s.2.st <;> rw [hd] at hle <;> simp [stepsLeft] at hle <;> (rw [runShow, hd]; rfl)
  | .run e :: es, s, hm, hall, hle => by
    rw [runShow]
    obtain ⟨h1, h2⟩ := event_marks (seq := seq) (rows := rows) hl hm e
    refine runShow_ends hl es _ h1 (hall.world h2) ?_
    rwa [List.count_cons_of_ne (by simp)] at hle
  | .look :: es, s, hm, hall, hle => by
    rw [runShow]
    cases he : s.2.st.ended with
    | true =>
      rw [showStep_ended he, runShow_ended es _ he]
      exact he
    | false =>
      refine runShow_ends hl es _ hm hall ?_
      have := showStep_left hall he
      rw [List.count_cons_self] at hle
      dsimp only
      omega

end TNCO
