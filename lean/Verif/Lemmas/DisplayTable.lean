import Verif.Lemmas.Display
import Verif.Lemmas.Dict

/-! # The lines of the progress display -/

namespace TNCO
variable {A V σ ρ ε : Type}

/-- The dictionary of tasks and the table of lines fit together; the lines that are gone belong to completed runs and were up to date. -/
structure Table (p : ShowPar V) (w : World A V σ ρ ε) (d : Display V) : Prop where
  keys : (d.tasks.map Prod.fst).Nodup
  ids : (d.lines.map Prod.fst).Nodup
  small : ∀ t ∈ d.lines.map Prod.fst, t < d.fresh
  runs : ∀ i ∈ d.tasks.map Prod.fst, i < w.completed.length
  link : ∀ i t, dget d.tasks i = some (some t) → ∃ l, dget d.lines t = some l ∧ l.label = i + 1
  back : ∀ t ∈ d.lines.map Prod.fst, ∃ i, dget d.tasks i = some (some t)
  once : (d.gone.map Line.label).Nodup
  gone : ∀ l ∈ d.gone, ∃ i, l.label = i + 1 ∧ dget d.tasks i = some none ∧ w.completed[i]? = some true ∧ (Positive p.pos w.mem i → l = lineOf p.names w.mem i)
  left : ∀ i, dget d.tasks i = some none → ∃ l ∈ d.gone, l.label = i + 1
  leave : p.leave = true → d.gone = []

theorem Table.world {p : ShowPar V} {w w' : World A V σ ρ ε} {d : Display V} (h : Table p w d) (hl : Later w w') (hn : w'.completed.length = w.completed.length) :
    Table p w' d where
  keys := h.keys
  ids := h.ids
  small := h.small
  runs i hi := by rw [hn]; exact h.runs i hi
  link := h.link
  back := h.back
  once := h.once
  gone l hlg := by
    obtain ⟨i, h1, h2, h3, h4⟩ := h.gone l hlg
    obtain ⟨h5, h6⟩ := hl i h3
    exact ⟨i, h1, h2, h5, fun hp => by rw [lineOf_congr h6]; exact h4 ((positive_congr h6).1 hp)⟩
  left := h.left
  leave := h.leave

theorem Table.setSt {p : ShowPar V} {w : World A V σ ρ ε} {d : Display V} (h : Table p w d) (st : ShowSt V) : Table p w { d with st := st } :=
  ⟨h.keys, h.ids, h.small, h.runs, h.link, h.back, h.once, h.gone, h.left, h.leave⟩

theorem Table.inj {p : ShowPar V} {w : World A V σ ρ ε} {d : Display V} (h : Table p w d) {i j t : Nat} (hi : dget d.tasks i = some (some t))
    (hj : dget d.tasks j = some (some t)) : i = j := by
  obtain ⟨l, h1, h2⟩ := h.link i t hi
  obtain ⟨l', h3, h4⟩ := h.link j t hj
  rw [h1] at h3
  cases h3
  omega

/-- Nothing but run `k` is concerned by the change. -/
structure OnlyRow (d d' : Display V) (k : Nat) : Prop where
  tasks : ∀ i, i ≠ k → dget d'.tasks i = dget d.tasks i
  lines : ∀ i t, i ≠ k → dget d.tasks i = some (some t) → dget d'.lines t = dget d.lines t
  gone : ∀ l ∈ d.gone, l ∈ d'.gone

/-- What is asked of the display for run `i`: it shows what the memory holds if the status is positive, and the line is gone unless it is to be left. -/
def RowDone (p : ShowPar V) (w : World A V σ ρ ε) (d : Display V) (i : Nat) : Prop :=
  (Positive p.pos w.mem i → (∃ t, dget d.tasks i = some (some t) ∧ dget d.lines t = some (lineOf p.names w.mem i)) ∨ lineOf p.names w.mem i ∈ d.gone) ∧
    (p.leave = false → ∀ t, dget d.tasks i ≠ some (some t))

theorem OnlyRow.done {p : ShowPar V} {w : World A V σ ρ ε} {d d' : Display V} {k i : Nat} (h : OnlyRow d d' k) (hi : i ≠ k) (hd : RowDone p w d i) :
    RowDone p w d' i := by
  refine ⟨fun hp => ?_, fun hv t => by rw [h.tasks i hi]; exact hd.2 hv t⟩
  rcases hd.1 hp with ⟨t, h1, h2⟩ | hg
  · exact .inl ⟨t, by rw [h.tasks i hi, h1], by rw [h.lines i t hi h1, h2]⟩
  · exact .inr (h.gone _ hg)

theorem RowDone.world {p : ShowPar V} {w w' : World A V σ ρ ε} {d : Display V} {i : Nat} (h : RowDone p w d i) (hl : Later w w') (hc : w.completed[i]? = some true) :
    RowDone p w' d i := by
  obtain ⟨_, h6⟩ := hl i hc
  unfold RowDone
  rw [lineOf_congr h6, positive_congr h6]
  exact h

theorem getTask_cases {p : ShowPar V} {w : World A V σ ρ ε} {d : Display V} {k : Nat} (h : Table p w d) (hk : k < w.completed.length) :
    (getTask p d k = .error .typeError ∧ Reserved p.names) ∨
      (getTask p d k = .ok (d, none) ∧ dget d.tasks k = some none) ∨
      ∃ d' t, getTask p d k = .ok (d', some t) ∧ dget d'.tasks k = some (some t) ∧ OnlyRow d d' k ∧ Table p w d' := by
  unfold getTask
  cases hd : dget d.tasks k with
  | some x =>
    cases x with
    | none => exact .inr (.inl ⟨rfl, rfl⟩)
    | some t => exact .inr (.inr ⟨d, t, rfl, hd, ⟨fun _ _ => rfl, fun _ _ _ _ => rfl, fun _ => id⟩, h⟩)
  | none =>
    dsimp only
    split
    · next hc =>
      refine .inl ⟨rfl, ?_⟩
      obtain ⟨b, hb, hb'⟩ := List.any_eq_true.1 hc
      refine ⟨b, hb, ?_⟩
      simp only [List.contains_eq_mem, decide_eq_true_eq, List.mem_cons, List.not_mem_nil, or_false] at hb' ⊢
      rcases hb' with h | h | h | h <;> simp [h]
    · have hfresh : d.fresh ∉ d.lines.map Prod.fst := fun hm => lt_irrefl _ (h.small _ hm)
      have hnew : dget d.lines d.fresh = none := dget_none.2 hfresh
      have hget : ∀ t, dget (d.lines ++ [(d.fresh, (⟨k + 1, none, p.names.map fun b => (b, none)⟩ : Line V))]) t =
          if t = d.fresh then some ⟨k + 1, none, p.names.map fun b => (b, none)⟩ else dget d.lines t := by
        intro t
        rw [dget_append, dget_cons]
        by_cases ht : t = d.fresh
        · subst ht; rw [hnew]; simp
        · rw [if_neg ht, if_neg (Ne.symm ht)]
          show (dget d.lines t).or none = _
          rw [Option.or_none]
      refine .inr (.inr ⟨_, _, rfl, by simp [dget_dset], ⟨fun i hi => by simp [dget_dset, hi], fun i t hi ht => ?_, fun _ => id⟩, ?_⟩)
      · obtain ⟨l, h1, _⟩ := h.link i t ht
        dsimp only
        rw [hget, if_neg]
        rintro rfl
        rw [hnew] at h1; cases h1
      · refine ⟨dset_nodup h.keys _ _, ?_, ?_, ?_, ?_, ?_, h.once, ?_, ?_, h.leave⟩
        · dsimp only
          rw [List.map_append, List.nodup_append]
          refine ⟨h.ids, by simp, ?_⟩
          rintro a ha b hb rfl
          simp only [List.map_cons, List.map_nil, List.mem_singleton] at hb
          subst hb
          exact hfresh ha
        · intro t ht
          simp only [List.map_append, List.map_cons, List.map_nil, List.mem_append, List.mem_singleton] at ht
          rcases ht with ht | rfl
          · exact Nat.lt_succ_of_lt (h.small t ht)
          · exact Nat.lt_succ_self _
        · intro i hi
          by_contra hlt
          have hik : i ≠ k := by omega
          have : dget (dset d.tasks k (some d.fresh)) i = none := by
            rw [dget_dset, if_neg hik, dget_none]
            exact fun hm => hlt (h.runs i hm)
          exact dget_none.1 this hi
        · intro i t ht
          dsimp only at ht ⊢
          rw [dget_dset] at ht
          rw [hget]
          split at ht
          · next hik => cases ht; exact ⟨_, if_pos rfl, by rw [hik]⟩
          · obtain ⟨l, h1, h2⟩ := h.link i t ht
            refine ⟨l, ?_, h2⟩
            rw [if_neg, h1]
            rintro rfl
            rw [hnew] at h1; cases h1
        · intro t ht
          simp only [List.map_append, List.map_cons, List.map_nil, List.mem_append, List.mem_singleton] at ht
          dsimp only
          rcases ht with ht | rfl
          · obtain ⟨i, hi⟩ := h.back t ht
            refine ⟨i, ?_⟩
            rw [dget_dset, if_neg, hi]
            rintro rfl
            rw [hd] at hi; cases hi
          · exact ⟨k, by rw [dget_dset, if_pos rfl]⟩
        · intro l hlg
          obtain ⟨i, h1, h2, h3⟩ := h.gone l hlg
          refine ⟨i, h1, ?_, h3⟩
          dsimp only
          rw [dget_dset, if_neg, h2]
          rintro rfl
          rw [hd] at h2; cases h2
        · intro i hi
          dsimp only at hi
          rw [dget_dset] at hi
          split at hi
          · cases hi
          · exact h.left i hi

theorem updateLine_cases {p : ShowPar V} {w : World A V σ ρ ε} {d : Display V} {k t : Nat} {v : Option V} {got : List (String × Option V)} (h : Table p w d)
    (ht : dget d.tasks k = some (some t)) :
    (updateLine p d t k v got = .error .typeError ∧ Reserved p.names) ∨
      ∃ d', updateLine p d t k v got = .ok d' ∧ d'.tasks = d.tasks ∧ dget d'.lines t = some ⟨k + 1, v, got⟩ ∧ OnlyRow d d' k ∧ Table p w d' := by
  unfold updateLine
  split
  · next hc =>
    refine .inl ⟨rfl, ?_⟩
    obtain ⟨b, hb, hb'⟩ := List.any_eq_true.1 hc
    refine ⟨b, hb, ?_⟩
    simp only [List.contains_eq_mem, decide_eq_true_eq, List.mem_cons, List.not_mem_nil, or_false] at hb' ⊢
    rcases hb' with h | h | h | h <;> simp [h]
  · obtain ⟨l, h1, h2⟩ := h.link k t ht
    have hkeys : ∀ t', t' ∈ (dset d.lines t (⟨k + 1, v, got⟩ : Line V)).map Prod.fst ↔ t' ∈ d.lines.map Prod.fst := by
      intro t'
      rw [← not_iff_not, ← dget_none, ← dget_none, dget_dset]
      split
      · next e => subst e; simp [h1]
      · rfl
    rw [h1]
    refine .inr ⟨_, rfl, rfl, by simp [dget_dset], ⟨fun _ _ => rfl, fun i t' hi ht' => ?_, fun _ => id⟩,
      ⟨h.keys, dset_nodup h.ids _ _, fun t' ht' => h.small t' ((hkeys t').1 ht'), h.runs, fun i t' ht' => ?_, fun t' ht' => h.back t' ((hkeys t').1 ht'), h.once, h.gone,
        h.left, h.leave⟩⟩
    · dsimp only
      rw [dget_dset, if_neg]
      rintro rfl
      exact hi (h.inj ht' ht)
    · dsimp only
      rw [dget_dset]
      split
      · next e => subst e; exact ⟨_, rfl, by rw [h.inj ht' ht]⟩
      · exact h.link i t' ht'

theorem removeTask_ok {p : ShowPar V} {w : World A V σ ρ ε} {d : Display V} {k : Nat} (h : Table p w d) (hc : w.completed[k]? = some true)
    (hpos : ∀ t, dget d.tasks k = some (some t) → Positive p.pos w.mem k → dget d.lines t = some (lineOf p.names w.mem k))
    (hnew : dget d.tasks k = none → ¬ Positive p.pos w.mem k) :
    ∃ d', removeTask p d k = .ok d' ∧ OnlyRow d d' k ∧ RowDone p w d' k ∧ Table p w d' := by
  have hsame : OnlyRow d d k := ⟨fun _ _ => rfl, fun _ _ _ _ => rfl, fun _ => id⟩
  unfold removeTask
  split
  · next hv =>
    refine ⟨d, rfl, hsame, ⟨fun hp => ?_, fun hv' => by rw [hv] at hv'; cases hv'⟩, h⟩
    cases hd : dget d.tasks k with
    | none => exact (hnew hd hp).elim
    | some x =>
      cases x with
      | some t => exact .inl ⟨t, rfl, hpos t hd hp⟩
      | none =>
        obtain ⟨l, hl, _⟩ := h.left k hd
        rw [h.leave hv] at hl
        cases hl
  · next hv =>
    cases hd : dget d.tasks k with
    | none => exact ⟨d, rfl, hsame, ⟨fun hp => (hnew hd hp).elim, fun _ t ht => by rw [hd] at ht; cases ht⟩, h⟩
    | some x =>
      cases x with
      | none =>
        refine ⟨d, rfl, hsame, ⟨fun hp => ?_, fun _ t ht => by rw [hd] at ht; cases ht⟩, h⟩
        obtain ⟨l, hl, hlab⟩ := h.left k hd
        obtain ⟨i, h1, _, _, h4⟩ := h.gone l hl
        have : i = k := by omega
        subst this
        rw [← h4 hp]; exact .inr hl
      | some t =>
        obtain ⟨l, h1, h2⟩ := h.link k t hd
        dsimp only
        rw [h1]
        have hget : ∀ i, dget (dset (dpop d.tasks k) k none) i = if i = k then some none else dget d.tasks i := by
          intro i
          rw [dget_dset, dget_dpop]
          split <;> rfl
        have hids : ∀ t', t' ∈ (dpop d.lines t).map Prod.fst ↔ t' ∈ d.lines.map Prod.fst ∧ t' ≠ t := by
          intro t'; rw [dpop_keys]; simp
        have hng : ∀ l' ∈ d.gone, l'.label ≠ l.label := by
          intro l' hl' e
          obtain ⟨i, g1, g2, _⟩ := h.gone l' hl'
          have : i = k := by omega
          subst this
          rw [hd] at g2; cases g2
        refine ⟨_, rfl, ⟨fun i hi => by simp [hget, hi], fun i t' hi ht' => ?_, fun l' hl' => by simp [hl']⟩, ⟨fun hp => .inr ?_, fun _ t' ht' => ?_⟩, ?_⟩
        · dsimp only
          rw [dget_dpop, if_neg]
          rintro rfl
          exact hi (h.inj ht' hd)
        · have := hpos t hd hp
          rw [h1] at this
          cases this
          simp
        · dsimp only at ht'
          rw [hget, if_pos rfl] at ht'
          cases ht'
        · refine ⟨dset_nodup (dpop_nodup h.keys _) _ _, dpop_nodup h.ids _, fun t' ht' => h.small t' ((hids t').1 ht').1, ?_, ?_, ?_, ?_, ?_, ?_, fun hv' => (hv hv').elim⟩
          · intro i hi
            by_contra hlt
            have hk : k < w.completed.length := (List.getElem?_eq_some_iff.1 hc).1
            have hik : i ≠ k := by omega
            have : dget (dset (dpop d.tasks k) k none) i = none := by
              rw [hget, if_neg hik, dget_none]
              exact fun hm => hlt (h.runs i hm)
            exact dget_none.1 this hi
          · intro i t' ht'
            dsimp only at ht' ⊢
            rw [hget] at ht'
            split at ht'
            · cases ht'
            · next hik =>
              rw [dget_dpop, if_neg]
              · exact h.link i t' ht'
              · rintro rfl
                exact hik (h.inj ht' hd)
          · intro t' ht'
            obtain ⟨ht1, ht2⟩ := (hids t').1 ht'
            obtain ⟨i, hi⟩ := h.back t' ht1
            refine ⟨i, ?_⟩
            dsimp only
            rw [hget, if_neg, hi]
            rintro rfl
            rw [hd] at hi
            cases hi
            exact ht2 rfl
          · dsimp only
            rw [List.map_append, List.nodup_append]
            refine ⟨h.once, by simp, ?_⟩
            rintro a ha b hb rfl
            simp only [List.map_cons, List.map_nil, List.mem_singleton] at hb
            obtain ⟨l', hl', e⟩ := List.mem_map.1 ha
            exact hng l' hl' (e.trans hb)
          · intro l' hl'
            dsimp only at hl' ⊢
            rcases List.mem_append.1 hl' with hl' | hl'
            · obtain ⟨i, g1, g2, g3⟩ := h.gone l' hl'
              exact ⟨i, g1, by rw [hget]; split <;> simp [g2], g3⟩
            · rw [List.mem_singleton] at hl'
              subst hl'
              refine ⟨k, h2, by rw [hget, if_pos rfl], hc, fun hp => ?_⟩
              have := hpos t hd hp
              rw [h1] at this
              exact Option.some.inj this
          · intro i hi
            dsimp only at hi ⊢
            rw [hget] at hi
            split at hi
            · next hik => exact ⟨l, by simp, by rw [hik, h2]⟩
            · obtain ⟨l', g1, g2⟩ := h.left i hi
              exact ⟨l', by simp [g1], g2⟩

end TNCO
