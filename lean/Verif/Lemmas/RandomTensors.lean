import Verif.Model.RandomTensors
import Verif.Spec.RandomTensors
import Verif.Lemmas.Dict
import Mathlib.Data.List.Forall2
import Mathlib.Data.List.Perm.Basic
import Mathlib.Data.Finset.Card

/-! The lists of tensors of every index, and the tensors made of them. -/

namespace TNCO
variable {σ : Type} {g : GenRng σ} {enum : Finset ℕ → List ℕ}

theorem pick_length {α : Type} {l : List α} {is : List ℕ} (h : ∀ i ∈ is, i < l.length) : (pick l is).length = is.length := by
  unfold pick
  induction is with
  | nil => rfl
  | cons i is ih =>
    rw [List.filterMap_cons_some (List.getElem?_eq_getElem (h i (by simp))), List.length_cons, List.length_cons,
      ih fun j hj => h j (by simp [hj])]

theorem mem_pick {α : Type} {l : List α} {is : List ℕ} {x : α} : x ∈ pick l is ↔ ∃ i ∈ is, l[i]? = some x := by
  unfold pick
  rw [List.mem_filterMap]

theorem pick_nodup {α : Type} {l : List α} {is : List ℕ} (hl : l.Nodup) (hi : is.Nodup) : (pick l is).Nodup := by
  unfold pick
  refine hi.filterMap fun i j a ha hb => ?_
  rw [Option.mem_def] at ha hb
  obtain ⟨h1, e1⟩ := List.getElem?_eq_some_iff.1 ha
  obtain ⟨h2, e2⟩ := List.getElem?_eq_some_iff.1 hb
  exact (hl.getElem_inj_iff).1 (e1.trans e2.symm)

theorem pick_perm {α : Type} {l : List α} {is : List ℕ} (h : is.Perm (List.range l.length)) : (pick l is).Perm l := by
  have h1 : (pick l is).Perm (pick l (List.range l.length)) := h.filterMap _
  refine h1.trans (.of_eq ?_)
  unfold pick
  clear h1 h is
  induction l with
  | nil => rfl
  | cons a l ih =>
    rw [List.length_cons, List.range_succ_eq_map, List.filterMap_cons_some (by simp : (a :: l)[0]? = some a), List.filterMap_map]
    congr 1

/-- A sample. -/
theorem rngSample_ok (hg : g.Ok) {α : Type} {l : List α} {k : ℤ} (h0 : 0 ≤ k) (hk : k ≤ l.length) (hl : l.Nodup) (s : σ) :
    ∃ xs s', rngSample g l k s = .ok (xs, s') ∧ xs.Nodup ∧ (xs.length : ℤ) = k ∧ ∀ x ∈ xs, x ∈ l := by
  unfold rngSample
  rw [if_neg (by omega)]
  obtain ⟨g1, g2, g3⟩ := hg.sample l.length k.toNat s (by omega)
  refine ⟨_, _, rfl, pick_nodup hl g1, ?_, ?_⟩
  · rw [pick_length g3, g2]; omega
  · intro x hx
    obtain ⟨i, -, hi⟩ := mem_pick.1 hx
    exact List.mem_of_getElem? hi

theorem rngSample_all (hg : g.Ok) {α : Type} (l : List α) (s : σ) :
    ∃ xs s', rngSample g l l.length s = .ok (xs, s') ∧ xs.Perm l := by
  unfold rngSample
  rw [if_neg (by omega)]
  obtain ⟨g1, g2, g3⟩ := hg.sample l.length l.length s (le_refl _)
  refine ⟨_, _, rfl, ?_⟩
  rw [Int.toNat_natCast]
  apply pick_perm
  refine (List.perm_ext_iff_of_nodup g1 List.nodup_range).2 fun i => ?_
  rw [List.mem_range]
  refine ⟨g3 i, fun hi => ?_⟩
  have hsub : (g.sample l.length l.length s).1.toFinset = Finset.range l.length := by
    apply Finset.eq_of_subset_of_card_le
    · intro j hj
      rw [List.mem_toFinset] at hj
      exact Finset.mem_range.2 (g3 j hj)
    · rw [List.toFinset_card_of_nodup g1, g2, Finset.card_range]
  rw [← List.mem_toFinset, hsub, Finset.mem_range]
  exact hi

theorem enum_card (he : EnumOk enum) (s : Finset ℕ) : (enum s).length = s.card := by
  obtain ⟨h1, h2⟩ := he s
  rw [← List.toFinset_card_of_nodup h1]
  congr 1
  ext x
  rw [List.mem_toFinset, h2]

/-- Two tensors with a common index. -/
def RowStep (rows : List (List Owner)) (t t' : ℕ) : Prop := ∃ row ∈ rows, some t ∈ row ∧ some t' ∈ row

/-- Tensors connected through indices. -/
def RowConn (rows : List (List Owner)) : ℕ → ℕ → Prop := Relation.ReflTransGen (RowStep rows)

theorem RowConn.mono {rows rows' : List (List Owner)} (h : ∀ r ∈ rows, r ∈ rows') {t t' : ℕ} (hc : RowConn rows t t') : RowConn rows' t t' := by
  induction hc with
  | refl => exact .refl
  | tail _ hab ih =>
    obtain ⟨r, hr, h1⟩ := hab
    exact ih.tail ⟨r, h r hr, h1⟩

theorem RowConn.symm {rows : List (List Owner)} {t t' : ℕ} (hc : RowConn rows t t') : RowConn rows t' t := by
  induction hc with
  | refl => exact .refl
  | tail _ hab ih =>
    obtain ⟨r, hr, h1, h2⟩ := hab
    exact Relation.ReflTransGen.head ⟨r, hr, h2, h1⟩ ih

/-- A list for an index that `m` different tensors have. -/
structure RowOk (n m : ℕ) (row : List Owner) : Prop where
  nodup : row.Nodup
  lt : ∀ t, some t ∈ row → t < n
  size : (row.filter Option.isSome).length = m

theorem rowOk_some {n : ℕ} {xs : List ℕ} (hn : xs.Nodup) (hlt : ∀ t ∈ xs, t < n) : RowOk n xs.length (xs.map some) := by
  refine ⟨hn.map (Option.some_injective _), fun t ht => ?_, ?_⟩
  · obtain ⟨u, hu, e⟩ := List.mem_map.1 ht
    cases e
    exact hlt t hu
  · rw [List.filter_eq_self.2 (by simp), List.length_map]

theorem rowOk_star {n : ℕ} {xs : List ℕ} (hn : xs.Nodup) (hlt : ∀ t ∈ xs, t < n) : RowOk n xs.length (xs.map some ++ [none]) := by
  obtain ⟨h1, h2, h3⟩ := rowOk_some hn hlt
  refine ⟨List.Nodup.append h1 (by simp) (by simp), fun t ht => ?_, ?_⟩
  · rw [List.mem_append] at ht
    rcases ht with ht | ht
    · exact h2 t ht
    · simp at ht
  · rw [List.filter_append]
    simpa using h3

/-- The loop that connects all tensors. -/
structure GrowOk (n k : ℕ) (G : Grow) : Prop where
  sub : G.used ⊆ Finset.range n
  avail : G.avail = Finset.range n \ G.used
  used : G.used.card + 1 = G.inds.length + k
  rows : ∀ r ∈ G.inds, RowOk n k r ∧ none ∉ r
  mem : ∀ t, t ∈ G.used ↔ ∃ r ∈ G.inds, some t ∈ r
  conn : 2 ≤ k → ∀ t ∈ G.used, ∀ t' ∈ G.used, RowConn G.inds t t'

theorem growInit_ok (hg : g.Ok) (he : EnumOk enum) {n k : ℕ} (hk : k ≤ n) (s : σ) :
    ∃ G s', growInit g enum n k s = .ok (G, s') ∧ GrowOk n k G ∧ G.inds.length = 1 := by
  obtain ⟨xs, s', h1, h2, h3, h4⟩ := rngSample_ok hg (l := enum (Finset.range n)) (k := k) (by omega)
    (by rw [enum_card he, Finset.card_range]; exact_mod_cast hk) (he _).1 s
  have hlt : ∀ t ∈ xs, t < n := fun t ht => Finset.mem_range.1 (((he _).2 t).1 (h4 t ht))
  have hl : xs.length = k := by exact_mod_cast h3
  refine ⟨_, s', by simp only [growInit, h1, bind, Except.bind]; rfl, ?_, rfl⟩
  refine ⟨?_, rfl, ?_, ?_, ?_, ?_⟩
  · intro t ht
    exact Finset.mem_range.2 (hlt t (List.mem_toFinset.1 ht))
  · rw [List.toFinset_card_of_nodup h2, hl]
    simp; omega
  · intro r hr
    rw [List.mem_singleton] at hr
    subst hr
    exact ⟨hl ▸ rowOk_some h2 hlt, by simp⟩
  · intro t
    simp
  · intro _ t ht t' ht'
    refine .single ⟨_, by simp, List.mem_map_of_mem (List.mem_toFinset.1 ht), List.mem_map_of_mem (List.mem_toFinset.1 ht')⟩

theorem growStep_ok (hg : g.Ok) (he : EnumOk enum) {n k : ℕ} (hk : 1 ≤ k) {G : Grow} (h : GrowOk n k G) (hlt : G.used.card < n) (h1k : k ≤ G.used.card) (s : σ) :
    ∃ G' s', growStep g enum k G s = .ok (G', s') ∧ GrowOk n k G' ∧ G'.inds.length = G.inds.length + 1 := by
  have hcard : G.avail.card = n - G.used.card := by
    rw [h.avail, Finset.card_sdiff_of_subset h.sub, Finset.card_range]
  obtain ⟨xs, s1, a1, a2, a3, a4⟩ := rngSample_ok hg (l := enum G.avail) (k := 1) (by omega) (by rw [enum_card he, hcard]; omega) (he _).1 s
  obtain ⟨x, rfl⟩ := List.length_eq_one_iff.1 (by exact_mod_cast a3 : xs.length = 1)
  obtain ⟨row, s2, b1, b2, b3, b4⟩ := rngSample_ok hg (l := enum G.used) (k := (k : ℤ) - 1) (by omega) (by rw [enum_card he]; omega) (he _).1 s1
  have hx : x ∈ G.avail := ((he _).2 x).1 (a4 x (by simp))
  rw [h.avail, Finset.mem_sdiff] at hx
  have hru : ∀ t ∈ row, t ∈ G.used := fun t ht => ((he _).2 t).1 (b4 t ht)
  have hnd : (row ++ [x]).Nodup := List.Nodup.append b2 (by simp) (by
    intro t ht ht'
    rw [List.mem_singleton] at ht'
    subst ht'
    exact hx.2 (hru t ht))
  have hlt' : ∀ t ∈ row ++ [x], t < n := by
    intro t ht
    rcases List.mem_append.1 ht with ht | ht
    · exact Finset.mem_range.1 (h.sub (hru t ht))
    · rw [List.mem_singleton] at ht; subst ht
      exact Finset.mem_range.1 hx.1
  have hl : (row ++ [x]).length = k := by
    rw [List.length_append, List.length_singleton]; omega
  refine ⟨⟨G.avail \ {x}, G.used ∪ {x}, G.inds ++ [(row ++ [x]).map some]⟩, s2, ?_, ?_, by simp⟩
  · simp only [growStep, a1, bind, Except.bind, b1]
  · refine ⟨?_, ?_, ?_, ?_, ?_, ?_⟩
    · intro t ht
      rcases Finset.mem_union.1 ht with ht | ht
      · exact h.sub ht
      · rw [Finset.mem_singleton] at ht; subst ht; exact hx.1
    · rw [h.avail, sdiff_sdiff_left, Finset.sup_eq_union]
    · have : (G.used ∪ {x}).card = G.used.card + 1 := by
        rw [Finset.card_union_of_disjoint (by simpa using hx.2), Finset.card_singleton]
      have := h.used
      simp only [List.length_append, List.length_singleton]
      omega
    · intro r hr
      rcases List.mem_append.1 hr with hr | hr
      · exact h.rows r hr
      · rw [List.mem_singleton] at hr
        subst hr
        exact ⟨hl ▸ rowOk_some hnd hlt', by simp⟩
    · intro t
      simp only [Finset.mem_union, Finset.mem_singleton, List.mem_append, List.mem_singleton]
      constructor
      · rintro (ht | rfl)
        · obtain ⟨r, hr, hm⟩ := (h.mem t).1 ht
          exact ⟨r, Or.inl hr, hm⟩
        · exact ⟨_, Or.inr rfl, by simp⟩
      · rintro ⟨r, hr | rfl, hm⟩
        · exact Or.inl ((h.mem t).2 ⟨r, hr, hm⟩)
        · obtain ⟨u, hu, e⟩ := List.mem_map.1 hm
          cases e
          rcases List.mem_append.1 hu with hu | hu
          · exact Or.inl (hru t hu)
          · exact Or.inr (by simpa using hu)
    · intro h2
      have key : ∀ t ∈ G.used, RowConn (G.inds ++ [(row ++ [x]).map some]) t x := by
        intro t ht
        obtain ⟨y, hy⟩ : ∃ y, y ∈ row := List.exists_mem_of_length_pos (by omega)
        refine (RowConn.mono (fun r hr => List.mem_append_left _ hr) (h.conn h2 t ht y (hru y hy))).tail ⟨(row ++ [x]).map some, by simp, ?_, ?_⟩
        · exact List.mem_map_of_mem (List.mem_append_left _ hy)
        · exact List.mem_map_of_mem (by simp)
      intro t ht t' ht'
      simp only [Finset.mem_union, Finset.mem_singleton] at ht ht'
      rcases ht with ht | rfl
      · rcases ht' with ht' | rfl
        · exact RowConn.mono (fun r hr => List.mem_append_left _ hr) (h.conn h2 t ht t' ht')
        · exact key t ht
      · rcases ht' with ht' | rfl
        · exact (key t' ht').symm
        · exact .refl

theorem growLoop_ok (hg : g.Ok) (he : EnumOk enum) {n k : ℕ} (hk : 1 ≤ k) (m : ℕ) {G : Grow} (h : GrowOk n k G) (hlt : G.used.card + m ≤ n)
    (h1k : k ≤ G.used.card) (s : σ) :
    ∃ G' s', growLoop g enum k m G s = .ok (G', s') ∧ GrowOk n k G' ∧ G'.inds.length = G.inds.length + m := by
  induction m generalizing G s with
  | zero => exact ⟨G, s, rfl, h, rfl⟩
  | succ m ih =>
    obtain ⟨G1, s1, a1, a2, a3⟩ := growStep_ok hg he hk h (by omega) h1k s
    have hu := h.used
    have hu1 := a2.used
    obtain ⟨G2, s2, b1, b2, b3⟩ := ih a2 (by omega) (by omega) s1
    refine ⟨G2, s2, ?_, b2, by omega⟩
    simp only [growLoop, a1, bind, Except.bind, b1]

theorem innerRows_ok (hg : g.Ok) {n k : ℕ} (hk : k ≤ n) (m : ℕ) (s : σ) :
    ∃ rows s', innerRows g n k m s = .ok (rows, s') ∧ rows.length = m ∧ ∀ r ∈ rows, RowOk n k r ∧ none ∉ r := by
  induction m generalizing s with
  | zero => exact ⟨[], s, rfl, rfl, by simp⟩
  | succ m ih =>
    obtain ⟨xs, s1, a1, a2, a3, a4⟩ := rngSample_ok hg (l := List.range n) (k := k) (by omega) (by simpa using hk) List.nodup_range s
    obtain ⟨rows, s2, b1, b2, b3⟩ := ih s1
    refine ⟨xs.map some :: rows, s2, ?_, by simp [b2], ?_⟩
    · simp only [innerRows, a1, bind, Except.bind, b1]
    · intro r hr
      rcases List.mem_cons.1 hr with rfl | hr
      · have hl : xs.length = k := by exact_mod_cast a3
        exact ⟨hl ▸ rowOk_some a2 fun t ht => List.mem_range.1 (a4 t ht), by simp⟩
      · exact b3 r hr

theorem outRows_ok (hg : g.Ok) {n : ℕ} (hn : 0 < n) (m : ℕ) (s : σ) :
    ∃ rows s', outRows g n m s = .ok (rows, s') ∧ rows.length = m ∧ ∀ r ∈ rows, RowOk n 1 r ∧ none ∈ r := by
  induction m generalizing s with
  | zero => exact ⟨[], s, rfl, rfl, by simp⟩
  | succ m ih =>
    obtain ⟨rows, s2, b1, b2, b3⟩ := ih (g.randrange n s).2
    have h1 : rngRange g n s = .ok (g.randrange n s) := by unfold rngRange; rw [if_neg (by omega)]
    refine ⟨[some (g.randrange n s).1, none] :: rows, s2, ?_, by simp [b2], ?_⟩
    · simp only [outRows, h1, bind, Except.bind, b1]
    · intro r hr
      rcases List.mem_cons.1 hr with rfl | hr
      · exact ⟨rowOk_star (xs := [(g.randrange n s).1]) (by simp) (by simpa using hg.range n s hn), by simp⟩
      · exact b3 r hr

theorem hyperRows_ok (hg : g.Ok) {n k : ℕ} (hk : k ≤ n) (h1 : 1 ≤ k) (m : ℕ) (s : σ) :
    ∃ rows s', hyperRows g n k m s = .ok (rows, s') ∧ rows.length = m ∧ ∀ r ∈ rows, RowOk n (k - 1) r ∧ none ∈ r := by
  induction m generalizing s with
  | zero => exact ⟨[], s, rfl, rfl, by simp⟩
  | succ m ih =>
    obtain ⟨xs, s1, a1, a2, a3, a4⟩ := rngSample_ok hg (l := List.range n) (k := (k : ℤ) - 1) (by omega) (by simp; omega) List.nodup_range s
    obtain ⟨rows, s2, b1, b2, b3⟩ := ih s1
    refine ⟨(xs.map some ++ [none]) :: rows, s2, ?_, by simp [b2], ?_⟩
    · simp only [hyperRows, a1, bind, Except.bind, b1]
    · intro r hr
      rcases List.mem_cons.1 hr with rfl | hr
      · have hl : xs.length = k - 1 := by omega
        exact ⟨hl ▸ rowOk_star a2 fun t ht => List.mem_range.1 (a4 t ht), by simp⟩
      · exact b3 r hr

/-- The events `tensors[t].append(x)`. -/
def ownerEvents (rows : List (List Owner)) (i : ℕ) : List (Owner × ℕ) := (rows.zipIdx i).flatMap fun e => e.1.map fun t => (t, e.2)

theorem mem_ownerEvents {rows : List (List Owner)} {i : ℕ} {t : Owner} {x : ℕ} :
    (t, x) ∈ ownerEvents rows i ↔ ∃ j row, x = i + j ∧ rows[j]? = some row ∧ t ∈ row := by
  unfold ownerEvents
  rw [List.mem_flatMap]
  constructor
  · rintro ⟨⟨row, y⟩, h1, h2⟩
    obtain ⟨u, hu, e⟩ := List.mem_map.1 h2
    cases e
    obtain ⟨h3, h4, h5⟩ := List.mem_zipIdx h1
    exact ⟨y - i, row, by omega, by rw [h5]; exact List.getElem?_eq_getElem (by omega), hu⟩
  · rintro ⟨j, row, rfl, h2, h3⟩
    refine ⟨(row, i + j), ?_, List.mem_map_of_mem h3⟩
    rw [List.mem_iff_getElem?]
    refine ⟨j, ?_⟩
    rw [List.getElem?_zipIdx, h2]
    simp

theorem ownerEvents_nodup {rows : List (List Owner)} (h : ∀ r ∈ rows, r.Nodup) (i : ℕ) : (ownerEvents rows i).Nodup := by
  induction rows generalizing i with
  | nil => simp [ownerEvents]
  | cons r rows ih =>
    have e : ownerEvents (r :: rows) i = (r.map fun t => (t, i)) ++ ownerEvents rows (i + 1) := by
      simp [ownerEvents, List.zipIdx_cons]
    rw [e]
    refine List.Nodup.append ((h r (by simp)).map fun a b hab => by simpa using hab) (ih (fun r hr => h r (by simp [hr])) (i + 1)) ?_
    intro ⟨t, x⟩ h1 h2
    obtain ⟨u, -, e1⟩ := List.mem_map.1 h1
    obtain ⟨j, -, e2, -⟩ := mem_ownerEvents.1 h2
    simp only [Prod.mk.injEq] at e1
    omega

theorem owners_fold (E : List (Owner × ℕ)) (D : List (Owner × List ℕ)) (hn : (D.map Prod.fst).Nodup) :
    ((E.foldl (fun D e => addOwner D e.1 e.2) D).map Prod.fst).Nodup ∧ ∀ t,
      (t ∈ (E.foldl (fun D e => addOwner D e.1 e.2) D).map Prod.fst ↔ t ∈ D.map Prod.fst ∨ t ∈ E.map Prod.fst) ∧
      (dget (E.foldl (fun D e => addOwner D e.1 e.2) D) t).getD [] = (dget D t).getD [] ++ (E.filter fun e => e.1 = t).map Prod.snd := by
  induction E generalizing D with
  | nil => exact ⟨hn, fun t => by simp⟩
  | cons e E ih =>
    rw [List.foldl_cons]
    obtain ⟨h1, h2⟩ := ih (addOwner D e.1 e.2) (dset_nodup hn _ _)
    refine ⟨h1, fun t => ?_⟩
    obtain ⟨h3, h4⟩ := h2 t
    constructor
    · rw [h3]
      have : t ∈ (addOwner D e.1 e.2).map Prod.fst ↔ t ∈ D.map Prod.fst ∨ t = e.1 := by
        rw [← not_iff_not, ← dget_none, addOwner, dget_dset]
        by_cases ht : t = e.1
        · simp [ht]
        · simp [ht, dget_none]
      rw [this, List.map_cons, List.mem_cons]
      tauto
    · rw [h4, addOwner, dget_dset]
      by_cases ht : t = e.1
      · subst ht
        simp
      · rw [if_neg ht, List.filter_cons_of_neg (by simpa using fun h => ht h.symm)]

/-- All lists of an attempt. `deg x` is the number of tensors of index `x`, `first` the first output index. -/
structure RowsOk (n k first : ℕ) (deg : ℕ → ℕ) (rows : List (List Owner)) : Prop where
  row : ∀ (x : ℕ) row, rows[x]? = some row → RowOk n (deg x) row ∧ (none ∈ row ↔ first ≤ x)
  cover : ∀ t < n, ∃ r ∈ rows, some t ∈ r
  conn : 2 ≤ k → ∀ t < n, ∀ t' < n, RowConn rows t t'

/-- The dictionary of tensors. -/
theorem byOwner_spec {rows : List (List Owner)} (h : ∀ r ∈ rows, r.Nodup) :
    ((byOwner rows).map Prod.fst).Nodup ∧ (∀ t, t ∈ (byOwner rows).map Prod.fst ↔ ∃ r ∈ rows, t ∈ r) ∧
    (∀ t, ((dget (byOwner rows) t).getD []).Nodup) ∧
    ∀ t x, x ∈ (dget (byOwner rows) t).getD [] ↔ ∃ row, rows[x]? = some row ∧ t ∈ row := by
  have e : byOwner rows = (ownerEvents rows 0).foldl (fun D e => addOwner D e.1 e.2) [] := rfl
  obtain ⟨h1, h2⟩ := owners_fold (ownerEvents rows 0) [] (by simp)
  rw [← e] at h1 h2
  refine ⟨h1, fun t => ?_, fun t => ?_, fun t x => ?_⟩
  · rw [(h2 t).1]
    constructor
    · rintro (h' | h')
      · simp at h'
      · obtain ⟨⟨u, x⟩, hm, rfl⟩ := List.mem_map.1 h'
        obtain ⟨j, row, -, hr, hm⟩ := mem_ownerEvents.1 hm
        exact ⟨row, List.mem_of_getElem? hr, hm⟩
    · rintro ⟨r, hr, hm⟩
      obtain ⟨j, hj⟩ := List.mem_iff_getElem?.1 hr
      exact Or.inr (List.mem_map.2 ⟨(t, 0 + j), mem_ownerEvents.2 ⟨j, r, rfl, hj, hm⟩, rfl⟩)
  · rw [(h2 t).2]
    simp only [dget, List.find?_nil, Option.map_none, Option.getD_none, List.nil_append]
    refine List.Nodup.map_on ?_ ((ownerEvents_nodup h 0).filter _)
    rintro ⟨a, x⟩ ha ⟨b, y⟩ hb hxy
    simp only [List.mem_filter, decide_eq_true_eq] at ha hb
    simp only at hxy
    rw [ha.2, hb.2, hxy]
  · rw [(h2 t).2]
    simp only [dget, List.find?_nil, Option.map_none, Option.getD_none, List.nil_append, List.mem_map, List.mem_filter, decide_eq_true_eq]
    constructor
    · rintro ⟨⟨a, y⟩, ⟨hm, rfl⟩, rfl⟩
      obtain ⟨j, row, hx, hr, hm⟩ := mem_ownerEvents.1 hm
      simp only [Nat.zero_add] at hx
      subst hx
      exact ⟨row, hr, hm⟩
    · rintro ⟨row, hr, hm⟩
      exact ⟨(t, x), ⟨mem_ownerEvents.2 ⟨x, row, by simp, hr, hm⟩, rfl⟩, rfl⟩

theorem permuteAll_ok (hg : g.Ok) (l : List (List ℕ)) (s : σ) :
    ∃ ts s', permuteAll g l s = .ok (ts, s') ∧ List.Forall₂ List.Perm ts l := by
  induction l generalizing s with
  | nil => exact ⟨[], s, rfl, .nil⟩
  | cons xs l ih =>
    obtain ⟨ys, s1, a1, a2⟩ := rngSample_all hg xs s
    obtain ⟨zs, s2, b1, b2⟩ := ih s1
    refine ⟨ys :: zs, s2, ?_, .cons a2 b2⟩
    simp only [permuteAll, a1, bind, Except.bind, b1]

end TNCO
