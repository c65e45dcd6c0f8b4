import Verif.Lemmas.RandomPathAll
import Verif.Props.MergeSplit
import Verif.Lemmas.Trace

/-!
# C27: random contraction paths
-/

namespace TNCO
open Linear
variable {ι σ : Type} [DecidableEq ι]

/-- Tensor `i` has index `x`. -/
def Holds (tsInds : List (List ι)) (i : ℕ) (x : ι) : Prop := x ∈ tsInds.getD i []

/-- Some tensor of `a` and some tensor of `b` have a common index. -/
def Share (tsInds : List (List ι)) (a b : Term) : Prop :=
  ∃ x, (∃ i ∈ a.tensors, Holds tsInds i x) ∧ ∃ j ∈ b.tensors, Holds tsInds j x

/-- Two indices are in the same connected component of the network. -/
def ConnInds (tsInds : List (List ι)) : ι → ι → Prop := Relation.EqvGen fun x y => ∃ xs ∈ tsInds, x ∈ xs ∧ y ∈ xs

/-- The number of an index. -/
def indexNo (tsInds : List (List ι)) (x : ι) : ℕ := (uniqueEverseen tsInds.flatten).idxOf x

theorem indexNo_lt {tsInds : List (List ι)} {x : ι} (h : x ∈ tsInds.flatten) :
    indexNo tsInds x < (uniqueEverseen tsInds.flatten).length :=
  List.idxOf_lt_length_of_mem (mem_uniqueEverseen.2 h)

theorem indexNo_inj {tsInds : List (List ι)} {x y : ι} (hx : x ∈ tsInds.flatten) (hy : y ∈ tsInds.flatten)
    (h : indexNo tsInds x = indexNo tsInds y) : x = y := by
  by_contra hne
  exact idxOf_ne (mem_uniqueEverseen.2 hx) (mem_uniqueEverseen.2 hy) hne h

theorem Holds.mem {tsInds : List (List ι)} {i : ℕ} {x : ι} (h : Holds tsInds i x) : x ∈ tsInds.flatten := by
  unfold Holds at h
  by_cases hi : i < tsInds.length
  · rw [List.getD_eq_getElem _ _ hi] at h
    exact List.mem_flatten.2 ⟨_, List.getElem_mem _, h⟩
  · rw [List.getD_eq_default _ _ (by omega)] at h; simp at h

theorem mem_lab_remap {tsInds : List (List ι)} {i a : ℕ} :
    a ∈ lab (remapInds tsInds) i ↔ ∃ x, Holds tsInds i x ∧ indexNo tsInds x = a := by
  unfold lab remapInds Holds
  by_cases hi : i < tsInds.length
  · rw [List.getD_eq_getElem _ _ (by simpa using hi), List.getD_eq_getElem _ _ hi, List.getElem_map, List.mem_toFinset,
      List.mem_map]
    rfl
  · rw [List.getD_eq_default _ _ (by simpa using hi), List.getD_eq_default _ _ (by omega)]
    simp

theorem mem_lab_remap' {tsInds : List (List ι)} {i : ℕ} {x : ι} (hx : x ∈ tsInds.flatten) :
    indexNo tsInds x ∈ lab (remapInds tsInds) i ↔ Holds tsInds i x := by
  rw [mem_lab_remap]
  constructor
  · rintro ⟨y, hy, e⟩
    rwa [indexNo_inj hx hy.mem e.symm]
  · intro h; exact ⟨x, h, rfl⟩

theorem conn_of_sameTensor {tsInds : List (List ι)} {a b : ℕ}
    (h : Relation.EqvGen (SameTensor (remapInds tsInds)) a b) :
    a = b ∨ ∃ x y, x ∈ tsInds.flatten ∧ y ∈ tsInds.flatten ∧ indexNo tsInds x = a ∧ indexNo tsInds y = b ∧ ConnInds tsInds x y := by
  induction h with
  | rel a b hab =>
    obtain ⟨t, ht, h1, h2⟩ := hab
    obtain ⟨xs, hxs, rfl⟩ := List.mem_map.1 ht
    rw [List.mem_toFinset, List.mem_map] at h1 h2
    obtain ⟨x, hx, rfl⟩ := h1
    obtain ⟨y, hy, rfl⟩ := h2
    exact Or.inr ⟨x, y, List.mem_flatten.2 ⟨xs, hxs, hx⟩, List.mem_flatten.2 ⟨xs, hxs, hy⟩, rfl, rfl,
      .rel _ _ ⟨xs, hxs, hx, hy⟩⟩
  | refl a => exact Or.inl rfl
  | symm a b _ ih =>
    rcases ih with rfl | ⟨x, y, h1, h2, h3, h4, h5⟩
    · exact Or.inl rfl
    · exact Or.inr ⟨y, x, h2, h1, h4, h3, .symm _ _ h5⟩
  | trans a b c _ _ ih1 ih2 =>
    rcases ih1 with rfl | ⟨x, y, h1, h2, h3, h4, h5⟩
    · exact ih2
    · rcases ih2 with rfl | ⟨x', y', h1', h2', h3', h4', h5'⟩
      · exact Or.inr ⟨x, y, h1, h2, h3, h4, h5⟩
      · have : y = x' := indexNo_inj h2 h1' (h4.trans h3'.symm)
        subst this
        exact Or.inr ⟨x, y', h1, h2', h3, h4', .trans _ _ _ h5 h5'⟩

theorem mapM_except_ok {α β ε : Type} {f : α → Except ε β} {g : α → β} {l : List α} (h : ∀ x ∈ l, f x = .ok (g x)) :
    l.mapM f = .ok (l.map g) := by
  induction l with
  | nil => rfl
  | cons a l ih =>
    rw [List.mapM_cons, h a (by simp), ih fun x hx => h x (by simp [hx])]
    rfl

theorem termShare_same {ts0 : List (Finset ℕ)} {t u : Term} (h : t.Same u) (hs : TermShare ts0 u) : TermShare ts0 t := by
  obtain ⟨a, b, rfl, x, ⟨i, hi, hxi⟩, ⟨j, hj, hxj⟩⟩ := hs
  cases h with
  | pair h1 h2 => exact ⟨_, _, rfl, x, ⟨i, (same_tensors h1 i).2 hi, hxi⟩, ⟨j, (same_tensors h2 j).2 hj, hxj⟩⟩
  | swap h1 h2 => exact ⟨_, _, rfl, x, ⟨j, (same_tensors h1 j).2 hj, hxj⟩, ⟨i, (same_tensors h2 i).2 hi, hxi⟩⟩

theorem forall2_mem_right {l m : List Term} (h : List.Forall₂ Term.Same l m) {u} (hu : u ∈ m) : ∃ t ∈ l, t.Same u := by
  induction h with
  | nil => cases hu
  | cons h _ ih =>
    rcases List.mem_cons.1 hu with rfl | hu
    · exact ⟨_, by simp, h⟩
    · obtain ⟨t, ht, hs⟩ := ih hu
      exact ⟨t, by simp [ht], hs⟩

theorem share_of_termShare {tsInds : List (List ι)} {t : Term} (h : TermShare (remapInds tsInds) t) :
    ∃ a b, t = .pair a b ∧ Share tsInds a b := by
  obtain ⟨a, b, rfl, k, ⟨i, hi, hxi⟩, ⟨j, hj, hxj⟩⟩ := h
  obtain ⟨x, hx, rfl⟩ := mem_lab_remap.1 hxi
  exact ⟨a, b, rfl, x, ⟨i, hi, hx⟩, j, hj, (mem_lab_remap' hx.mem).1 hxj⟩

/-- What a label path gives as a linear path. -/
theorem PathOk.linear {ts0 : List (Finset ℕ)} {col : ℕ → ℕ} {c : ℕ} {path : List (ℕ × ℕ × ℕ)} (h : PathOk ts0 col c path) :
    linearize (List.range ts0.length) path = .ok (lin (List.range ts0.length) path) ∧
    ValidPath ts0.length (lin (List.range ts0.length) path) ∧
    List.Forall₂ Term.Same (trace (initTerms ts0.length) (lin (List.range ts0.length) path)) (prods .tensor path) ∧
    ∀ k, Touches ts0.length (lin (List.range ts0.length) path) k → ∃ x ∈ lab ts0 k, col x = c := by
  obtain ⟨σ', h1, -, h3⟩ := lin_spec List.nodup_range h.ok .tensor .tensor fun a _ => .tensor a
  refine ⟨linearize_eq List.pairwise_lt_range h.inc h.ok, ⟨_, h1⟩, h3, ?_⟩
  rintro k ⟨t, ht, hk⟩
  obtain ⟨u, hu, hs⟩ := forall2_mem h3 ht
  obtain ⟨a, ha, hka⟩ := (prods_tensors (c := path) .tensor k).1 ⟨u, hu, (same_tensors hs k).1 hk⟩
  simp only [Term.tensors, List.mem_singleton] at hka
  subst hka
  exact h.input k ha

/-- Values that appear earlier in a list keep doing so when repeated values are dropped. -/
theorem uniqueLoop_idxOf {α : Type} [DecidableEq α] (l seen : List α) {a b : α} (ha : a ∈ l) (hb : b ∈ l) (ha' : a ∉ seen)
    (hb' : b ∉ seen) : (uniqueLoop seen l).idxOf a < (uniqueLoop seen l).idxOf b ↔ l.idxOf a < l.idxOf b := by
  induction l generalizing seen with
  | nil => cases ha
  | cons x l ih =>
    unfold uniqueLoop
    by_cases hx : x ∈ seen
    · have h1 : x ≠ a := fun e => ha' (e ▸ hx)
      have h2 : x ≠ b := fun e => hb' (e ▸ hx)
      rw [if_pos hx, List.idxOf_cons_ne _ h1, List.idxOf_cons_ne _ h2,
        ih seen ((List.mem_cons.1 ha).resolve_left h1.symm) ((List.mem_cons.1 hb).resolve_left h2.symm) ha' hb']
      omega
    · rw [if_neg hx]
      by_cases h1 : x = a <;> by_cases h2 : x = b
      · subst h1; subst h2; simp
      · subst h1
        rw [List.idxOf_cons_self, List.idxOf_cons_self, List.idxOf_cons_ne _ h2, List.idxOf_cons_ne _ h2]
        omega
      · subst h2
        rw [List.idxOf_cons_self, List.idxOf_cons_self]
        omega
      · rw [List.idxOf_cons_ne _ h1, List.idxOf_cons_ne _ h2, List.idxOf_cons_ne _ h1, List.idxOf_cons_ne _ h2]
        have := ih (x :: seen) ((List.mem_cons.1 ha).resolve_left (Ne.symm h1)) ((List.mem_cons.1 hb).resolve_left (Ne.symm h2))
          (by simp [Ne.symm h1, ha']) (by simp [Ne.symm h2, hb'])
        omega

theorem uniqueEverseen_idxOf {α : Type} [DecidableEq α] {l : List α} {a b : α} (ha : a ∈ l) (hb : b ∈ l) :
    (uniqueEverseen l).idxOf a < (uniqueEverseen l).idxOf b ↔ l.idxOf a < l.idxOf b :=
  uniqueLoop_idxOf l [] ha hb (by simp) (by simp)

theorem idxOf_le_of_getElem {α : Type} [DecidableEq α] {l : List α} {b : α} {i : ℕ} (hi : i < l.length) (h : l[i] = b) :
    l.idxOf b ≤ i := by
  induction l generalizing i with
  | nil => simp at hi
  | cons x l ih =>
    by_cases hx : x = b
    · subst hx; rw [List.idxOf_cons_self]; omega
    · rw [List.idxOf_cons_ne _ hx]
      cases i with
      | zero => exact absurd h hx
      | succ i =>
        have := ih (i := i) (by simpa using hi) (by simpa using h)
        omega

/-- C27: whatever the random numbers, the search ends (after at most as many iterations per component as
there are tensors and indices) and returns one valid path for each connected component of the
network; the paths contract different tensors, every contraction is between two tensors that share an index, and
any two tensors that share an index end up in the same tensor. The paths are in the order in which indices of the
components appear. -/
theorem C27_paths (g : PyRng σ) (hg : g.Ok) (enum : Finset ℕ → List ℕ) (he : EnumOk enum) (s : σ) (tsInds : List (List ι)) :
    ∃ paths, (∀ fuel, tsInds.length + (uniqueEverseen tsInds.flatten).length < fuel →
        randomPaths g enum fuel s tsInds = some (.ok paths)) ∧
      (∀ p ∈ paths, ValidPath tsInds.length p) ∧ Disconnected tsInds.length paths ∧
      (∀ p ∈ paths, ∀ t ∈ trace (initTerms tsInds.length) p, ∃ a b, t = .pair a b ∧ Share tsInds a b) ∧
      (∀ i j x, i ≠ j → Holds tsInds i x → Holds tsInds j x →
        ∃ p ∈ paths, ∃ t ∈ trace (initTerms tsInds.length) p, i ∈ t.tensors ∧ j ∈ t.tensors) ∧
      ∃ comp : ι → ℕ, (∀ x ∈ tsInds.flatten, comp x < paths.length) ∧
        (∀ x ∈ tsInds.flatten, ∀ y ∈ tsInds.flatten, comp x = comp y ↔ ConnInds tsInds x y) ∧
        (∀ k < paths.length, ∃ x ∈ tsInds.flatten, comp x = k) ∧
        (∀ k (hk : k < paths.length) i, Touches tsInds.length paths[k] i → ∃ x, Holds tsInds i x ∧ comp x = k) ∧
        ∀ x ∈ tsInds.flatten, ∀ y ∈ tsInds.flatten, comp x < comp y →
          ∃ x' ∈ tsInds.flatten, comp x' = comp x ∧ tsInds.flatten.idxOf x' < tsInds.flatten.idxOf y := by
  set ts := remapInds tsInds with hts
  have hlen : ts.length = tsInds.length := by simp [hts, remapInds]
  set m := (uniqueEverseen tsInds.flatten).length with hm
  set col := colorInds enum id (fun x => {x}) ts with hcol
  obtain ⟨hc1, hc2⟩ := colorInds_init he ts
  rw [← hcol] at hc1 hc2
  set cs := uniqueEverseen ((List.range m).map col) with hcs
  have hmem : ∀ t x, x ∈ lab ts t → x < m := by
    intro t x hx
    obtain ⟨y, hy, rfl⟩ := mem_lab_remap.1 hx
    exact indexNo_lt hy.mem
  have labmem : ∀ t x, x ∈ lab ts t → lab ts t ∈ ts := by
    intro t x hx
    have := lt_of_mem_lab hx
    unfold lab
    rw [List.getD_eq_getElem _ _ this]
    exact List.getElem_mem _
  have hP : Pending ts col cs (initR ts) := by
    refine ⟨le_refl _, fun _ _ => rfl, ?_, ?_, fun _ _ => rfl, fun _ _ => rfl⟩
    · intro t x y hx hy
      exact hc1 _ (labmem t x hx) x hx y hy
    · intro t x ht hx
      have := lt_of_mem_lab hx
      have e : (initR ts).ts = ts := rfl
      rw [e] at this
      omega
  obtain ⟨s', lps, r1, r2⟩ := rcAll_spec hg hmem cs (uniqueEverseen_nodup _) s (initR ts) hP
  have hlps : ∀ p ∈ lps, ∃ c ∈ cs, PathOk ts col c p := by
    intro p hp
    obtain ⟨i, hi, rfl⟩ := List.getElem_of_mem hp
    have hl := r2.length_eq
    exact ⟨cs[i], List.getElem_mem _, (List.forall₂_iff_get.1 r2).2 i (by omega) hi⟩
  have hget : ∀ k (hk : k < lps.length) (hk' : k < cs.length), PathOk ts col cs[k] lps[k] := fun k hk hk' =>
    (List.forall₂_iff_get.1 r2).2 k hk' hk
  have hl := r2.length_eq
  set paths := lps.map (lin (List.range ts.length)) with hpaths
  have hcolmem : ∀ x ∈ tsInds.flatten, col (indexNo tsInds x) ∈ cs := fun x hx =>
    mem_uniqueEverseen.2 (List.mem_map.2 ⟨_, List.mem_range.2 (indexNo_lt hx), rfl⟩)
  have hflat : ∀ a < m, ∃ x ∈ tsInds.flatten, indexNo tsInds x = a := by
    intro a ha
    refine ⟨(uniqueEverseen tsInds.flatten)[a], mem_uniqueEverseen.1 (List.getElem_mem _), ?_⟩
    exact (uniqueEverseen_nodup _).idxOf_getElem a ha
  refine ⟨paths, ?_, ?_, ?_, ?_, ?_, fun x => cs.idxOf (col (indexNo tsInds x)), ?_, ?_, ?_, ?_, ?_⟩
  · intro fuel hf
    unfold randomPaths groupInds
    simp only [← hts, ← hm, ← hcol, ← hcs]
    rw [r1 fuel (by omega)]
    simp only
    rw [mapM_except_ok (g := lin (List.range ts.length))]
    intro p hp
    obtain ⟨c, -, h⟩ := hlps p hp
    exact h.linear.1
  · intro p hp
    obtain ⟨q, hq, rfl⟩ := List.mem_map.1 hp
    obtain ⟨c, -, h⟩ := hlps q hq
    rw [← hlen]; exact h.linear.2.1
  · unfold Disconnected
    rw [hpaths, List.pairwise_map, List.pairwise_iff_getElem]
    rintro i j hi hj hij k ⟨h1, h2⟩
    rw [← hlen] at h1 h2
    obtain ⟨x, hx, hxc⟩ := (hget i hi (by omega)).linear.2.2.2 k h1
    obtain ⟨y, hy, hyc⟩ := (hget j hj (by omega)).linear.2.2.2 k h2
    have e := hc1 _ (labmem k x hx) x hx y hy
    rw [hxc, hyc] at e
    have hn : cs.Nodup := uniqueEverseen_nodup _
    have := (hn.getElem_inj_iff (hi := by omega) (hj := by omega)).1 e
    omega
  · intro p hp t ht
    obtain ⟨q, hq, rfl⟩ := List.mem_map.1 hp
    obtain ⟨c, -, h⟩ := hlps q hq
    rw [← hlen] at ht
    obtain ⟨u, hu, hs⟩ := forall2_mem h.linear.2.2.1 ht
    exact share_of_termShare (termShare_same hs (h.share u hu))
  · intro i j x hij hi hj
    have hi' := (mem_lab_remap' hi.mem).2 hi
    have hj' := (mem_lab_remap' hj.mem).2 hj
    have hk := List.idxOf_lt_length_of_mem (hcolmem x hi.mem)
    have hcx := List.getElem_idxOf hk
    have hP := hget _ (by omega) hk
    obtain ⟨u, hu, h1, h2⟩ := hP.joined i (lt_of_mem_lab hi') j (lt_of_mem_lab hj') hij (indexNo tsInds x) hcx.symm hi' hj'
    obtain ⟨t, ht, hs⟩ := forall2_mem_right hP.linear.2.2.1 hu
    rw [hlen] at ht
    exact ⟨_, List.mem_map.2 ⟨lps[cs.idxOf (col (indexNo tsInds x))], List.getElem_mem _, by rw [hlen]⟩, t, ht,
      (same_tensors hs i).2 h1, (same_tensors hs j).2 h2⟩
  · intro x hx
    have := List.idxOf_lt_length_of_mem (hcolmem x hx)
    rw [hpaths, List.length_map]
    show cs.idxOf (col (indexNo tsInds x)) < lps.length
    omega
  · intro x hx y hy
    constructor
    · intro h
      have hcc : col (indexNo tsInds x) = col (indexNo tsInds y) := by
        by_contra hne
        exact idxOf_ne (hcolmem x hx) (hcolmem y hy) hne h
      rcases conn_of_sameTensor (hc2 _ _ hcc) with h1 | ⟨x', y', h1, h2, h3, h4, h5⟩
      · rw [indexNo_inj hx hy h1]; exact .refl _
      · rw [← indexNo_inj h1 hx h3, ← indexNo_inj h2 hy h4]; exact h5
    · intro h
      have : col (indexNo tsInds x) = col (indexNo tsInds y) := by
        clear hx hy
        induction h with
        | rel x y hxy =>
          obtain ⟨xs, hxs, h1, h2⟩ := hxy
          refine hc1 _ (List.mem_map.2 ⟨xs, hxs, rfl⟩) _ ?_ _ ?_
          · exact List.mem_toFinset.2 (List.mem_map.2 ⟨x, h1, rfl⟩)
          · exact List.mem_toFinset.2 (List.mem_map.2 ⟨y, h2, rfl⟩)
        | refl x => rfl
        | symm x y _ ih => exact ih.symm
        | trans x y z _ _ ih1 ih2 => exact ih1.trans ih2
      simp only [this]
  · intro k hk
    rw [hpaths, List.length_map] at hk
    have hk' : k < cs.length := by omega
    have : cs[k] ∈ cs := List.getElem_mem _
    obtain ⟨a, ha, hac⟩ := List.mem_map.1 (mem_uniqueEverseen.1 this)
    obtain ⟨x, hx, rfl⟩ := hflat a (List.mem_range.1 ha)
    refine ⟨x, hx, ?_⟩
    simp only [hac]
    exact (uniqueEverseen_nodup _).idxOf_getElem k hk'
  · intro k hk i hi
    rw [hpaths, List.length_map] at hk
    have hk' : k < cs.length := by omega
    simp only [hpaths, List.getElem_map] at hi
    rw [← hlen] at hi
    obtain ⟨a, ha, hac⟩ := (hget k hk hk').linear.2.2.2 i hi
    obtain ⟨x, hx, rfl⟩ := mem_lab_remap.1 ha
    refine ⟨x, hx, ?_⟩
    simp only [hac]
    exact (uniqueEverseen_nodup _).idxOf_getElem k hk'
  · intro x hx y hy hlt
    dsimp only at hlt ⊢
    rw [hcs, uniqueEverseen_idxOf (mem_uniqueEverseen.1 (hcolmem x hx)) (mem_uniqueEverseen.1 (hcolmem y hy))] at hlt
    have hi := List.idxOf_lt_length_of_mem (mem_uniqueEverseen.1 (hcolmem x hx))
    have hxc := List.getElem_idxOf hi
    rw [List.getElem_map, List.getElem_range] at hxc
    have hm' : ((List.range m).map col).idxOf (col (indexNo tsInds x)) < m := by simpa using hi
    obtain ⟨x', hx', e⟩ := hflat _ hm'
    have hle : ((List.range m).map col).idxOf (col (indexNo tsInds y)) ≤ indexNo tsInds y :=
      idxOf_le_of_getElem (by simpa using indexNo_lt hy) (by simp)
    refine ⟨x', hx', by rw [e, hxc], ?_⟩
    rw [← uniqueEverseen_idxOf hx' hy]
    show indexNo tsInds x' < indexNo tsInds y
    omega

theorem connInds_mem {tsInds : List (List ι)} {x y : ι} (h : ConnInds tsInds x y) :
    x = y ∨ (x ∈ tsInds.flatten ∧ y ∈ tsInds.flatten) := by
  induction h with
  | rel x y h =>
    obtain ⟨xs, hxs, h1, h2⟩ := h
    exact Or.inr ⟨List.mem_flatten.2 ⟨xs, hxs, h1⟩, List.mem_flatten.2 ⟨xs, hxs, h2⟩⟩
  | refl x => exact Or.inl rfl
  | symm x y _ ih => exact ih.imp Eq.symm And.symm
  | trans x y z _ _ ih1 ih2 =>
    rcases ih1 with rfl | h1
    · exact ih2
    · rcases ih2 with rfl | h2
      · exact Or.inr h1
      · exact Or.inr ⟨h1.1, h2.2⟩

theorem holds_of_mem {tsInds : List (List ι)} {x : ι} (h : x ∈ tsInds.flatten) : ∃ i, Holds tsInds i x := by
  obtain ⟨xs, hxs, hx⟩ := List.mem_flatten.1 h
  obtain ⟨i, hi, rfl⟩ := List.getElem_of_mem hxs
  exact ⟨i, by unfold Holds; rw [List.getD_eq_getElem _ _ hi]; exact hx⟩

/-- If tensors that share an index end up together, so do all the tensors of a connected component. -/
theorem conn_together {tsInds : List (List ι)} {paths : List (List (ℕ × ℕ))} (hv : ∀ p ∈ paths, ValidPath tsInds.length p)
    (hd : Disconnected tsInds.length paths)
    (hj : ∀ i j x, i ≠ j → Holds tsInds i x → Holds tsInds j x →
        ∃ p ∈ paths, ∃ t ∈ trace (initTerms tsInds.length) p, i ∈ t.tensors ∧ j ∈ t.tensors)
    {x y : ι} (h : ConnInds tsInds x y) : ∀ i j, Holds tsInds i x → Holds tsInds j y →
      i = j ∨ ∃ p ∈ paths, ∃ F u, replay (initTerms tsInds.length) p = some F ∧ u ∈ F ∧ i ∈ u.tensors ∧ j ∈ u.tensors ∧
        u.isPair = true := by
  set B : ℕ → ℕ → Prop := fun i j => i = j ∨ ∃ p ∈ paths, ∃ F u, replay (initTerms tsInds.length) p = some F ∧ u ∈ F ∧
    i ∈ u.tensors ∧ j ∈ u.tensors ∧ u.isPair = true with hB
  have share : ∀ i j x, Holds tsInds i x → Holds tsInds j x → B i j := by
    intro i j x hi hj'
    by_cases e : i = j
    · exact Or.inl e
    · obtain ⟨p, hp, t, ht, h1, h2⟩ := hj i j x e hi hj'
      obtain ⟨F, hF⟩ := hv p hp
      obtain ⟨u, hu, hs⟩ := trace_sub hF (Or.inr ht)
      exact Or.inr ⟨p, hp, F, u, hF, hu, hs.tensors h1, hs.tensors h2, hs.isPair (trace_isPair ht)⟩
  have symm : ∀ i j, B i j → B j i := by
    rintro i j (rfl | ⟨p, hp, F, u, h1, h2, h3, h4, h5⟩)
    · exact Or.inl rfl
    · exact Or.inr ⟨p, hp, F, u, h1, h2, h4, h3, h5⟩
  have trans : ∀ i j k, B i j → B j k → B i k := by
    rintro i j k (rfl | ⟨p, hp, F, u, h1, h2, h3, h4, h5⟩) h'
    · exact h'
    · rcases h' with rfl | ⟨q, hq, G, v, k1, k2, k3, k4, k5⟩
      · exact Or.inr ⟨p, hp, F, u, h1, h2, h3, h4, h5⟩
      · have t1 : Touches tsInds.length p j := (touches_iff h1 j).2 ⟨u, h2, h5, h4⟩
        have t2 : Touches tsInds.length q j := (touches_iff k1 j).2 ⟨v, k2, k5, k3⟩
        have hpq : p = q := by
          by_contra hne
          obtain ⟨a, ha, rfl⟩ := List.getElem_of_mem hp
          obtain ⟨b, hb, rfl⟩ := List.getElem_of_mem hq
          have hab : a ≠ b := fun e => hne (by subst e; rfl)
          have hpw := List.pairwise_iff_getElem.1 hd
          rcases lt_or_gt_of_ne hab with h' | h'
          · exact hpw a b ha hb h' j ⟨t1, t2⟩
          · exact hpw b a hb ha h' j ⟨t2, t1⟩
        subst hpq
        rw [h1, Option.some.injEq] at k1
        subst k1
        have := replay_disjoint h1 h2 k2 h4 k3
        subst this
        exact Or.inr ⟨p, hp, F, u, h1, h2, h3, k4, h5⟩
  induction h with
  | rel x y h =>
    intro i j hi hj'
    obtain ⟨xs, hxs, h1, h2⟩ := h
    obtain ⟨l, hl, rfl⟩ := List.getElem_of_mem hxs
    have e : ∀ z ∈ tsInds[l], Holds tsInds l z := fun z hz => by unfold Holds; rw [List.getD_eq_getElem _ _ hl]; exact hz
    exact trans i l j (share i l x hi (e x h1)) (share l j y (e y h2) hj')
  | refl x => exact fun i j hi hj' => share i j x hi hj'
  | symm x y _ ih => exact fun i j hi hj' => symm j i (ih j i hj' hi)
  | trans x y z hxy hyz ih1 ih2 =>
    intro i j hi hj'
    rcases connInds_mem hxy with rfl | ⟨-, hy⟩
    · exact ih2 i j hi hj'
    · obtain ⟨l, hl⟩ := holds_of_mem hy
      exact trans i l j (ih1 i l hi hl) (ih2 l j hl hj')

/-- C27: each of the random paths contracts the tensors it touches to a single one. -/
theorem C27_single (g : PyRng σ) (hg : g.Ok) (enum : Finset ℕ → List ℕ) (he : EnumOk enum) (s : σ) (tsInds : List (List ι))
    (fuel : ℕ) (paths : List (List (ℕ × ℕ))) (h : randomPaths g enum fuel s tsInds = some (.ok paths))
    (hf : tsInds.length + (uniqueEverseen tsInds.flatten).length < fuel) (p : List (ℕ × ℕ)) (hp : p ∈ paths) (hne : p ≠ []) :
    ∃ F u, replay (initTerms tsInds.length) p = some F ∧ F.filter Term.isPair = [u] := by
  obtain ⟨paths', h1, h2, h3, h4, h5, comp, c1, c2, c3, c4, -⟩ := C27_paths g hg enum he s tsInds
  rw [h1 fuel hf] at h
  simp only [Option.some.injEq, Except.ok.injEq] at h
  subst h
  obtain ⟨F, hF⟩ := h2 p hp
  obtain ⟨k, hk, rfl⟩ := List.getElem_of_mem hp
  have hF' : replay (initTerms tsInds.length) paths'[k] = some F := hF
  -- any two contracted terms are equal
  have huniq : ∀ u ∈ F, ∀ v ∈ F, u.isPair = true → v.isPair = true → u = v := by
    intro u hu v hv pu pv
    obtain ⟨i, hi⟩ := tensors_nonempty u
    obtain ⟨j, hj⟩ := tensors_nonempty v
    obtain ⟨x, hx, hxk⟩ := c4 k hk i ((touches_iff hF' i).2 ⟨u, hu, pu, hi⟩)
    obtain ⟨y, hy, hyk⟩ := c4 k hk j ((touches_iff hF' j).2 ⟨v, hv, pv, hj⟩)
    have hc := (c2 x hx.mem y hy.mem).1 (hxk.trans hyk.symm)
    rcases conn_together h2 h3 h5 hc i j hx hy with rfl | ⟨q, hq, G, w, w1, w2, w3, w4, w5⟩
    · exact replay_disjoint hF' hu hv hi hj
    · have hpq : q = paths'[k] := by
        by_contra hne
        obtain ⟨b, hb, rfl⟩ := List.getElem_of_mem hq
        have hab : b ≠ k := fun e => hne (by subst e; rfl)
        have hpw := List.pairwise_iff_getElem.1 h3
        have t1 := (touches_iff hF' i).2 ⟨u, hu, pu, hi⟩
        have t2 := (touches_iff w1 i).2 ⟨w, w2, w5, w3⟩
        rcases lt_or_gt_of_ne hab with h' | h'
        · exact hpw b k hb hk h' i ⟨t2, t1⟩
        · exact hpw k b hk hb h' i ⟨t1, t2⟩
      subst hpq
      rw [hF', Option.some.injEq] at w1
      subst w1
      exact (replay_disjoint hF' hu w2 hi w3).trans (replay_disjoint hF' w2 hv w4 hj)
  refine ⟨F, ?_⟩
  have hnil : F.filter Term.isPair ≠ [] := by
    intro e
    cases hpk : paths'[k] with
    | nil => exact hne hpk
    | cons st rest =>
      obtain ⟨x, y⟩ := st
      rw [hpk] at hF'
      obtain ⟨a, b, r, -, -, ht⟩ := replay_step hF'
      obtain ⟨u, hu, hs⟩ := trace_sub hF' (t := .pair a b) (Or.inr (by rw [ht]; simp))
      have : u ∈ F.filter Term.isPair := List.mem_filter.2 ⟨hu, hs.isPair rfl⟩
      rw [e] at this
      simp at this
  have hnd := (replay_nodup hF').filter Term.isPair
  match hl : F.filter Term.isPair with
  | [] => exact absurd hl hnil
  | [u] => exact ⟨u, hF, rfl⟩
  | u :: v :: r =>
    exfalso
    have m1 : u ∈ F.filter Term.isPair := by rw [hl]; simp
    have m2 : v ∈ F.filter Term.isPair := by rw [hl]; simp
    rw [List.mem_filter] at m1 m2
    have := huniq u m1.1 v m2.1 m1.2 m2.2
    rw [hl, List.nodup_cons] at hnd
    exact hnd.1 (by simp [this])

/-- C27: the merged path is valid, every one of its contractions is between two tensors that share an
index, and any two tensors that share an index end up in the same tensor; `autocomplete` goes on to contract everything,
in `n - 1` steps. -/
theorem C27_merged (g : PyRng σ) (hg : g.Ok) (enum : Finset ℕ → List ℕ) (he : EnumOk enum) (s : σ) (tsInds : List (List ι)) :
    ∃ path rest, (∀ fuel, tsInds.length + (uniqueEverseen tsInds.flatten).length < fuel →
        randomPath g enum fuel s tsInds false = some (.ok path) ∧
        randomPath g enum fuel s tsInds true = some (.ok (path ++ rest))) ∧
      ValidPath tsInds.length path ∧
      (∀ t ∈ trace (initTerms tsInds.length) path, ∃ a b, t = .pair a b ∧ Share tsInds a b) ∧
      (∀ i j x, i ≠ j → Holds tsInds i x → Holds tsInds j x →
        ∃ t ∈ trace (initTerms tsInds.length) path, i ∈ t.tensors ∧ j ∈ t.tensors) ∧
      (path ++ rest).length = tsInds.length - 1 ∧
      (0 < tsInds.length → ∃ u, replay (initTerms tsInds.length) (path ++ rest) = some [u]) := by
  obtain ⟨paths, h1, h2, h3, h4, h5, -⟩ := C27_paths g hg enum he s tsInds
  obtain ⟨path, F, m1, m2, -, -, m5⟩ := C28_merge tsInds.length paths h2 h3
  obtain ⟨path', rest, a1, a2, a3, a4⟩ := C28_autocomplete tsInds.length paths h2 h3
  rw [m1] at a1
  simp only [Except.ok.injEq] at a1
  subst a1
  refine ⟨path, rest, ?_, ⟨F, m2⟩, ?_, ?_, a3, a4⟩
  · intro fuel hf
    unfold randomPath
    rw [h1 fuel hf]
    simp only [m1, a2, and_self]
  · intro t ht
    obtain ⟨u, hu, hs⟩ := forall2_mem m5 ht
    obtain ⟨l, hl, hul⟩ := List.mem_flatten.1 hu
    obtain ⟨p, hp, rfl⟩ := List.mem_map.1 hl
    obtain ⟨a, b, rfl, x, ⟨i, hi, hxi⟩, ⟨j, hj, hxj⟩⟩ := h4 p hp u hul
    cases hs with
    | pair e1 e2 => exact ⟨_, _, rfl, x, ⟨i, (same_tensors e1 i).2 hi, hxi⟩, ⟨j, (same_tensors e2 j).2 hj, hxj⟩⟩
    | swap e1 e2 => exact ⟨_, _, rfl, x, ⟨j, (same_tensors e1 j).2 hj, hxj⟩, ⟨i, (same_tensors e2 i).2 hi, hxi⟩⟩
  · intro i j x hij hi hj
    obtain ⟨p, hp, u, hu, hui, huj⟩ := h5 i j x hij hi hj
    obtain ⟨t, ht, hs⟩ := forall2_mem_right m5 (List.mem_flatten.2 ⟨_, List.mem_map.2 ⟨p, hp, rfl⟩, hu⟩)
    exact ⟨t, ht, (same_tensors hs i).2 hui, (same_tensors hs j).2 huj⟩

/-- A generator which always returns the smallest values. -/
def zeroRng : PyRng Unit := ⟨fun _ s => (0, s), fun _ s => ((0, 1), s)⟩

theorem zeroRng_ok : zeroRng.Ok :=
  ⟨fun n _ h => h, fun n _ h => ⟨by show 0 < n; omega, by show 1 < n; omega, by show (0 : ℕ) ≠ 1; omega⟩⟩

/-- Two components, one of them with a hyper-index (`1`), and a tensor without indices. -/
example : (initR (remapInds [[0, 1], [1, 2], [1, 2, 3], [], [7, 8], [8]])).hc 1 = some 2 ∧
    PyRng.Ok zeroRng ∧ ConnInds [[0, 1], [1, 2], [1, 2, 3], [], [7, 8], [8]] 0 3 ∧
    Share [[0, 1], [1, 2], [1, 2, 3], [], [7, 8], [8]] (.tensor 0) (.pair (.tensor 4) (.tensor 2)) := by
  refine ⟨by decide +kernel, zeroRng_ok, ?_, ?_⟩
  · exact .trans _ 1 _ (.rel _ _ ⟨[0, 1], by decide, by decide, by decide⟩) (.rel _ _ ⟨[1, 2, 3], by decide, by decide, by decide⟩)
  · exact ⟨1, ⟨0, by decide, by unfold Holds; decide⟩, ⟨2, by decide, by unfold Holds; decide⟩⟩

end TNCO
