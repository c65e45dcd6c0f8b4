import Verif.Lemmas.RandomPath
import Mathlib.Logic.Relation

/-! Random contraction paths: components, linear format. -/

namespace TNCO
open Linear
variable {ι σ : Type} [DecidableEq ι]

theorem bisectLoop_eq {a : List ℕ} (hs : a.Pairwise (· < ·)) {x : ℕ} (hx : x ∈ a) (N : ℕ) : ∀ lo hi : ℕ, hi - lo ≤ N →
    lo ≤ a.idxOf x → a.idxOf x ≤ hi → hi ≤ a.length → bisectLoop a x lo hi = a.idxOf x := by
  have hk := List.idxOf_lt_length_of_mem hx
  have hax : a[a.idxOf x] = x := List.getElem_idxOf hk
  induction N with
  | zero =>
    intro lo hi h1 h2 h3 h4
    unfold bisectLoop
    rw [dif_neg (by omega)]; omega
  | succ N ih =>
    intro lo hi h1 h2 h3 h4
    unfold bisectLoop
    split
    · rename_i hlt
      have hmid : (lo + hi) / 2 < a.length := by omega
      simp only
      rw [List.getD_eq_getElem _ _ hmid]
      have hmono : ∀ i j (hi : i < a.length) (hj : j < a.length), i < j → a[i] < a[j] := fun i j hi hj hij =>
        List.pairwise_iff_getElem.1 hs i j hi hj hij
      split
      · rename_i hm
        have : (lo + hi) / 2 < a.idxOf x := by
          by_contra hge
          rcases Nat.lt_or_ge (a.idxOf x) ((lo + hi) / 2) with h5 | h5
          · have := hmono _ _ hk hmid h5; omega
          · have e : (lo + hi) / 2 = a.idxOf x := by omega
            simp only [e, hax] at hm; omega
        exact ih _ _ (by omega) (by omega) h3 h4
      · rename_i hm
        have : a.idxOf x ≤ (lo + hi) / 2 := by
          by_contra hge
          have := hmono _ _ hmid hk (by omega)
          omega
        exact ih _ _ (by omega) h2 this (by omega)
    · omega

theorem bisectLeft_eq {a : List ℕ} (hs : a.Pairwise (· < ·)) {x : ℕ} (hx : x ∈ a) : bisectLeft a x = a.idxOf x :=
  bisectLoop_eq hs hx a.length 0 a.length (by omega) (by omega) (List.idxOf_lt_length_of_mem hx).le (le_refl _)

theorem stepL_sorted {L : List ℕ} (hs : L.Pairwise (· < ·)) {x y z : ℕ} (hz : ∀ a ∈ L, a < z) :
    (stepL L x y z).Pairwise (· < ·) := by
  unfold stepL
  rw [List.pairwise_append]
  refine ⟨hs.sublist (List.erase_sublist.trans List.erase_sublist), List.pairwise_singleton _ _, ?_⟩
  intro a ha b hb
  rw [List.mem_singleton] at hb
  subst hb
  exact hz a (List.mem_of_mem_erase (List.mem_of_mem_erase ha))

theorem linearize_eq {c : List (ℕ × ℕ × ℕ)} {L : List ℕ} (hs : L.Pairwise (· < ·)) (hi : Inc L c) (hk : Ok L c) :
    linearize L c = .ok (lin L c) := by
  induction c generalizing L with
  | nil => rfl
  | cons t c ih =>
    obtain ⟨x, y, z⟩ := t
    obtain ⟨h1, h2, h3, h4, h5⟩ := hk
    have hn : L.Nodup := hs.imp fun hab => Nat.ne_of_lt hab
    obtain ⟨a, b, e1, -⟩ := popPair_idxOf hn h1 h2 h3
    unfold linearize
    rw [bisectLeft_eq hs h1, bisectLeft_eq hs h2]
    simp only
    rw [popPair_comm, e1]
    simp only
    rw [show (L.erase x).erase y ++ [z] = stepL L x y z from rfl, ih (stepL_sorted hs hi.1) hi.2 h5]
    rfl

/-- Two indices occur in the same tensor. -/
def SameTensor (ts : List (Finset ℕ)) (x y : ℕ) : Prop := ∃ t ∈ ts, x ∈ t ∧ y ∈ t

theorem SameTensor.mono {ts ts' : List (Finset ℕ)} (h : ∀ t ∈ ts, t ∈ ts') {x y : ℕ}
    (hxy : Relation.EqvGen (SameTensor ts) x y) : Relation.EqvGen (SameTensor ts') x y :=
by
  induction hxy with
  | rel a b hab => obtain ⟨t, ht, hx⟩ := hab; exact .rel _ _ ⟨t, h t ht, hx⟩
  | refl a => exact .refl _
  | symm a b _ ih => exact .symm _ _ ih
  | trans a b c _ _ ih1 ih2 => exact .trans _ _ _ ih1 ih2

theorem colorInds_spec {enum : Finset ℕ → List ℕ} (he : EnumOk enum) (rest : List (Finset ℕ)) :
    ∀ (done : List (Finset ℕ)) (i2c : ℕ → ℕ) (c2i : ℕ → Finset ℕ), (∀ x y, y ∈ c2i (i2c x) ↔ i2c y = i2c x) →
      (∀ t ∈ done, ∀ x ∈ t, ∀ y ∈ t, i2c x = i2c y) →
      (∀ x y, i2c x = i2c y → Relation.EqvGen (SameTensor done) x y) →
      (∀ t ∈ done ++ rest, ∀ x ∈ t, ∀ y ∈ t, colorInds enum i2c c2i rest x = colorInds enum i2c c2i rest y) ∧
      ∀ x y, colorInds enum i2c c2i rest x = colorInds enum i2c c2i rest y →
        Relation.EqvGen (SameTensor (done ++ rest)) x y := by
  induction rest with
  | nil =>
    intro done i2c c2i h1 h2 h3
    rw [List.append_nil]
    exact ⟨h2, h3⟩
  | cons xs rest ih =>
    intro done i2c c2i h1 h2 h3
    have hsub : ∀ t ∈ done, t ∈ done ++ [xs] := fun t ht => List.mem_append_left _ ht
    have e : done ++ xs :: rest = (done ++ [xs]) ++ rest := by simp
    unfold colorInds
    rw [e]
    split
    · rename_i hemp
      refine ih (done ++ [xs]) i2c c2i h1 ?_ fun x y hxy => SameTensor.mono hsub (h3 x y hxy)
      intro t ht x hx y hy
      rcases List.mem_append.1 ht with h | h
      · exact h2 t h x hx y hy
      · rw [List.mem_singleton] at h; subst h; rw [hemp] at hx; simp at hx
    · rename_i hne
      simp only
      set c := (enum (xs.image i2c)).headD 0 with hc
      have hcm : c ∈ xs.image i2c := by
        rw [hc, ← (he _).2]
        cases henum : enum (xs.image i2c) with
        | nil =>
          obtain ⟨x, hx⟩ := Finset.nonempty_iff_ne_empty.2 hne
          have : i2c x ∈ enum (xs.image i2c) := ((he _).2 _).2 (Finset.mem_image_of_mem _ hx)
          rw [henum] at this; simp at this
        | cons a l => simp
      set ys := (xs.image i2c).biUnion c2i with hys
      have mys : ∀ y, y ∈ ys ↔ ∃ x ∈ xs, i2c y = i2c x := by
        intro y
        rw [hys, Finset.mem_biUnion]
        constructor
        · rintro ⟨k, hk, hy⟩
          obtain ⟨x, hx, rfl⟩ := Finset.mem_image.1 hk
          exact ⟨x, hx, (h1 x y).1 hy⟩
        · rintro ⟨x, hx, hy⟩
          exact ⟨i2c x, Finset.mem_image_of_mem _ hx, (h1 x y).2 hy⟩
      have hout : ∀ y, y ∉ ys → i2c y ∉ xs.image i2c := by
        intro y hy hm
        obtain ⟨x, hx, hxy⟩ := Finset.mem_image.1 hm
        exact hy ((mys y).2 ⟨x, hx, hxy.symm⟩)
      refine ih (done ++ [xs]) _ _ ?_ ?_ ?_
      · intro x y
        by_cases hx : x ∈ ys
        · rw [if_pos hx, Function.update_self]
          by_cases hy : y ∈ ys
          · rw [if_pos hy]; simp [hy]
          · rw [if_neg hy]
            refine ⟨fun h => absurd h hy, fun h => absurd hcm ?_⟩
            rw [← h]; exact hout y hy
        · rw [if_neg hx, Function.update_of_ne (fun h : i2c x = c => hout x hx (h.symm ▸ hcm)), h1]
          by_cases hy : y ∈ ys
          · rw [if_pos hy]
            obtain ⟨z, hz, hyz⟩ := (mys y).1 hy
            constructor
            · intro h; exact absurd ((mys x).2 ⟨z, hz, h.symm.trans hyz⟩) hx
            · intro h; exact absurd (h ▸ hcm) (hout x hx)
          · rw [if_neg hy]
      · intro t ht x hx y hy
        rcases List.mem_append.1 ht with h | h
        · have hxy := h2 t h x hx y hy
          have : x ∈ ys ↔ y ∈ ys := by rw [mys, mys, hxy]
          by_cases hxy' : x ∈ ys
          · rw [if_pos hxy', if_pos (this.1 hxy')]
          · rw [if_neg hxy', if_neg (fun h => hxy' (this.2 h)), hxy]
        · rw [List.mem_singleton] at h; subst h
          rw [if_pos ((mys x).2 ⟨x, hx, rfl⟩), if_pos ((mys y).2 ⟨y, hy, rfl⟩)]
      · intro x y hxy
        have base : ∀ u v, i2c u = i2c v → Relation.EqvGen (SameTensor (done ++ [xs])) u v := fun u v h =>
          SameTensor.mono hsub (h3 u v h)
        by_cases hx : x ∈ ys <;> by_cases hy : y ∈ ys
        · obtain ⟨u, hu, hxu⟩ := (mys x).1 hx
          obtain ⟨v, hv, hyv⟩ := (mys y).1 hy
          exact ((base x u hxu).trans _ _ _ (.rel _ _ ⟨xs, by simp, hu, hv⟩)).trans _ _ _ (base v y hyv.symm)
        · rw [if_pos hx, if_neg hy] at hxy; exact absurd (hxy ▸ hcm) (hout y hy)
        · rw [if_neg hx, if_pos hy] at hxy; exact absurd (hxy ▸ hcm) (hout x hx)
        · rw [if_neg hx, if_neg hy] at hxy; exact base x y hxy

theorem colorInds_init {enum : Finset ℕ → List ℕ} (he : EnumOk enum) (ts : List (Finset ℕ)) :
    (∀ t ∈ ts, ∀ x ∈ t, ∀ y ∈ t, colorInds enum id (fun x => {x}) ts x = colorInds enum id (fun x => {x}) ts y) ∧
    ∀ x y, colorInds enum id (fun x => {x}) ts x = colorInds enum id (fun x => {x}) ts y →
      Relation.EqvGen (SameTensor ts) x y := by
  have := colorInds_spec he ts [] id (fun x => {x}) (by simp) (by simp) (by rintro x y (rfl : x = y); exact .refl _)
  simpa using this

theorem vals_cover {c : List (ℕ × ℕ × ℕ)} {L : List ℕ} (hn : L.Nodup) (h : Ok L c) (τ : ℕ → Term) {a k : ℕ} (ha : a ∈ L)
    (hk : k ∈ (τ a).tensors) : ∃ t ∈ final L c, k ∈ (vals τ c t).tensors := by
  induction c generalizing L τ a with
  | nil => exact ⟨a, ha, hk⟩
  | cons s c ih =>
    obtain ⟨x, y, z⟩ := s
    obtain ⟨h1, h2, h3, h4, h5⟩ := h
    have hn' := nodup_stepL (x := x) (y := y) hn h4
    by_cases hax : a = x ∨ a = y
    · refine ih hn' h5 _ (a := z) ((mem_stepL hn).2 (Or.inr rfl)) ?_
      rw [Function.update_self]
      rcases hax with rfl | rfl
      · simp [Term.tensors, hk]
      · simp [Term.tensors, hk]
    · rw [not_or] at hax
      refine ih hn' h5 _ (a := a) ((mem_stepL hn).2 (Or.inl ⟨ha, hax⟩)) ?_
      rw [Function.update_of_ne (fun e : a = z => h4 (e ▸ ha))]
      exact hk

theorem vals_or {c : List (ℕ × ℕ × ℕ)} {L : List ℕ} (hn : L.Nodup) (h : Ok L c) (τ : ℕ → Term) {t : ℕ} (ht : t ∈ final L c) :
    (t ∈ L ∧ vals τ c t = τ t) ∨ vals τ c t ∈ prods τ c := by
  induction c generalizing L τ with
  | nil => exact Or.inl ⟨ht, rfl⟩
  | cons s c ih =>
    obtain ⟨x, y, z⟩ := s
    obtain ⟨h1, h2, h3, h4, h5⟩ := h
    have hn' := nodup_stepL (x := x) (y := y) hn h4
    simp only [vals, prods, List.mem_cons]
    rcases ih hn' h5 (Function.update τ z (.pair (τ x) (τ y))) ht with ⟨g1, g2⟩ | g
    · rcases (mem_stepL hn).1 g1 with ⟨g3, -, -⟩ | g3
      · left
        rw [g2, Function.update_of_ne (fun e : t = z => h4 (e ▸ g3))]
        exact ⟨g3, rfl⟩
      · right; left
        rw [g2, g3, Function.update_self]
    · exact Or.inr (Or.inr g)

/-- What is known of the path of the component with colour `c`. -/
structure PathOk (ts0 : List (Finset ℕ)) (col : ℕ → ℕ) (c : ℕ) (path : List (ℕ × ℕ × ℕ)) : Prop where
  ok : Ok (List.range ts0.length) path
  inc : Inc (List.range ts0.length) path
  input : ∀ a, Input path a → ∃ x ∈ lab ts0 a, col x = c
  share : ∀ p ∈ prods .tensor path, TermShare ts0 p
  joined : ∀ i < ts0.length, ∀ j < ts0.length, i ≠ j → ∀ x, col x = c → x ∈ lab ts0 i → x ∈ lab ts0 j →
    ∃ p ∈ prods .tensor path, i ∈ p.tensors ∧ j ∈ p.tensors

theorem RInv.pathOk {ts0 col c st con path L} (h : RInv ts0 col c st [] con path L) : PathOk ts0 col c path where
  ok := h.ok
  inc := h.inc
  input a ha := by
    obtain ⟨x, hx, hc⟩ := h.usedc a (mem_used_of_input ha)
    have := List.mem_range.1 (h.ok.input List.nodup_range ha)
    exact ⟨x, by rw [← h.pre a this]; exact hx, hc⟩
  share := h.share
  joined i hi j hj hij x hxc hxi hxj := by
    have hn : (List.range ts0.length).Nodup := List.nodup_range
    obtain ⟨t, ht, hti⟩ := vals_cover hn h.ok .tensor (a := i) (k := i) (List.mem_range.2 hi) (by simp [Term.tensors])
    obtain ⟨t', ht', htj⟩ := vals_cover hn h.ok .tensor (a := j) (k := j) (List.mem_range.2 hj) (by simp [Term.tensors])
    rw [← h.fin] at ht ht'
    have htt : t = t' := by
      by_contra hne
      have i1 : InTerm ts0 (vals .tensor path t) x := ⟨i, hti, hxi⟩
      have i2 : InTerm ts0 (vals .tensor path t') x := ⟨j, htj, hxj⟩
      have l1 : x ∈ lab st.ts t := (h.closed t ht x hxc i1).resolve_right fun hh => hh t' ht' (Ne.symm hne) i2
      have l2 : x ∈ lab st.ts t' := (h.closed t' ht' x hxc i2).resolve_right fun hh => hh t ht hne i1
      have hnone := h.popped x hxc (by simp)
      rw [h.hc x hxc] at hnone
      have h2 : ¬ 2 ≤ cnt st.ts L x := fun h2 => by rw [if_pos h2] at hnone; simp at hnone
      apply h2
      unfold cnt
      rw [(perm_erase2 ht ht' hne).countP_eq, List.countP_cons_of_pos (by simpa using l1),
        List.countP_cons_of_pos (by simpa using l2)]
      omega
    subst htt
    rcases vals_or hn h.ok .tensor (by rw [← h.fin]; exact ht) with ⟨-, e⟩ | g
    · rw [e] at hti htj
      simp [Term.tensors] at hti htj
      omega
    · exact ⟨_, g, hti, htj⟩

/-- Before the component with colour in `cs` is visited. -/
structure Pending (ts0 : List (Finset ℕ)) (col : ℕ → ℕ) (cs : List ℕ) (st : RState) : Prop where
  len : ts0.length ≤ st.ts.length
  pre : ∀ t < ts0.length, lab st.ts t = lab ts0 t
  mono : ∀ t x y, x ∈ lab st.ts t → y ∈ lab st.ts t → col x = col y
  new : ∀ t x, ts0.length ≤ t → x ∈ lab st.ts t → col x ∉ cs
  i2t : ∀ x, col x ∈ cs → st.i2t x = (initR ts0).i2t x
  hc : ∀ x, col x ∈ cs → st.hc x = (initR ts0).hc x

theorem Pending.start {ts0 col c cs st m} (h : Pending ts0 col (c :: cs) st) (hm : ∀ t x, x ∈ lab ts0 t → x < m) :
    RInv ts0 col c st ((List.range m).filter fun x => col x = c) ∅ [] (List.range ts0.length) := by
  have hi : ∀ x, col x = c → st.i2t x = (List.range ts0.length).filter fun t => x ∈ lab ts0 t := fun x hx =>
    h.i2t x (by simp [hx])
  have hmem : ∀ x, col x = c → ∀ t, t ∈ st.i2t x ↔ x ∈ lab st.ts t := by
    intro x hx t
    rw [hi x hx, List.mem_filter, List.mem_range, decide_eq_true_eq]
    by_cases ht : t < ts0.length
    · rw [h.pre t ht]; simp [ht]
    · refine ⟨fun hh => absurd hh.1 ht, fun hh => ?_⟩
      exact absurd (by simp [hx]) (h.new t x (by omega) hh)
  have hcnt : ∀ x, col x = c → cnt st.ts (List.range ts0.length) x = (st.i2t x).length := by
    intro x hx
    rw [countP_eq_filter_length, hi x hx]
    congr 1
    refine List.filter_congr fun t ht => ?_
    rw [h.pre t (List.mem_range.1 ht)]
  have hhc : ∀ x, col x = c → st.hc x =
      if 2 ≤ cnt st.ts (List.range ts0.length) x then some ((cnt st.ts (List.range ts0.length) x : ℤ) - 1) else none := by
    intro x hx
    rw [hcnt x hx, h.hc x (by simp [hx]), h.i2t x (by simp [hx])]
    unfold initR
    simp only
    split_ifs <;> first | rfl | omega
  refine ⟨rfl, trivial, trivial, ?_, List.pairwise_lt_range, h.len, h.pre, h.mono, ?_, hmem, by simp, ?_, hhc, ?_, ?_, ?_,
    ?_, ?_, ?_⟩
  · intro t ht; have := h.len; have := List.mem_range.1 ht; omega
  · intro x hx; rw [hi x hx]; exact List.nodup_range.filter _
  · intro x hx t ht
    rw [hi x hx, List.mem_filter] at ht
    simp [List.mem_range.1 ht.1]
  · intro x hx
    simpa using (List.mem_filter.1 hx).2
  · intro x hx hxa
    rw [hhc x hx, if_neg]
    intro h2
    apply hxa
    rw [List.mem_filter, List.mem_range, decide_eq_true_eq]
    refine ⟨?_, hx⟩
    obtain ⟨t, ht, hxt⟩ := List.countP_pos_iff.1 (lt_of_lt_of_le (by omega : 0 < 2) h2)
    rw [decide_eq_true_eq, h.pre t (List.mem_range.1 ht)] at hxt
    exact hm t x hxt
  · intro a ha; cases ha
  · intro t ht x hx hxc
    rw [h.pre t (List.mem_range.1 ht)] at hx
    exact ⟨t, by simp [vals, Term.tensors], hx⟩
  · intro t ht x hxc hin
    left
    obtain ⟨k, hk, hxk⟩ := hin
    simp only [vals, Term.tensors, List.mem_singleton] at hk
    rw [h.pre t (List.mem_range.1 ht), ← hk]
    exact hxk
  · intro p hp; cases hp

theorem rcAll_spec {g : PyRng σ} (hg : g.Ok) {ts0 : List (Finset ℕ)} {col : ℕ → ℕ} {m : ℕ}
    (hm : ∀ t x, x ∈ lab ts0 t → x < m) (cs : List ℕ) (hcs : cs.Nodup) (s : σ) (st : RState) (h : Pending ts0 col cs st) :
    ∃ s' paths, (∀ fuel, ts0.length + m < fuel → rcAll g fuel s st
        (cs.map fun c => (List.range m).filter fun x => col x = c) = some (.ok (s', paths))) ∧
      List.Forall₂ (PathOk ts0 col) cs paths := by
  induction cs generalizing s st with
  | nil => exact ⟨s, [], fun _ _ => rfl, .nil⟩
  | cons c cs ih =>
    have hI := h.start hm
    obtain ⟨hc1, hc2⟩ := List.nodup_cons.1 hcs
    have hlen : (List.range ts0.length).length + ((List.range m).filter fun x => col x = c).length ≤ ts0.length + m := by
      have := List.length_filter_le (fun x => decide (col x = c)) (List.range m)
      simp only [List.length_range] at this ⊢
      omega
    obtain ⟨s1, st1, con, path, L, r1, r2, r3⟩ := rcLoop_spec hg _ s st _ _ _ _ hI hlen
    have hP : Pending ts0 col cs st1 := by
      refine ⟨h.len.trans r3.len, r2.pre, r2.mono, ?_, ?_, ?_⟩
      · intro t x ht hx hxc
        by_cases h1 : st.ts.length ≤ t
        · exact hc1 (r3.new t x h1 hx ▸ hxc)
        · rw [r3.pre t (by omega)] at hx
          exact h.new t x ht hx (by simp [hxc])
      · intro x hx
        rw [r3.i2t x (fun e => hc1 (e ▸ hx)), h.i2t x (by simp [hx])]
      · intro x hx
        rw [r3.hc x (fun e => hc1 (e ▸ hx)), h.hc x (by simp [hx])]
    obtain ⟨s2, paths, q1, q2⟩ := ih hc2 s1 st1 hP
    refine ⟨s2, path :: paths, ?_, .cons r2.pathOk q2⟩
    intro fuel hf
    rw [List.map_cons]
    unfold rcAll
    rw [r1 fuel hf]
    simp only
    rw [q1 fuel hf]

end TNCO
